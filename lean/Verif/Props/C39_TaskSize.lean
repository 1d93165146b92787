import Verif.Props.C39_Planner

/-!
# C39: how large a compaction can get

`max_inputs_per_task` is documented as the most files of a task, and `max_task_bytes` as the most bytes "across all selected
inputs" (planner.rs:182-186). Both bound what is taken from the source level only (`PlanOk.count`, `PlanOk.bytes`).
-/

namespace Tonbo.Props.C39
open Tonbo.Model.Manifest Tonbo.Model.Planner Tonbo.Spec Tonbo.Lemmas.Planner

/-- A table of `b` bytes with the keys from `lo` to `hi`. -/
def tableOf (id b lo hi : Nat) : Entry (Info Nat) :=
  ⟨id, some [], ⟨some ⟨1, b, 0, some lo, some hi, some 1, some 1⟩, ⟨1, id⟩, none⟩⟩

/-- One table on level 1, and `k + 1` tables with one key each on level 2. -/
def wide (k b : Nat) : Version (Info Nat) :=
  ⟨1, 1, [[], [tableOf 0 1 0 k], (List.range (k + 1)).map (fun i => tableOf (i + 1) b i i)], [], none, none⟩

theorem wide_ok (k b : Nat) : VersionOk (wide k b) := by
  refine ⟨?_, ?_, List.Pairwise.nil, ⟨fun _ => rfl, fun _ => rfl⟩, fun _ h => by cases h⟩
  · intro t ht
    simp only [wide, List.mem_cons, List.not_mem_nil, or_false] at ht
    rcases ht with rfl | rfl | rfl
    · exact List.Pairwise.nil
    · exact List.pairwise_singleton _ _
    · rw [List.pairwise_map]
      exact List.pairwise_lt_range.imp (fun h => by simp only [tableOf]; omega)
  · simp [wide]

/-- **The limits do not bound a task.** For all limits on the files and the bytes of a task, and all numbers and sizes:
there is a version for which the planner makes a task with that many files of that size, all of the next level. -/
theorem limits_do_not_bound_a_task (S : Sorter Nat) (maxInputs cap k b : Nat) :
    ∃ t, planVersion S ⟨8, 6, none, [0], [], maxInputs, some cap⟩ (wide k b) 0 = some t ∧
      ∃ es : List (Entry (Info Nat)), es.length = k + 1 ∧ (es.map (·.id)).Nodup ∧
        ∀ e ∈ es, Listed (wide k b) ⟨2, e.id⟩ e ∧ sizeOf' e = b ∧ (⟨2, e.id⟩ : Input) ∈ t.input := by
  obtain ⟨t, ht⟩ : ∃ t, planVersion S ⟨8, 6, none, [0], [], maxInputs, some cap⟩ (wide k b) 0 = some t := by
    refine Option.ne_none_iff_exists'.1 ((plan_iff_over_limit S _ _ (wide_ok k b) 0).2 ⟨1, Nat.zero_le _, ?_, ?_⟩)
    · simp [wide]
    · exact ⟨0, rfl, .inl (by simp [wide])⟩
  refine ⟨t, ht, (List.range (k + 1)).map (fun i => tableOf (i + 1) b i i), by simp, ?_, ?_⟩
  · rw [List.map_map]
    refine List.Nodup.map ?_ List.nodup_range
    intro i j h
    simpa [tableOf] using h
  obtain ⟨⟨src, more, p⟩, ho, _⟩ := plans_are_well_formed S _ _ (wide_ok k b) 0 t ht
  have hs : t.source = 1 := by
    unfold OverLimit at ho
    by_cases h0 : t.source = 0
    · rw [if_pos h0] at ho
      rcases ho with ho | ⟨c, hc, _⟩
      · simp [wide] at ho
      · cases hc
    · rw [if_neg h0] at ho
      obtain ⟨limit, hl, _⟩ := ho
      have := (List.getElem?_eq_some_iff.1 hl).1
      simp at this
      omega
  have hsrc : ∀ e ∈ src, e = tableOf 0 1 0 k := by
    intro e he
    have := p.srcListed e he
    rw [hs] at this
    simpa [wide] using this
  obtain ⟨a, ha⟩ := List.exists_mem_of_ne_nil _ p.nonempty
  intro e he
  have hin : e ∈ (wide k b).ssts.getD 2 [] := he
  obtain ⟨i, hi, rfl⟩ := List.mem_map.1 he
  rw [List.mem_range] at hi
  refine ⟨⟨hin, rfl⟩, rfl, ?_⟩
  have hm : tableOf (i + 1) b i i ∈ more := by
    have ea := hsrc a ha
    refine p.overlap (by omega) (fun x hx => ?_) a ha a ha _ (by rw [hs]; exact hin) 0 k i i ?_ ?_ rfl rfl (by omega) (Nat.zero_le _)
    · rw [hsrc x hx]; simp [tableOf]
    · rw [ea]; rfl
    · rw [ea]; rfl
  rw [p.input, hs]
  exact List.mem_append_right _ (List.mem_map_of_mem hm)

/-- One such task: limits of one file and five bytes, three files and 41 bytes in the task. -/
example : planVersion exSorter ⟨8, 6, none, [0], [], 1, some 5⟩ (wide 1 20) 0 =
    some ⟨1, 2, [⟨1, 0⟩, ⟨2, 1⟩, ⟨2, 2⟩], some (0, 1)⟩ := by decide

end Tonbo.Props.C39
