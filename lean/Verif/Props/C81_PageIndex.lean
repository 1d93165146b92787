import Verif.Props.C50_Cache
import Verif.Spec.PageIndexView

/-!
# C81: only files with complete page indexes are read
-/

namespace Tonbo.Props.C81
open Tonbo.Model Tonbo.Model.PageIndex Tonbo.Spec.PageIndexView

variable {C : Type}

theorem checkGroups_ok : ∀ (i : Nat) (ns : List Nat) (cs os : List (List C)), cs.length = ns.length →
    os.length = ns.length → (checkGroups i ns cs os = .ok () ↔ Fits ns cs ∧ Fits ns os)
  | _, [], cs, os, hc, ho => by
    rw [List.length_nil, List.length_eq_zero_iff] at hc ho
    subst hc ho
    simp [checkGroups, Fits]
  | i, n :: ns, cs, os, hc, ho => by
    cases cs with
    | nil => simp at hc
    | cons c cs =>
      cases os with
      | nil => simp at ho
      | cons o os =>
        have ih := checkGroups_ok (i + 1) ns cs os (by simpa using hc) (by simpa using ho)
        unfold checkGroups
        simp only [Fits, List.map_cons, List.cons.injEq]
        by_cases h1 : c.length = n
        · rw [if_neg (by simpa using h1)]
          by_cases h2 : o.length = n
          · rw [if_neg (by simpa using h2), ih]
            simp [h1, h2, Fits]
          · rw [if_pos h2]
            simp [h2]
        · rw [if_pos h1]
          simp [h1]

/-- **C81.** The check lets a file through exactly if both indexes fit it. -/
theorem checked_exactly (m : Meta C) : validate m = .ok () ↔ Indexed m := by
  unfold validate
  by_cases hg : m.groups = []
  · rw [if_pos hg]
    unfold checkEmpty Indexed Fits
    rw [hg]
    cases hc : m.columns with
    | none =>
      cases ho : m.offsets with
      | none => simp
      | some o => cases o <;> simp
    | some c =>
      cases c with
      | nil =>
        cases ho : m.offsets with
        | none => simp
        | some o => cases o <;> simp
      | cons c cs => simp
  · rw [if_neg hg]
    cases hc : m.columns with
    | none => simp [Indexed, hc, hg]
    | some cs =>
      cases ho : m.offsets with
      | none => simp [Indexed, ho, hg]
      | some os =>
        simp only
        by_cases h1 : cs.length = m.groups.length
        · rw [if_neg (by simpa using h1)]
          by_cases h2 : os.length = m.groups.length
          · rw [if_neg (by simpa using h2), checkGroups_ok 0 m.groups cs os h1 h2]
            simp [Indexed, hc, ho]
          · rw [if_pos h2]
            refine ⟨(fun h => nomatch h), fun h => absurd ?_ h2⟩
            have := congrArg List.length (h.2.1 os ho)
            simpa using this
        · rw [if_pos h1]
          refine ⟨(fun h => nomatch h), fun h => absurd ?_ h1⟩
          have := congrArg List.length (h.1 cs hc)
          simpa using this

theorem load_spec {P : Type} (stored : P → Option (Meta C)) (path : P) (m : Meta C) :
    load stored path = some m ↔ stored path = some m ∧ Indexed m := by
  unfold load
  cases hs : stored path with
  | none => simp
  | some m' =>
    simp only
    cases hv : validate m' with
    | ok u =>
      have := (checked_exactly m').1 hv
      simp only [Option.some.injEq]
      exact ⟨fun e => ⟨e, e ▸ this⟩, fun h => h.1⟩
    | error e =>
      refine ⟨(fun h => nomatch h), fun h => ?_⟩
      obtain ⟨h1, h2⟩ := h
      cases h1
      rw [(checked_exactly m).2 h2] at hv
      cases hv

/-- **C81.** However queries that read files interleave, and whatever the cache holds or has forgotten: a query gets the
metadata of a file exactly if the file has it and both page indexes fit; it is told of an error otherwise. The cache never
holds anything else, and never more than its capacity. -/
theorem queries_get_indexed_files {P : Type} [DecidableEq P] (stored : P → Option (Meta C)) (capacity : Nat)
    (ops : List (Cache.Op P)) :
    ∃ s, PageIndex.run stored capacity ops = some s ∧ s.cache.entries.length ≤ max capacity 1 ∧
      (∀ t path m, s.tasks t = some (.done path (some m)) → stored path = some m ∧ Indexed m) ∧
      (∀ t path, s.tasks t = some (.done path none) → ∀ m, stored path = some m → ¬ Indexed m) ∧
      (∀ path m, Cache.kget s.cache path = some m → stored path = some m ∧ Indexed m) := by
  obtain ⟨s, h1, h2, h3, h4⟩ := C50.tasks_get_what_the_file_says (load stored) capacity ops
  refine ⟨s, h1, h2, ?_, ?_, ?_⟩
  · intro t path m ht
    exact (load_spec stored path m).1 (h3 t path _ ht).symm
  · intro t path ht m hm hi
    have := (load_spec stored path m).2 ⟨hm, hi⟩
    rw [← h3 t path _ ht] at this
    cases this
  · intro path m hk
    exact (load_spec stored path m).1 (h4 path m hk)

theorem checkGroups_error {g e n : Nat} : ∀ (ns : List Nat) (i : Nat) (cs os : List (List C)), cs.length = ns.length →
    os.length = ns.length →
    (checkGroups i ns cs os = .error (.columnCount g e n) →
      i ≤ g ∧ ns[g - i]? = some e ∧ e ≠ n ∧ (cs[g - i]?).map List.length = some n ∧
        Fits (ns.take (g - i)) (cs.take (g - i)) ∧ Fits (ns.take (g - i)) (os.take (g - i))) ∧
    (checkGroups i ns cs os = .error (.offsetCount g e n) →
      i ≤ g ∧ ns[g - i]? = some e ∧ e ≠ n ∧ (os[g - i]?).map List.length = some n ∧
        Fits (ns.take (g - i + 1)) (cs.take (g - i + 1)) ∧ Fits (ns.take (g - i)) (os.take (g - i))) := by
  intro ns
  induction ns with
  | nil => intro i cs os _ _; exact ⟨fun h => by simp [checkGroups] at h, fun h => by simp [checkGroups] at h⟩
  | cons k ns ih =>
    intro i cs os hc ho
    cases cs with
    | nil => simp at hc
    | cons c cs =>
      cases os with
      | nil => simp at ho
      | cons o os =>
        unfold checkGroups
        by_cases h1 : c.length = k
        · rw [if_neg (by simpa using h1)]
          by_cases h2 : o.length = k
          · rw [if_neg (by simpa using h2)]
            obtain ⟨ha, hb⟩ := ih (i + 1) cs os (by simpa using hc) (by simpa using ho)
            refine ⟨fun h => ?_, fun h => ?_⟩
            · obtain ⟨hi, a1, a2, a3, a4, a5⟩ := ha h
              have hsub : g - i = (g - (i + 1)) + 1 := by omega
              rw [hsub]
              simp only [List.getElem?_cons_succ, List.take_succ_cons, Fits, List.map_cons, h1, h2, List.cons.injEq,
                true_and]
              exact ⟨by omega, a1, a2, a3, a4, a5⟩
            · obtain ⟨hi, a1, a2, a3, a4, a5⟩ := hb h
              have hsub : g - i = (g - (i + 1)) + 1 := by omega
              rw [hsub]
              simp only [List.getElem?_cons_succ, List.take_succ_cons, Fits, List.map_cons, h1, h2, List.cons.injEq,
                true_and]
              exact ⟨by omega, a1, a2, a3, a4, a5⟩
          · rw [if_pos h2]
            refine ⟨(fun h => nomatch h), fun h => ?_⟩
            cases h
            simp [Fits, h1, Ne.symm h2]
        · rw [if_pos h1]
          refine ⟨fun h => ?_, (fun h => nomatch h)⟩
          cases h
          simp [Fits, Ne.symm h1]

/-- **C81.** The error names the first thing that is wrong: a missing index; then an index for another number of row groups;
then the first row group for which an index has another number of columns, the column index before the offset
index. -/
theorem the_error_says_what_is_wrong (m : Meta C) :
    (m.groups ≠ [] → m.columns = none → validate m = .error .columnsMissing) ∧
    (∀ cs, m.groups ≠ [] → m.columns = some cs → m.offsets = none → validate m = .error .offsetsMissing) ∧
    ∀ cs os, m.columns = some cs → m.offsets = some os →
      (cs.length ≠ m.groups.length → validate m = .error (.columnGroups m.groups.length cs.length)) ∧
      (cs.length = m.groups.length → os.length ≠ m.groups.length →
        validate m = .error (.offsetGroups m.groups.length os.length)) ∧
      (∀ g e n, validate m = .error (.columnCount g e n) →
        m.groups[g]? = some e ∧ e ≠ n ∧ (cs[g]?).map List.length = some n ∧
          Fits (m.groups.take g) (cs.take g) ∧ Fits (m.groups.take g) (os.take g)) ∧
      (∀ g e n, validate m = .error (.offsetCount g e n) →
        m.groups[g]? = some e ∧ e ≠ n ∧ (os[g]?).map List.length = some n ∧
          Fits (m.groups.take (g + 1)) (cs.take (g + 1)) ∧ Fits (m.groups.take g) (os.take g)) := by
  refine ⟨?_, ?_, ?_⟩
  · intro hg hc
    unfold validate
    rw [if_neg hg, hc]
  · intro cs hg hc ho
    unfold validate
    rw [if_neg hg, hc, ho]
  intro cs os hc ho
  by_cases hg : m.groups = []
  · have hv : validate m = checkEmpty m := by unfold validate; rw [if_pos hg]
    rw [hv]
    unfold checkEmpty
    rw [hc, ho, hg]
    cases cs with
    | nil =>
      cases os with
      | nil => simp
      | cons o os => simp
    | cons c cs => simp
  · have hv : validate m =
        if cs.length ≠ m.groups.length then .error (.columnGroups m.groups.length cs.length)
        else if os.length ≠ m.groups.length then .error (.offsetGroups m.groups.length os.length)
        else checkGroups 0 m.groups cs os := by
      unfold validate; rw [if_neg hg, hc, ho]
    rw [hv]
    by_cases h1 : cs.length = m.groups.length
    · rw [if_neg (by simpa using h1)]
      by_cases h2 : os.length = m.groups.length
      · rw [if_neg (by simpa using h2)]
        refine ⟨fun h => absurd h1 h, fun _ h => absurd h2 h, fun g e n h => ?_, fun g e n h => ?_⟩
        · exact ((checkGroups_error m.groups 0 cs os h1 h2).1 h).2
        · exact ((checkGroups_error m.groups 0 cs os h1 h2).2 h).2
      · rw [if_pos h2]
        refine ⟨fun h => absurd h1 h, fun _ _ => rfl, ?_, ?_⟩ <;> (intro g e n h; cases h)
    · rw [if_pos h1]
      refine ⟨fun _ => rfl, fun h => absurd h h1, ?_, ?_⟩ <;> (intro g e n h; cases h)

/-! ## Cases -/

/-- Two row groups of two columns: complete; without offsets; with a column too few in the second group; a file of
deletions only, without row groups. -/
example : validate (⟨[2, 2], some [[1, 2], [3, 4]], some [[5, 6], [7, 8]]⟩ : Meta Nat) = .ok () ∧
    validate (⟨[2, 2], some [[1, 2], [3, 4]], none⟩ : Meta Nat) = .error .offsetsMissing ∧
    validate (⟨[2, 2], some [[1, 2], [3]], some [[5, 6], [7, 8]]⟩ : Meta Nat) = .error (.columnCount 1 2 1) ∧
    validate (⟨[2, 2], some [[1, 2]], some [[5, 6], [7, 8]]⟩ : Meta Nat) = .error (.columnGroups 2 1) ∧
    validate (⟨[], none, some []⟩ : Meta Nat) = .ok () ∧
    validate (⟨[], none, some [[1]]⟩ : Meta Nat) = .error (.offsetGroups 0 1) := by decide +kernel

example : Indexed (⟨[2, 2], some [[1, 2], [3, 4]], some [[5, 6], [7, 8]]⟩ : Meta Nat) :=
  (checked_exactly _).1 (by decide +kernel)

/-- Two tasks read a good and a bad file through a cache for one, the good one twice. -/
def files : Nat → Option (Meta Nat)
  | 0 => some ⟨[1], some [[1]], some [[1]]⟩
  | 1 => some ⟨[1], none, none⟩
  | _ => none

/-- What a task returned. -/
def answer (s : Cache.St Nat (Meta Nat)) (t : Nat) : Option (Nat × Option (Meta Nat)) :=
  match s.tasks t with
  | some (.done p r) => some (p, r)
  | _ => none

example : (PageIndex.run files 1 [.start 0 0, .start 1 1, .finish 1, .finish 0, .start 2 0]).map
      (fun s => (s.cache.entries, answer s 0, answer s 1, answer s 2)) =
    some ([(0, ⟨[1], some [[1]], some [[1]]⟩)], some (0, some ⟨[1], some [[1]], some [[1]]⟩), some (1, none),
      some (0, some ⟨[1], some [[1]], some [[1]]⟩)) := rfl

end Tonbo.Props.C81
