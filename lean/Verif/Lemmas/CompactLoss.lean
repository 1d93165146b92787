import Verif.Lemmas.CompactFiles

/-!
# A merge that loses a row

A file with more rows than one batch holds, and a deletion behind the rows of the first batch.
-/

set_option linter.unusedSectionVars false

namespace Tonbo.Lemmas.Compact
open Tonbo.Model Tonbo.Model.Mem Tonbo.Model.Sst Tonbo.Model.Flush Tonbo.Model.Compact Tonbo.Spec

/-- Rows for the keys `0` to `n` and a deletion of the key `n + 5`. -/
def lossy (n : Nat) : File Nat Nat :=
  ⟨(List.range (n + 1)).map (fun i => (⟨i, 1⟩, i)), [⟨n + 5, 1⟩]⟩

/-- The first batch of `n` rows. -/
def first (n : Nat) : Batch Nat Nat := ⟨(List.range n).map (fun i => (⟨i, 1⟩, i)), some [⟨n + 5, 1⟩]⟩

/-- The second batch. -/
def second (n : Nat) : Batch Nat Nat := ⟨[(⟨n, 1⟩, n)], none⟩

theorem lossy_batches {n : Nat} (hn : 0 < n) : fileBatches n (lossy n) = [first n, second n] := by
  have hl : (lossy n).data.length = n + 1 := by simp [lossy]
  have hd : (lossy n).data = (first n).data ++ (second n).data := by
    simp [lossy, first, second, List.range_succ]
  have h1 : (first n).data.length = n := by simp [first]
  unfold fileBatches
  rw [hl]
  have hne : (lossy n).data ≠ [] := by
    intro h; rw [h] at hl; simp at hl
  obtain ⟨a, l, hal⟩ := List.exists_cons_of_ne_nil hne
  have hch : chunks n (n + 1) (lossy n).data =
      (lossy n).data.take n :: chunks n n ((lossy n).data.drop n) := by rw [hal, chunks]
  rw [hch, hd, List.take_left' h1, List.drop_left' h1, chunks_one (by simp [second]) (by simp [second]; omega)
    (by simp [second]; omega)]
  rw [show (lossy n).dels = [⟨n + 5, 1⟩] from rfl, chunks_one (by simp) (by simp) (by simp; omega)]
  rfl

/-- The source after `j` rows of the first batch. -/
def at_ (n j : Nat) : Cursor Nat Nat := ⟨some (first n), j, 0, [second n]⟩

theorem first_kts (n : Nat) (j : Nat) : ((first n).kts .data)[j]? = if j < n then some ⟨j, 1⟩ else none := by
  simp only [first, Batch.kts, List.map_map, List.getElem?_map, List.getElem?_range', List.getElem?_range]
  by_cases h : j < n <;> simp [h]

theorem first_len (n : Nat) : ((first n).kts .data).length = n ∧ ((first n).kts .del).length = 1 := by
  simp [first, Batch.kts]

theorem head_data (n j : Nat) : headOf 0 (at_ n j) .data =
    if j < n then some ⟨⟨j, 1⟩, j, .data, 0, j⟩ else none := by
  simp only [headOf, at_, Cursor.idx, first_kts]
  by_cases h : j < n <;> simp [h]

theorem head_del (n j : Nat) : headOf 0 (at_ n j) .del = some ⟨⟨n + 5, 1⟩, 0, .del, 0, 0⟩ := by
  simp [headOf, at_, Cursor.idx, Batch.kts, first]

/-- The states of the merge. -/
def Run (n : Nat) (srcs : List (Cursor Nat Nat)) (heap : List (HEntry Nat)) : Prop :=
  Weak srcs heap ∧ ((∃ j ≤ n, srcs = [at_ n j] ∧ heap.Perm (entries 0 srcs)) ∨ heap = [])

theorem steps_run (H : Heap Nat) {n : Nat} (hn : 0 < n) : Steps H (Run n)
    (fun _ heap L => (∀ w ∈ L, w.1.key ≠ n) ∧ (heap ≠ [] → L ≠ [])) := by
  refine ⟨?_, fun _ => ⟨by simp, by simp⟩⟩
  rintro srcs heap h' e ⟨hw, hrun⟩ h2 h3
  have hne : heap ≠ [] := by
    intro h; rw [h] at h2; exact absurd h2.length_eq (by simp)
  rcases hrun with ⟨j, hj, rfl, hperm⟩ | h
  swap
  · exact absurd h hne
  obtain ⟨c, x, t, hc, hr, hrow, hxe, srcs', heap', g0, g1, g3, hgt, _⟩ := (steps_weak H).step hw h2 h3
  refine ⟨c, x, t, hc, hr, hrow, hxe, srcs', heap', g0, ⟨g1, ?_⟩, g3, hgt, ?_⟩
  · -- where the merge goes
    by_cases hlt : j < n
    · left
      refine ⟨j + 1, hlt, ?_⟩
      have hent : entries 0 [at_ n j] =
          [⟨⟨j, 1⟩, j, .data, 0, j⟩, ⟨⟨n + 5, 1⟩, 0, .del, 0, 0⟩] := by
        simp [entries, head_data, head_del, hlt]
      rw [hent] at hperm
      have hp := h2.symm.trans hperm
      have hee : e = ⟨⟨j, 1⟩, j, .data, 0, j⟩ := by
        have hm : e ∈ [(⟨⟨j, 1⟩, j, .data, 0, j⟩ : HEntry Nat), ⟨⟨n + 5, 1⟩, 0, .del, 0, 0⟩] :=
          hp.mem_iff.1 List.mem_cons_self
        rcases List.mem_cons.1 hm with h | h
        · exact h
        · rw [List.mem_singleton] at h
          subst h
          have hm2 : (⟨⟨j, 1⟩, j, .data, 0, j⟩ : HEntry Nat) ∈ h' := by
            have := hp.mem_iff.2 (List.mem_cons_self (a := (⟨⟨j, 1⟩, j, .data, 0, j⟩ : HEntry Nat)))
            rcases List.mem_cons.1 this with h | h
            · cases h
            · exact h
          have := kt_key_le (ge_le (h3 _ hm2))
          simp only at this
          omega
      subst hee
      have hh' : h' = [⟨⟨n + 5, 1⟩, 0, .del, 0, 0⟩] := List.perm_singleton.1 ((List.perm_cons _).1 hp)
      subst hh'
      have htg : takeGroup H j 1 [(⟨⟨n + 5, 1⟩, 0, .del, 0, 0⟩ : HEntry Nat)] =
          ([], [⟨⟨n + 5, 1⟩, 0, .del, 0, 0⟩]) := by
        obtain ⟨t1, t2, t3⟩ := takeGroup_spec H (g := j) 1 [(⟨⟨n + 5, 1⟩, 0, .del, 0, 0⟩ : HEntry Nat)]
          (by simp) (by simp; omega)
        have hg : (takeGroup H j 1 [(⟨⟨n + 5, 1⟩, 0, .del, 0, 0⟩ : HEntry Nat)]).1 = [] := by
          apply List.eq_nil_iff_forall_not_mem.2
          intro y hy
          have hy' := t1.mem_iff.1 (List.mem_append_right _ hy)
          rw [List.mem_singleton] at hy'
          have := t2 y hy
          rw [hy'] at this
          simp only at this
          omega
        rw [hg, List.append_nil] at t1
        exact Prod.ext hg (List.perm_singleton.1 t1)
      simp only [List.length_singleton] at g0
      rw [htg] at g0
      have hadv : (at_ n j).advance .data = at_ n (j + 1) := by
        have hl := first_len n
        simp only [Cursor.advance, at_, Cursor.bump, hl.1, hl.2]
        rw [if_neg (by omega)]
      have henq : (at_ n (j + 1)).enqueue .data 0 (some j) =
          some (at_ n (j + 1), headOf 0 (at_ n (j + 1)) .data) := by
        unfold Cursor.enqueue
        rw [enqueueLoop]
        have he : (at_ n (j + 1)).ensure = at_ n (j + 1) := rfl
        rw [he, head_data]
        simp only [at_, Cursor.idx, first_kts]
        by_cases h : j + 1 < n <;> simp [h]
      simp only [refillAll, refill, List.getElem?_cons_zero, hadv, henq, Option.some.injEq,
        Prod.mk.injEq, List.set_cons_zero] at g0
      obtain ⟨rfl, rfl⟩ := g0
      refine ⟨rfl, ?_⟩
      simp [entries, head_del]
    · right
      have hjn : j = n := by omega
      subst hjn
      have hent : entries 0 [at_ j j] = [⟨⟨j + 5, 1⟩, 0, .del, 0, 0⟩] := by
        simp [entries, head_data, head_del]
      rw [hent] at hperm
      have hp := h2.symm.trans hperm
      have hpe := List.perm_singleton.1 hp
      simp only [List.cons.injEq] at hpe
      obtain ⟨rfl, rfl⟩ := hpe
      have hadv : (at_ j j).advance .del = ⟨none, 0, 0, [second j]⟩ := by
        have hl := first_len j
        simp only [Cursor.advance, at_, Cursor.bump, hl.1, hl.2]
        rw [if_pos (by omega)]
      have henq : (⟨none, 0, 0, [second j]⟩ : Cursor Nat Nat).enqueue .del 0 (some (j + 5)) =
          some (⟨some (second j), 0, 0, []⟩, none) := by
        simp [Cursor.enqueue, enqueueLoop, Cursor.ensure, second, Batch.kts]
      simp only [takeGroup, List.length_nil, refillAll, refill, List.getElem?_cons_zero, hadv, henq,
        Option.some.injEq, Prod.mk.injEq, Option.toList_none, List.append_nil] at g0
      exact g0.2.symm
  · rintro L ⟨hL, _⟩
    refine ⟨?_, fun _ => by simp⟩
    intro w hw'
    rcases List.mem_cons.1 hw' with rfl | hw'
    · rw [hxe]
      have hm := hperm.mem_iff.1 (h2.mem_iff.2 List.mem_cons_self)
      simp only [entries, head_data, head_del, List.append_nil, List.mem_append, Option.mem_toList] at hm
      rcases hm with hm | hm
      · by_cases h : j < n
        · rw [if_pos h] at hm
          cases hm
          exact Nat.ne_of_lt h
        · rw [if_neg h] at hm; cases hm
      · cases hm
        simp
    · exact hL w hw'

/-- Whatever the heap does: the row `n` is lost. -/
theorem merge_loses {n : Nat} (hn : 0 < n) (H : Heap Nat) (cfg : Cfg Nat Nat) (next : Option Nat)
    (h1 : cfg.budget = none) (h2 : cfg.maxRows = none) (h3 : cfg.maxBytes = none) :
    ∃ tables, execute cfg H next [fileBatches n (lossy n)] = .ok tables ∧
      ∀ w, FilesHold (tables.map (·.file)) w → w.key ≠ n := by
  have hmap : [[first n, second n]].map (fun bs => (Cursor.new bs).ensure) = [at_ n 0] := rfl
  have hsort : FileSorted (lossy n) := by
    refine ⟨List.pairwise_map.2 ?_, by simp [lossy]⟩
    refine List.Pairwise.imp ?_ List.pairwise_lt_range
    intro a b h
    exact le_of_lt (KT.lt_def.2 (.inl h))
  have hsrc : Run n ([[first n, second n]].map (fun bs => (Cursor.new bs).ensure))
      (entries 0 ([[first n, second n]].map (fun bs => (Cursor.new bs).ensure))) := by
    refine ⟨⟨?_, ?_, entries_apart _ _⟩, .inl ⟨0, by omega, hmap, List.Perm.refl _⟩⟩
    · intro c hc
      obtain ⟨bs, hbs, rfl⟩ := List.mem_map.1 hc
      rw [List.mem_singleton] at hbs
      intro k
      rw [pend_new, hbs, ← lossy_batches hn]
      exact fileBatches_sorted hn hsort k
    · intro e he
      obtain ⟨c, _, g1, g2⟩ := mem_entries he
      exact ⟨c, g1, g2⟩
  rw [lossy_batches hn]
  obtain ⟨L, hL, hres⟩ := execute_gen (steps_run H hn) cfg next [[first n, second n]] hsrc
    (fun srcs heap _ hne hL => hL.2 hne rfl)
  have hne : entries 0 ([[first n, second n]].map (fun bs => (Cursor.new bs).ensure)) ≠ [] := by
    rw [hmap]; simp [entries, head_del]
  rcases hres with ⟨h, _⟩ | ⟨_, tables, parts, he, hrep, hfl, _⟩ | ⟨e, _, hx⟩
  · exact absurd h (hL.2 hne)
  · refine ⟨tables, he, ?_⟩
    intro w hw
    rw [outputs_hold hrep, hfl] at hw
    exact hL.1 _ hw
  · exfalso
    rcases hx with ⟨_, m, hm, _⟩ | ⟨_, _, hm | hm⟩
    · rw [h1] at hm; cases hm
    · exact hm h2
    · exact hm h3

end Tonbo.Lemmas.Compact
