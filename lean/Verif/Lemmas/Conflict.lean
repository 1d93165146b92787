import Verif.Lemmas.Runs

/-!
# What the conflict checks find
-/

set_option linter.unusedSectionVars false

namespace Tonbo.Lemmas.Mem
open Tonbo.Model Tonbo.Model.Mem Tonbo.Spec

variable {K R : Type} [LinearOrder K]

/-- Of every write the log keeps the last one of its key and timestamp. -/
theorem exists_lastWrite (log : List (Ver K R)) (w : Ver K R) (h : w ∈ log) :
    ∃ u, LastWrite log u ∧ u.key = w.key ∧ u.ts = w.ts := by
  induction log using List.reverseRecOn with
  | nil => simp at h
  | append_singleton log u ih =>
    by_cases hu : u.key = w.key ∧ u.ts = w.ts
    · exact ⟨u, lastWrite_snoc.2 (.inl rfl), hu⟩
    · rcases List.mem_append.1 h with h | h
      · obtain ⟨v, hv, h1, h2⟩ := ih h
        refine ⟨v, lastWrite_snoc.2 (.inr ⟨hv, ?_⟩), h1, h2⟩
        rintro ⟨a, b⟩
        exact hu ⟨a.trans h1, b.trans h2⟩
      · rw [List.mem_singleton.1 h] at hu
        exact absurd ⟨rfl, rfl⟩ hu

theorem window {k : K} {x : KT K} :
    inBounds (.incl ⟨k, tsMax⟩) (.incl ⟨k, 0⟩) x = true ↔ x.key = k ∧ x.ts ≤ tsMax := by
  simp only [inBounds, aboveLo, belowHi, Bool.and_eq_true, decide_eq_true_eq, KT.le_def]
  constructor
  · rintro ⟨h1 | ⟨h1, h1'⟩, h2 | ⟨h2, _⟩⟩
    · exact absurd (lt_trans h1 h2) (lt_irrefl _)
    · exact absurd h2 (ne_of_gt h1)
    · exact absurd h1 (ne_of_gt h2)
    · exact ⟨h2, h1'⟩
  · rintro ⟨rfl, h⟩
    exact ⟨.inr ⟨rfl, h⟩, .inr ⟨rfl, Nat.zero_le _⟩⟩

theorem content_of_mem {ext : R → Option K} {s : Inner K R} (h : WF ext s) {e : KT K × Loc} (he : e ∈ s.index) :
    ∃ w, Content s s.index w ∧ w.key = e.1.key ∧ w.ts = e.1.ts := by
  have hp := h.points e he
  obtain ⟨kt, loc⟩ := e
  cases loc with
  | up b r =>
    obtain ⟨row, h1, h2⟩ := hp
    exact ⟨⟨kt.key, kt.ts, .put row⟩, ⟨_, he, by simp [res, h1]⟩, rfl, rfl⟩
  | dl b r => exact ⟨⟨kt.key, kt.ts, .del⟩, ⟨_, he, by simp [res]⟩, rfl, rfl⟩

/-- The check of the mutable table finds exactly the writes of the key after the snapshot. -/
theorem mem_conflict_iff {ext : R → Option K} {s : Inner K R} {log : List (Ver K R)} (h : Rep ext s log)
    (hts : ∀ w ∈ log, w.ts ≤ tsMax) (k : K) (snap : Nat) :
    Mem.hasConflict s k snap = true ↔ ∃ w ∈ log, w.key = k ∧ snap < w.ts := by
  have hin : ∀ e ∈ s.index, ∃ w ∈ log, w.key = e.1.key ∧ w.ts = e.1.ts := by
    intro e he
    obtain ⟨w, hw, h1, h2⟩ := content_of_mem h.1 he
    exact ⟨w, lastWrite_mem ((h.2 w).1 hw), h1, h2⟩
  unfold Mem.hasConflict
  constructor
  · intro hc
    split at hc
    · cases hc
    · rename_i e l heq
      have he : e ∈ s.index.filter (fun e => inBounds (.incl ⟨k, tsMax⟩) (.incl ⟨k, 0⟩) e.1) := by
        rw [heq]; exact List.mem_cons_self
      obtain ⟨he, hb⟩ := List.mem_filter.1 he
      obtain ⟨w, hw, h1, h2⟩ := hin e he
      exact ⟨w, hw, h1.trans (window.1 hb).1, by rw [h2]; exact of_decide_eq_true hc⟩
  · rintro ⟨w, hw, hk, hlt⟩
    obtain ⟨u, hu, h1, h2⟩ := exists_lastWrite log w hw
    obtain ⟨loc, hl, _⟩ := (h.2 u).2 hu
    have hmem : (⟨u.key, u.ts⟩, loc) ∈ s.index.filter (fun e => inBounds (.incl ⟨k, tsMax⟩) (.incl ⟨k, 0⟩) e.1) :=
      List.mem_filter.2 ⟨hl, window.2 ⟨h1.trans hk, by rw [h2]; exact hts w hw⟩⟩
    have hs : (s.index.filter (fun e => inBounds (.incl ⟨k, tsMax⟩) (.incl ⟨k, 0⟩) e.1)).Pairwise
        (fun a b => a.1 < b.1) := h.1.sorted.filter _
    split
    · rename_i heq
      rw [heq] at hmem
      cases hmem
    · rename_i e l heq
      rw [heq] at hmem hs
      have hek : inBounds (.incl ⟨k, tsMax⟩) (.incl ⟨k, 0⟩) e.1 = true := by
        have : e ∈ s.index.filter (fun e => inBounds (.incl ⟨k, tsMax⟩) (.incl ⟨k, 0⟩) e.1) := by
          rw [heq]; exact List.mem_cons_self
        exact (List.mem_filter.1 this).2
      apply decide_eq_true
      rcases List.mem_cons.1 hmem with hm | hm
      · rw [← hm]
        show snap < u.ts
        rw [h2]; exact hlt
      · rcases KT.lt_def.1 (List.rel_of_pairwise_cons hs hm) with hc | ⟨_, hc⟩
        · rw [(window.1 hek).1] at hc
          exact absurd (h1.trans hk) (ne_of_gt hc)
        · have hc : u.ts < e.1.ts := hc
          omega

theorem Imm.content_of_mem {ext : R → Option K} {m : Imm K R} (h : Imm.WF ext m) {e : KT K × Option Nat}
    (he : e ∈ m.index) : ∃ w, Imm.Content m w ∧ w.key = e.1.key ∧ w.ts = e.1.ts := by
  have hp := h.points e he
  obtain ⟨kt, o⟩ := e
  cases o with
  | some i =>
    obtain ⟨row, h1, h2⟩ := hp i rfl
    exact ⟨⟨kt.key, kt.ts, .put row⟩, ⟨_, he, by simp [Imm.res, h1]⟩, rfl, rfl⟩
  | none => exact ⟨⟨kt.key, kt.ts, .del⟩, ⟨_, he, by simp [Imm.res]⟩, rfl, rfl⟩

/-- So does the check of a frozen run. -/
theorem imm_conflict_iff {ext : R → Option K} {m : Imm K R} {log : List (Ver K R)} (h : Imm.Rep ext m log)
    (hts : ∀ w ∈ log, w.ts ≤ tsMax) (k : K) (snap : Nat) :
    m.hasConflict k snap = true ↔ ∃ w ∈ log, w.key = k ∧ snap < w.ts := by
  unfold Imm.hasConflict
  rw [List.any_eq_true]
  constructor
  · rintro ⟨e, he, hc⟩
    obtain ⟨he, hb⟩ := List.mem_filter.1 he
    obtain ⟨w, hw, h1, h2⟩ := Imm.content_of_mem h.1 he
    exact ⟨w, lastWrite_mem ((h.2 w).1 hw), h1.trans (window.1 hb).1, by rw [h2]; exact of_decide_eq_true hc⟩
  · rintro ⟨w, hw, hk, hlt⟩
    obtain ⟨u, hu, h1, h2⟩ := exists_lastWrite log w hw
    obtain ⟨o, hl, _⟩ := (h.2 u).2 hu
    refine ⟨(⟨u.key, u.ts⟩, o), List.mem_filter.2 ⟨hl, window.2 ⟨h1.trans hk, ?_⟩⟩, decide_eq_true ?_⟩
    · show u.ts ≤ tsMax
      rw [h2]; exact hts w hw
    · show snap < u.ts
      rw [h2]; exact hlt

end Tonbo.Lemmas.Mem
