import Verif.Model.Compact
import Verif.Spec.Mvcc
import Mathlib.Data.List.Basic

/-!
# Cursors over the sources of a merge
-/

set_option linter.unusedSectionVars false

namespace Tonbo.Lemmas.Compact
open Tonbo.Model Tonbo.Model.Mem Tonbo.Model.Sst Tonbo.Model.Flush Tonbo.Model.Compact Tonbo.Spec

variable {K R : Type} [LinearOrder K]

/-- The other kind. -/
def other : Kind → Kind
  | .data => .del
  | .del => .data

@[simp] theorem other_other (k : Kind) : other (other k) = k := by cases k <;> rfl

theorem eq_or_other (a b : Kind) : a = b ∨ a = other b := by cases a <;> cases b <;> simp [other]

/-- Entries of one kind, with the row if there is one. -/
def items (b : Batch K R) : Kind → List (KT K × Option R)
  | .data => b.data.map (fun p => (p.1, some p.2))
  | .del => (b.del.getD []).map (fun kt => (kt, none))

theorem items_kts (b : Batch K R) (k : Kind) : (items b k).map (·.1) = b.kts k := by
  cases k <;> simp [items, Batch.kts, Function.comp_def]

theorem items_length (b : Batch K R) (k : Kind) : (b.kts k).length = (items b k).length := by
  rw [← items_kts, List.length_map]

/-- Entries left in the current batch. -/
def rem (c : Cursor K R) (k : Kind) : List (KT K × Option R) :=
  match c.batch with
  | none => []
  | some b => (items b k).drop (c.idx k)

/-- Entries left in the source. -/
def pend (c : Cursor K R) (k : Kind) : List (KT K × Option R) :=
  rem c k ++ c.rest.flatMap (fun b => items b k)

/-- One kind ends the current batch, and the later batches hold that kind only. -/
def Ends (c : Cursor K R) (k : Kind) : Prop :=
  ∃ l, (rem c k).getLast? = some l ∧ (∀ x ∈ rem c (other k), x.1.key < l.1.key) ∧
    ∀ b ∈ c.rest, items b k ≠ [] ∧ items b (other k) = []

/-- A cursor that can still deliver everything it has left. -/
def CurOk (c : Cursor K R) : Prop :=
  match c.batch with
  | none => c.rest = [] ∧ c.di = 0 ∧ c.xi = 0
  | some _ => (∃ k, rem c k ≠ []) ∧ (c.rest = [] ∨ ∃ k, Ends c k)

/-- The heap entry of the first entry left of one kind. -/
def headOf (i : Nat) (c : Cursor K R) (k : Kind) : Option (HEntry K) :=
  match c.batch with
  | none => none
  | some b => ((b.kts k)[c.idx k]?).map (fun kt => ⟨kt, c.idx k, k, i, c.idx k⟩)

theorem ensure_of_some {c : Cursor K R} {b : Batch K R} (h : c.batch = some b) : c.ensure = c := by
  simp [Cursor.ensure, h]

theorem ensure_idem (c : Cursor K R) : c.ensure.ensure = c.ensure := by
  unfold Cursor.ensure
  cases h : c.batch with
  | some b => simp [h]
  | none =>
    cases h' : c.rest with
    | nil => simp
    | cons b r => simp

theorem ensure_of_ok {c : Cursor K R} (h : CurOk c) : c.ensure = c := by
  unfold Cursor.ensure
  unfold CurOk at h
  cases hb : c.batch with
  | some b => rfl
  | none =>
    rw [hb] at h
    obtain ⟨h1, h2, h3⟩ := h
    simp only [h1]
    cases c; simp_all

theorem getElem?_kts (b : Batch K R) (k : Kind) (i : Nat) :
    (b.kts k)[i]? = ((items b k).drop i).head?.map (·.1) := by
  rw [← items_kts, List.getElem?_map, List.head?_drop]

theorem headOf_rem {i : Nat} {c : Cursor K R} {k : Kind} :
    headOf i c k = (rem c k).head?.map (fun p => ⟨p.1, c.idx k, k, i, c.idx k⟩) := by
  unfold headOf rem
  cases hb : c.batch with
  | none => rfl
  | some b => simp only [getElem?_kts, Option.map_map, Function.comp_def]

/-- What is left starts in the current batch. -/
theorem pend_nil_of_rem {c : Cursor K R} (h : CurOk c) {k : Kind} (hr : rem c k = []) : pend c k = [] := by
  unfold pend
  rw [hr, List.nil_append, List.flatMap_eq_nil_iff]
  intro b hb
  unfold CurOk at h
  cases hc : c.batch with
  | none => rw [hc] at h; rw [h.1] at hb; cases hb
  | some b0 =>
    rw [hc] at h
    rcases h.2 with h | ⟨k', l, h1, _, h3⟩
    · rw [h] at hb; cases hb
    · rcases eq_or_other k' k with rfl | rfl
      · rw [hr] at h1; cases h1
      · have := (h3 b hb).2
        rwa [other_other] at this

theorem pend_head {c : Cursor K R} (h : CurOk c) (k : Kind) : (pend c k).head? = (rem c k).head? := by
  cases hr : rem c k with
  | nil => rw [pend_nil_of_rem h hr]
  | cons a l => simp [pend, hr]

theorem bump_rem (c : Cursor K R) (k : Kind) : rem (c.bump k) k = (rem c k).tail := by
  unfold rem
  cases k <;> simp [Cursor.bump, Cursor.idx] <;> cases c.batch <;> simp

theorem bump_rem_other (c : Cursor K R) (k : Kind) : rem (c.bump k) (other k) = rem c (other k) := by
  unfold rem
  cases k <;> simp [Cursor.bump, Cursor.idx, other]

theorem bump_rest (c : Cursor K R) (k : Kind) : (c.bump k).rest = c.rest := by cases k <;> rfl

theorem bump_batch (c : Cursor K R) (k : Kind) : (c.bump k).batch = c.batch := by cases k <;> rfl

theorem bump_idx_other (c : Cursor K R) (k : Kind) : (c.bump k).idx (other k) = c.idx (other k) := by
  cases k <;> rfl

theorem rem_length (c : Cursor K R) (b : Batch K R) (hb : c.batch = some b) (k : Kind) :
    (rem c k).length = (b.kts k).length - c.idx k := by
  simp [rem, hb, items_length]

theorem left_eq (c : Cursor K R) : c.left = (rem c .data).length + (rem c .del).length +
    (c.rest.map (fun b => (items b .data).length + (items b .del).length)).sum := by
  unfold Cursor.left
  cases hb : c.batch with
  | none => simp [rem, hb, items_length]
  | some b =>
    simp only [rem_length c b hb, items_length]
    rfl

theorem left_eq' (c : Cursor K R) (k : Kind) : c.left = (rem c k).length + (rem c (other k)).length +
    (c.rest.map (fun b => (items b k).length + (items b (other k)).length)).sum := by
  rw [left_eq]
  cases k
  · rfl
  · simp only [other]
    rw [Nat.add_comm (rem c .data).length]
    congr 2
    apply List.map_congr_left
    intro b _
    omega

/-- `advance`, then `ensure_batch`: the first entry of that kind is consumed. -/
theorem advance_spec {c : Cursor K R} (h : CurOk c) {k : Kind} {x : KT K × Option R}
    {t : List (KT K × Option R)} (hr : rem c k = x :: t) (g : K) (hx : x.1.key = g)
    (ho : ∀ y ∈ rem c (other k), g ≤ y.1.key) (i : Nat) :
    CurOk (c.advance k).ensure ∧ pend (c.advance k).ensure k = (pend c k).tail ∧
      pend (c.advance k).ensure (other k) = pend c (other k) ∧
      headOf i (c.advance k).ensure (other k) = headOf i c (other k) ∧
      (c.advance k).ensure.left < c.left := by
  cases hb : c.batch with
  | none => simp [rem, hb] at hr
  | some b =>
    have hok := h
    unfold CurOk at h
    rw [hb] at h
    have hb' : (c.bump k).batch = some b := by rw [bump_batch, hb]
    have hd1 : ∀ k', (b.kts k').length ≤ (c.bump k).idx k' ↔ rem (c.bump k) k' = [] := by
      intro k'
      rw [← List.length_eq_zero_iff, rem_length _ b hb']
      omega
    have hrt : rem (c.bump k) k = t := by rw [bump_rem, hr]; rfl
    have hro := bump_rem_other c k
    have hcond : ((b.kts .data).length ≤ (c.bump k).di ∧ (b.kts .del).length ≤ (c.bump k).xi) ↔
        (t = [] ∧ rem c (other k) = []) := by
      have e1 := hd1 .data
      have e2 := hd1 .del
      rw [← hrt, ← hro]
      cases k
      · exact and_congr e1 e2
      · rw [and_comm]; exact and_congr e2 e1
    have hadv : c.advance k = if (b.kts .data).length ≤ (c.bump k).di ∧
        (b.kts .del).length ≤ (c.bump k).xi
        then { c.bump k with batch := none, di := 0, xi := 0 } else c.bump k := by
      simp only [Cursor.advance, hb']
    by_cases hdone : t = [] ∧ rem c (other k) = []
    · rw [if_pos (hcond.2 hdone)] at hadv
      obtain ⟨rfl, hor⟩ := hdone
      have hpo : pend c (other k) = [] := pend_nil_of_rem hok hor
      cases hrest : c.rest with
      | nil =>
        have he : (c.advance k).ensure = ⟨none, 0, 0, []⟩ := by
          rw [hadv]
          simp [Cursor.ensure, bump_rest, hrest]
        rw [he]
        refine ⟨⟨rfl, rfl, rfl⟩, ?_, ?_, ?_, ?_⟩
        · have : pend c k = [x] := by simp [pend, hr, hrest]
          rw [this]; rfl
        · rw [hpo]; simp [pend, rem]
        · rw [headOf_rem, headOf_rem, hor]; simp [rem]
        · rw [left_eq' c k, hr]; simp [Cursor.left]; omega
      | cons b1 r1 =>
        have he : (c.advance k).ensure = ⟨some b1, 0, 0, r1⟩ := by
          rw [hadv]
          simp [Cursor.ensure, bump_rest, hrest]
        have hends : ∀ b ∈ c.rest, items b k ≠ [] ∧ items b (other k) = [] := by
          rcases h.2 with h | ⟨k', l, h1, _, h3⟩
          · rw [h] at hrest; cases hrest
          · rcases eq_or_other k' k with rfl | rfl
            · exact h3
            · rw [hor] at h1; cases h1
        rw [hrest] at hends
        obtain ⟨n1, n2⟩ := hends b1 List.mem_cons_self
        have hrem1 : ∀ k', rem (⟨some b1, 0, 0, r1⟩ : Cursor K R) k' = items b1 k' := by
          intro k'; cases k' <;> simp [rem, Cursor.idx]
        rw [he]
        refine ⟨⟨⟨k, by rw [hrem1]; exact n1⟩, .inr ⟨k, (items b1 k).getLast n1, ?_, ?_, ?_⟩⟩, ?_, ?_, ?_, ?_⟩
        · rw [hrem1]; exact List.getLast?_eq_some_getLast n1
        · rw [hrem1, n2]; intro x hx; cases hx
        · intro b' hb'
          exact hends b' (List.mem_cons_of_mem _ hb')
        · simp [pend, hrem1, hr, hrest]
        · simp only [pend, hrem1, hor, hrest, n2, List.flatMap_cons, List.nil_append]
        · rw [headOf_rem, headOf_rem, hor, hrem1, n2]; rfl
        · rw [left_eq' c k, left_eq' _ k, hrem1, hrem1, hr, hor, hrest, n2]
          simp [n2]
    · rw [if_neg (fun hc => hdone (hcond.1 hc))] at hadv
      have he : (c.advance k).ensure = c.bump k := by
        rw [hadv]; exact ensure_of_some hb'
      rw [he]
      refine ⟨?_, ?_, ?_, ?_, ?_⟩
      · unfold CurOk
        rw [hb']
        refine ⟨?_, ?_⟩
        · by_cases ht : t = []
          · exact ⟨other k, by rw [hro]; exact fun e => hdone ⟨ht, e⟩⟩
          · exact ⟨k, by rw [hrt]; exact ht⟩
        · rw [bump_rest]
          rcases h.2 with h | ⟨k', l, h1, h2, h3⟩
          · exact .inl h
          · refine .inr ⟨k', l, ?_, ?_, by rw [bump_rest]; exact h3⟩
            · rcases eq_or_other k' k with rfl | rfl
              · rw [hrt]
                rw [hr] at h1
                cases ht : t with
                | nil =>
                  subst ht
                  simp only [List.getLast?_singleton, Option.some.injEq] at h1
                  subst h1
                  obtain ⟨y, hy⟩ := List.exists_mem_of_ne_nil _ (fun e => hdone ⟨rfl, e⟩)
                  have := h2 y hy
                  rw [hx] at this
                  exact absurd (ho y hy) (not_le_of_gt this)
                | cons a t' =>
                  rw [ht, List.getLast?_cons_cons] at h1
                  exact h1
              · rw [hro]; exact h1
            · rcases eq_or_other k' k with rfl | rfl
              · rw [hro]; exact h2
              · rw [other_other, hrt]
                intro y hy
                rw [other_other, hr] at h2
                exact h2 y (List.mem_cons_of_mem _ hy)
      · simp [pend, hrt, hr, bump_rest]
      · simp [pend, hro, bump_rest]
      · rw [headOf_rem, headOf_rem, hro, bump_idx_other]
      · rw [left_eq' c k, left_eq' _ k, hrt, hro, hr, bump_rest]
        simp

/-- `enqueue` while skipping the key `g`. -/
theorem enqueueLoop_spec {k : Kind} {i : Nat} {g : K} : ∀ (n : Nat) (c : Cursor K R),
    CurOk c.ensure → (∀ y ∈ pend c.ensure (other k), g ≤ y.1.key) → c.ensure.left < n →
    ∃ c', enqueueLoop k i (some g) n c = some (c', headOf i c' k) ∧ CurOk c' ∧
      pend c' k = (pend c.ensure k).dropWhile (fun p => decide (p.1.key = g)) ∧
      pend c' (other k) = pend c.ensure (other k) ∧
      headOf i c' (other k) = headOf i c.ensure (other k)
  | 0, c, _, _, h => by omega
  | n + 1, c, hok, ho, hl => by
    rw [enqueueLoop]
    cases hb : c.ensure.batch with
    | none =>
      have hp : ∀ k', pend c.ensure k' = [] := fun k' => pend_nil_of_rem hok (by simp [rem, hb])
      refine ⟨c.ensure, ?_, hok, ?_, rfl, rfl⟩
      · simp [hb, headOf]
      · rw [hp]; rfl
    | some b =>
      simp only [hb]
      cases hr : rem c.ensure k with
      | nil =>
        have hg : (b.kts k)[c.ensure.idx k]? = none := by
          have := headOf_rem (i := i) (c := c.ensure) (k := k)
          rw [hr] at this
          simpa [headOf, hb] using this
        refine ⟨c.ensure, ?_, hok, ?_, rfl, rfl⟩
        · rw [headOf_rem, hr]
          simp only [hg]
          rfl
        · rw [pend_nil_of_rem hok hr]; rfl
      | cons x t =>
        have hg : (b.kts k)[c.ensure.idx k]? = some x.1 := by
          rw [getElem?_kts]
          have : (items b k).drop (c.ensure.idx k) = rem c.ensure k := by simp [rem, hb]
          rw [this, hr]; rfl
        simp only [hg]
        by_cases hs : x.1.key = g
        · rw [if_pos (by rw [hs])]
          have ho' : ∀ y ∈ rem c.ensure (other k), g ≤ y.1.key := fun y hy =>
            ho y (List.mem_append_left _ hy)
          obtain ⟨a1, a2, a3, a4, a5⟩ := advance_spec hok hr g hs ho' i
          have a3' := a3
          obtain ⟨c', e1, e2, e3, e4, e5⟩ := enqueueLoop_spec (k := k) (i := i) (g := g) n
            (c.ensure.advance k) a1 (by rw [a3]; exact ho) (by omega)
          refine ⟨c', e1, e2, ?_, by rw [e4, a3], by rw [e5, a4]⟩
          rw [e3, a2]
          have : pend c.ensure k = x :: (t ++ c.ensure.rest.flatMap (fun b => items b k)) := by
            simp [pend, hr]
          rw [this, List.tail_cons, List.dropWhile_cons_of_pos (by simp [hs])]
        · rw [if_neg (by rintro e; exact hs (Option.some.inj e).symm)]
          refine ⟨c.ensure, ?_, hok, ?_, rfl, rfl⟩
          · rw [headOf_rem, hr]; rfl
          · have : pend c.ensure k = x :: (t ++ c.ensure.rest.flatMap (fun b => items b k)) := by
              simp [pend, hr]
            rw [this, List.dropWhile_cons_of_neg (by simp [hs])]

/-- `enqueue` at the start: nothing is skipped. -/
theorem enqueue_none {k : Kind} {i : Nat} {c : Cursor K R} :
    c.enqueue k i none = some (c.ensure, headOf i c.ensure k) := by
  unfold Cursor.enqueue
  rw [enqueueLoop]
  unfold headOf
  cases hb : c.ensure.batch with
  | none => simp
  | some b =>
    simp only
    cases hg : (b.kts k)[c.ensure.idx k]? with
    | none => simp
    | some kt => simp

/-- Advancing and refilling one kind while the key `g` is skipped. -/
theorem refill_spec {c : Cursor K R} (h : CurOk c) {k : Kind} {x : KT K × Option R}
    {t : List (KT K × Option R)} (hr : rem c k = x :: t) {g : K} (hx : x.1.key = g)
    (ho : ∀ y ∈ pend c (other k), g ≤ y.1.key) (i : Nat) :
    ∃ c', (c.advance k).enqueue k i (some g) = some (c', headOf i c' k) ∧ CurOk c' ∧
      pend c' k = (pend c k).dropWhile (fun p => decide (p.1.key = g)) ∧
      pend c' (other k) = pend c (other k) ∧
      headOf i c' (other k) = headOf i c (other k) := by
  obtain ⟨a1, a2, a3, a4, a5⟩ := advance_spec h hr g hx (fun y hy => ho y (List.mem_append_left _ hy)) i
  have hle : (c.advance k).ensure.left ≤ (c.advance k).left := by
    unfold Cursor.ensure
    cases hb : (c.advance k).batch with
    | some b => exact Nat.le_refl _
    | none =>
      cases hrest : (c.advance k).rest with
      | nil => simp [Cursor.left, hb, hrest]
      | cons b r => simp [Cursor.left, hb, hrest]
  obtain ⟨c', e1, e2, e3, e4, e5⟩ := enqueueLoop_spec (k := k) (i := i) (g := g)
    ((c.advance k).left + 1) (c.advance k) a1 (by rw [a3]; exact ho) (by omega)
  refine ⟨c', e1, e2, ?_, by rw [e4, a3], by rw [e5, a4]⟩
  rw [e3, a2]
  have : pend c k = x :: (t ++ c.rest.flatMap (fun b => items b k)) := by simp [pend, hr]
  rw [this, List.tail_cons, List.dropWhile_cons_of_pos (by simp [hx])]

end Tonbo.Lemmas.Compact
