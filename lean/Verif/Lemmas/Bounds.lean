import Verif.Spec.Bounds
import Verif.Lemmas.PredEval
import Verif.Props.C10_Prefix

set_option linter.unusedSectionVars false

/-!
# Key bounds
-/

namespace Tonbo.Lemmas.Bounds
open Tonbo.Spec Tonbo.Model.Pred Tonbo.Model.Keys Tonbo.Model.Bounds Tonbo.Lemmas.Pred
open Tonbo.Lemmas.PredEval Tonbo.Lemmas.Keys Tonbo.Lemmas.Str

/-- Position of a key in the order. -/
def pos (k : List Cell) : List V := k.map rank

/-- The keys of the bounds are well behaved. -/
def GoodBounds (b : KeyBounds) : Prop :=
  (∀ lo, b.lower = some lo → GoodKey lo.key) ∧ ∀ hi, b.upper = some hi → GoodKey hi.key

/-- `AboveLower` in terms of positions. -/
def Above (lo : Bound) (x : List V) : Prop := pos lo.key < x ∨ (lo.inclusive = true ∧ pos lo.key = x)
def Below (hi : Bound) (x : List V) : Prop := x < pos hi.key ∨ (hi.inclusive = true ∧ x = pos hi.key)

theorem above_iff {lo : Bound} {k : List Cell} (h : GoodKey lo.key) (hk : GoodKey k) :
    AboveLower lo k ↔ Above lo (pos k) := by
  unfold AboveLower Above pos
  rw [rowCmp_lt h hk, rowCmp_eq h hk]

theorem below_iff {hi : Bound} {k : List Cell} (h : GoodKey hi.key) (hk : GoodKey k) :
    BelowUpper hi k ↔ Below hi (pos k) := by
  unfold BelowUpper Below pos
  rw [rowCmp_lt hk h, rowCmp_eq hk h]

/-- `Inside` in terms of positions. -/
def In (b : KeyBounds) (x : List V) : Prop :=
  b.empty = false ∧ (∀ lo, b.lower = some lo → Above lo x) ∧ ∀ hi, b.upper = some hi → Below hi x

theorem inside_iff {b : KeyBounds} {k : List Cell} (h : GoodBounds b) (hk : GoodKey k) :
    Inside b k ↔ In b (pos k) := by
  unfold Inside In
  constructor
  · rintro ⟨h1, h2, h3⟩
    exact ⟨h1, fun lo e => (above_iff (h.1 lo e) hk).1 (h2 lo e),
      fun hi e => (below_iff (h.2 hi e) hk).1 (h3 hi e)⟩
  · rintro ⟨h1, h2, h3⟩
    exact ⟨h1, fun lo e => (above_iff (h.1 lo e) hk).2 (h2 lo e),
      fun hi e => (below_iff (h.2 hi e) hk).2 (h3 hi e)⟩

theorem good_none' : GoodBounds .none' := ⟨(fun _ h => by cases h), (fun _ h => by cases h)⟩

theorem good_withLower {k : Key} {i : Bool} (h : GoodKey k) : GoodBounds (withLower k i) :=
  ⟨(fun _ e => by cases e; exact h), (fun _ h => by cases h)⟩
theorem good_withUpper {k : Key} {i : Bool} (h : GoodKey k) : GoodBounds (withUpper k i) :=
  ⟨(fun _ h => by cases h), (fun _ e => by cases e; exact h)⟩

theorem normalize_lower (b : KeyBounds) : (normalize b).lower = b.lower := by
  unfold normalize
  repeat' split
  all_goals rfl
theorem normalize_upper (b : KeyBounds) : (normalize b).upper = b.upper := by
  unfold normalize
  repeat' split
  all_goals rfl

theorem good_normalize {b : KeyBounds} (h : GoodBounds b) : GoodBounds (normalize b) := by
  unfold GoodBounds
  rw [normalize_lower, normalize_upper]; exact h

theorem good_withRange {lo hi : Bound} (h1 : GoodKey lo.key) (h2 : GoodKey hi.key) :
    GoodBounds (withRange lo hi) :=
  good_normalize ⟨(fun _ e => by cases e; exact h1), (fun _ e => by cases e; exact h2)⟩

/-- Marking inconsistent bounds as empty changes nothing. -/
theorem in_normalize {b : KeyBounds} (h : GoodBounds b) (x : List V) : In (normalize b) x ↔ In b x := by
  unfold In
  rw [normalize_lower, normalize_upper]
  constructor
  · rintro ⟨h1, h2⟩
    refine ⟨?_, h2⟩
    unfold normalize at h1
    revert h1
    repeat' split
    all_goals simp
  · rintro ⟨h1, h2, h3⟩
    refine ⟨?_, h2, h3⟩
    unfold normalize
    split
    · rename_i lo hi e1 e2
      have a := h2 lo e1
      have b' := h3 hi e2
      have g1 := h.1 lo e1
      have g2 := h.2 hi e2
      split
      · rename_i hc
        have hc : pos hi.key < pos lo.key := (rowCmp_gt g1 g2).1 hc
        rcases a with a | ⟨_, a⟩ <;> rcases b' with b' | ⟨_, b'⟩
        · exact absurd (a.trans b') (lt_asymm hc)
        · rw [b'] at a; exact absurd a (lt_asymm hc)
        · rw [← a] at b'; exact absurd b' (lt_asymm hc)
        · rw [← a] at b'; rw [b'] at hc; exact absurd hc (lt_irrefl _)
      · rename_i hc
        have hc : pos lo.key = pos hi.key := (rowCmp_eq g1 g2).1 hc
        split
        · exact h1
        · rename_i hi'
          exfalso
          apply hi'
          rw [Bool.and_eq_true]
          rcases a with a | ⟨i1, a⟩ <;> rcases b' with b' | ⟨i2, b'⟩
          · rw [hc] at a; exact absurd (a.trans b') (lt_irrefl _)
          · rw [b', hc] at a; exact absurd a (lt_irrefl _)
          · rw [← a, hc] at b'; exact absurd b' (lt_irrefl _)
          · exact ⟨i1, i2⟩
      · exact h1
    · exact h1

theorem maxLower_good {a b : Option Bound} (ha : ∀ x, a = some x → GoodKey x.key)
    (hb : ∀ x, b = some x → GoodKey x.key) : ∀ x, maxLower a b = some x → GoodKey x.key := by
  intro x hx
  unfold maxLower at hx
  split at hx
  · split at hx <;> cases hx
    · exact ha _ rfl
    · exact hb _ rfl
    · have h := ha _ rfl; exact h
  · cases hx; exact ha _ rfl
  · cases hx; exact hb _ rfl
  · cases hx

theorem minUpper_good {a b : Option Bound} (ha : ∀ x, a = some x → GoodKey x.key)
    (hb : ∀ x, b = some x → GoodKey x.key) : ∀ x, minUpper a b = some x → GoodKey x.key := by
  intro x hx
  unfold minUpper at hx
  split at hx
  · split at hx <;> cases hx
    · exact hb _ rfl
    · exact ha _ rfl
    · have h := ha _ rfl; exact h
  · cases hx; exact ha _ rfl
  · cases hx; exact hb _ rfl
  · cases hx

theorem minLower_good {a b : Option Bound} (ha : ∀ x, a = some x → GoodKey x.key)
    (hb : ∀ x, b = some x → GoodKey x.key) : ∀ x, minLower a b = some x → GoodKey x.key := by
  intro x hx
  unfold minLower at hx
  split at hx
  · split at hx <;> cases hx
    · exact hb _ rfl
    · exact ha _ rfl
    · have h := ha _ rfl; exact h
  · cases hx

theorem maxUpper_good {a b : Option Bound} (ha : ∀ x, a = some x → GoodKey x.key)
    (hb : ∀ x, b = some x → GoodKey x.key) : ∀ x, maxUpper a b = some x → GoodKey x.key := by
  intro x hx
  unfold maxUpper at hx
  split at hx
  · split at hx <;> cases hx
    · exact ha _ rfl
    · exact hb _ rfl
    · have h := ha _ rfl; exact h
  · cases hx

theorem good_intersect {a b : KeyBounds} (ha : GoodBounds a) (hb : GoodBounds b) :
    GoodBounds (intersect a b) := by
  unfold intersect
  split
  · exact good_none'
  · exact good_normalize ⟨maxLower_good ha.1 hb.1, minUpper_good ha.2 hb.2⟩

theorem good_union {a b : KeyBounds} (ha : GoodBounds a) (hb : GoodBounds b) :
    GoodBounds (unionEnvelope a b) := by
  unfold unionEnvelope
  split
  · exact hb
  · split
    · exact ha
    · exact ⟨minLower_good ha.1 hb.1, maxUpper_good ha.2 hb.2⟩

theorem above_max {a b : Option Bound} (ha : ∀ x, a = some x → GoodKey x.key)
    (hb : ∀ x, b = some x → GoodKey x.key) (x : List V) :
    (∀ lo, maxLower a b = some lo → Above lo x) ↔
      (∀ lo, a = some lo → Above lo x) ∧ ∀ lo, b = some lo → Above lo x := by
  cases a with
  | none => cases b with
    | none => simp [maxLower]
    | some b => simp [maxLower]
  | some a => cases b with
    | none => simp [maxLower]
    | some b =>
      have g1 := ha a rfl
      have g2 := hb b rfl
      simp only [maxLower, Option.some.injEq, forall_eq']
      cases hc : rowCmp a.key b.key with
      | gt =>
        have h : pos b.key < pos a.key := (rowCmp_gt g1 g2).1 hc
        simp only [Option.some.injEq, forall_eq']
        refine ⟨fun h1 => ⟨h1, ?_⟩, fun h1 => h1.1⟩
        rcases h1 with h1 | ⟨_, h1⟩
        · exact .inl (h.trans h1)
        · exact .inl (h1 ▸ h)
      | lt =>
        have h : pos a.key < pos b.key := (rowCmp_lt g1 g2).1 hc
        simp only [Option.some.injEq, forall_eq']
        refine ⟨fun h1 => ⟨?_, h1⟩, fun h1 => h1.2⟩
        rcases h1 with h1 | ⟨_, h1⟩
        · exact .inl (h.trans h1)
        · exact .inl (h1 ▸ h)
      | eq =>
        have h : pos a.key = pos b.key := (rowCmp_eq g1 g2).1 hc
        simp only [Option.some.injEq, forall_eq', Above, Bool.and_eq_true, ← h]
        tauto

theorem below_min {a b : Option Bound} (ha : ∀ x, a = some x → GoodKey x.key)
    (hb : ∀ x, b = some x → GoodKey x.key) (x : List V) :
    (∀ hi, minUpper a b = some hi → Below hi x) ↔
      (∀ hi, a = some hi → Below hi x) ∧ ∀ hi, b = some hi → Below hi x := by
  cases a with
  | none => cases b with
    | none => simp [minUpper]
    | some b => simp [minUpper]
  | some a => cases b with
    | none => simp [minUpper]
    | some b =>
      have g1 := ha a rfl
      have g2 := hb b rfl
      simp only [minUpper, Option.some.injEq, forall_eq']
      cases hc : rowCmp a.key b.key with
      | gt =>
        have h : pos b.key < pos a.key := (rowCmp_gt g1 g2).1 hc
        simp only [Option.some.injEq, forall_eq']
        refine ⟨fun h1 => ⟨?_, h1⟩, fun h1 => h1.2⟩
        rcases h1 with h1 | ⟨_, h1⟩
        · exact .inl (h1.trans h)
        · exact .inl (h1 ▸ h)
      | lt =>
        have h : pos a.key < pos b.key := (rowCmp_lt g1 g2).1 hc
        simp only [Option.some.injEq, forall_eq']
        refine ⟨fun h1 => ⟨h1, ?_⟩, fun h1 => h1.1⟩
        rcases h1 with h1 | ⟨_, h1⟩
        · exact .inl (h1.trans h)
        · exact .inl (h1 ▸ h)
      | eq =>
        have h : pos a.key = pos b.key := (rowCmp_eq g1 g2).1 hc
        simp only [Option.some.injEq, forall_eq', Below, Bool.and_eq_true, ← h]
        tauto

theorem in_none' (x : List V) : ¬ In .none' x := fun h => by cases h.1

theorem in_intersect {a b : KeyBounds} (ha : GoodBounds a) (hb : GoodBounds b) (x : List V) :
    In (intersect a b) x ↔ In a x ∧ In b x := by
  unfold intersect
  split
  · rename_i he
    rw [Bool.or_eq_true] at he
    refine ⟨fun h => absurd h (in_none' x), fun ⟨h1, h2⟩ => ?_⟩
    rcases he with he | he
    · rw [h1.1] at he; cases he
    · rw [h2.1] at he; cases he
  · rename_i he
    have hea : a.empty = false := by cases h : a.empty <;> simp_all
    have heb : b.empty = false := by cases h : b.empty <;> simp_all
    rw [in_normalize ⟨maxLower_good ha.1 hb.1, minUpper_good ha.2 hb.2⟩]
    unfold In
    rw [above_max ha.1 hb.1, below_min ha.2 hb.2]
    simp only [hea, heb, true_and]
    tauto

theorem above_minLower {a b : Option Bound} (ha : ∀ x, a = some x → GoodKey x.key)
    (hb : ∀ x, b = some x → GoodKey x.key) (x : List V)
    (h : (∀ lo, a = some lo → Above lo x) ∨ ∀ lo, b = some lo → Above lo x) :
    ∀ lo, minLower a b = some lo → Above lo x := by
  intro lo hlo
  cases a with
  | none => cases hlo
  | some a => cases b with
    | none => cases hlo
    | some b =>
      have g1 := ha a rfl
      have g2 := hb b rfl
      simp only [Option.some.injEq, forall_eq'] at h
      simp only [minLower] at hlo
      cases hc : rowCmp a.key b.key with
      | gt =>
        have h' : pos b.key < pos a.key := (rowCmp_gt g1 g2).1 hc
        rw [hc] at hlo; cases hlo
        rcases h with (h | ⟨_, h⟩) | h
        · exact .inl (h'.trans h)
        · exact .inl (h ▸ h')
        · exact h
      | lt =>
        have h' : pos a.key < pos b.key := (rowCmp_lt g1 g2).1 hc
        rw [hc] at hlo; cases hlo
        rcases h with h | (h | ⟨_, h⟩)
        · exact h
        · exact .inl (h'.trans h)
        · exact .inl (h ▸ h')
      | eq =>
        have h' : pos a.key = pos b.key := (rowCmp_eq g1 g2).1 hc
        rw [hc] at hlo; cases hlo
        simp only [Above, Bool.or_eq_true, ← h'] at h ⊢
        tauto

theorem below_maxUpper {a b : Option Bound} (ha : ∀ x, a = some x → GoodKey x.key)
    (hb : ∀ x, b = some x → GoodKey x.key) (x : List V)
    (h : (∀ lo, a = some lo → Below lo x) ∨ ∀ lo, b = some lo → Below lo x) :
    ∀ lo, maxUpper a b = some lo → Below lo x := by
  intro lo hlo
  cases a with
  | none => cases hlo
  | some a => cases b with
    | none => cases hlo
    | some b =>
      have g1 := ha a rfl
      have g2 := hb b rfl
      simp only [Option.some.injEq, forall_eq'] at h
      simp only [maxUpper] at hlo
      cases hc : rowCmp a.key b.key with
      | gt =>
        have h' : pos b.key < pos a.key := (rowCmp_gt g1 g2).1 hc
        rw [hc] at hlo; cases hlo
        rcases h with h | (h | ⟨_, h⟩)
        · exact h
        · exact .inl (h.trans h')
        · exact .inl (h ▸ h')
      | lt =>
        have h' : pos a.key < pos b.key := (rowCmp_lt g1 g2).1 hc
        rw [hc] at hlo; cases hlo
        rcases h with (h | ⟨_, h⟩) | h
        · exact .inl (h.trans h')
        · exact .inl (h ▸ h')
        · exact h
      | eq =>
        have h' : pos a.key = pos b.key := (rowCmp_eq g1 g2).1 hc
        rw [hc] at hlo; cases hlo
        simp only [Below, Bool.or_eq_true, ← h'] at h ⊢
        tauto

theorem in_union {a b : KeyBounds} (ha : GoodBounds a) (hb : GoodBounds b) (x : List V)
    (h : In a x ∨ In b x) : In (unionEnvelope a b) x := by
  unfold unionEnvelope
  split
  · rename_i he
    rcases h with h | h
    · rw [h.1] at he; cases he
    · exact h
  · split
    · rename_i _ he
      rcases h with h | h
      · exact h
      · rw [h.1] at he; cases he
    · exact ⟨rfl, above_minLower ha.1 hb.1 x (h.imp (·.2.1) (·.2.1)),
        below_maxUpper ha.2 hb.2 x (h.imp (·.2.2) (·.2.2))⟩

theorem in_withLower {k : Key} {i : Bool} {x : List V} :
    In (withLower k i) x ↔ pos k < x ∨ (i = true ∧ pos k = x) := by
  simp [In, withLower, Above]

theorem in_withUpper {k : Key} {i : Bool} {x : List V} :
    In (withUpper k i) x ↔ x < pos k ∨ (i = true ∧ x = pos k) := by
  simp [In, withUpper, Below]

theorem in_withRange {lo hi : Bound} (h1 : GoodKey lo.key) (h2 : GoodKey hi.key) {x : List V} :
    In (withRange lo hi) x ↔ Above lo x ∧ Below hi x := by
  unfold withRange
  rw [in_normalize ⟨(fun _ e => by cases e; exact h1), (fun _ e => by cases e; exact h2)⟩]
  simp [In]

/-- Bounds not marked empty are not inverted. -/
theorem normalize_consistent {b : KeyBounds} (hb : GoodBounds b) (h : (normalize b).empty = false)
    {lo hi : Bound} (e1 : b.lower = some lo) (e2 : b.upper = some hi) :
    pos lo.key < pos hi.key ∨
      (pos lo.key = pos hi.key ∧ lo.inclusive = true ∧ hi.inclusive = true) := by
  unfold normalize at h
  rw [e1, e2] at h
  have g1 := hb.1 lo e1
  have g2 := hb.2 hi e2
  cases hc : rowCmp lo.key hi.key with
  | lt => exact .inl ((rowCmp_lt g1 g2).1 hc)
  | gt => simp [hc] at h
  | eq =>
    right
    refine ⟨(rowCmp_eq g1 g2).1 hc, ?_⟩
    simp only [hc] at h
    split at h
    · rename_i hh; simpa using hh
    · cases h

/-- No key between the bounds of a source satisfies bounds that do not overlap it. -/
theorem overlaps_sound {b : KeyBounds} (hb : GoodBounds b) {mn mx k : Key} (h1 : GoodKey mn)
    (h2 : GoodKey mx) (hlo : pos mn ≤ pos k) (hhi : pos k ≤ pos mx) (h : In b (pos k)) :
    overlaps b mn mx = true := by
  obtain ⟨he, ha, hbl⟩ := h
  unfold overlaps
  rw [he]
  simp only [Bool.false_eq_true, if_false, Bool.and_eq_true]
  constructor
  · cases hl : b.lower with
    | none => rfl
    | some lo =>
      have g := hb.1 lo hl
      have a := ha lo hl
      simp only
      cases hc : rowCmp mx lo.key with
      | gt => rfl
      | lt =>
        have hc : pos mx < pos lo.key := (rowCmp_lt h2 g).1 hc
        exfalso
        rcases a with a | ⟨_, a⟩
        · exact lt_irrefl _ ((hc.trans a).trans_le hhi)
        · rw [a] at hc; exact lt_irrefl _ (hc.trans_le hhi)
      | eq =>
        have hc : pos mx = pos lo.key := (rowCmp_eq h2 g).1 hc
        simp only
        rcases a with a | ⟨i, a⟩
        · rw [← hc] at a; exact absurd (a.trans_le hhi) (lt_irrefl _)
        · exact i
  · cases hl : b.upper with
    | none => rfl
    | some hi =>
      have g := hb.2 hi hl
      have a := hbl hi hl
      simp only
      cases hc : rowCmp mn hi.key with
      | lt => rfl
      | gt =>
        have hc : pos hi.key < pos mn := (rowCmp_gt h1 g).1 hc
        exfalso
        rcases a with a | ⟨_, a⟩
        · exact lt_irrefl _ ((a.trans hc).trans_le hlo)
        · rw [← a] at hc; exact lt_irrefl _ (hc.trans_le hlo)
      | eq =>
        have hc : pos mn = pos hi.key := (rowCmp_eq h1 g).1 hc
        simp only
        rcases a with a | ⟨i, a⟩
        · rw [← hc] at a; exact absurd (a.trans_le hlo) (lt_irrefl _)
        · exact i

end Tonbo.Lemmas.Bounds
