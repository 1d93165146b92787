import Mathlib.Order.Defs.LinearOrder

/-!
# Composite keys  (src/key/ts.rs)

A user key together with a commit timestamp. `KeyTsOwned` and `KeyTsViewRaw` have the same `Ord`,
so one type models both.
-/

namespace Tonbo.Model

/-- `KeyTsOwned` / `KeyTsViewRaw` (src/key/ts.rs:13-46, 80-105). The key type is any linear
order; concrete key cells are modelled in `Model/Cell.lean`. -/
structure KT (K : Type) where
  key : K
  ts : Nat
deriving Repr, DecidableEq

variable {K : Type} [LinearOrder K]

/-- `Ord::cmp` (src/key/ts.rs:62-69, 113-120): key ascending, then timestamp descending. -/
instance : LT (KT K) := ⟨fun a b => a.key < b.key ∨ (a.key = b.key ∧ b.ts < a.ts)⟩

/-- `Ord::cmp` (src/key/ts.rs:62-69, 113-120), non-strict. -/
instance : LE (KT K) := ⟨fun a b => a.key < b.key ∨ (a.key = b.key ∧ b.ts ≤ a.ts)⟩

theorem KT.lt_def {a b : KT K} :
    a < b ↔ a.key < b.key ∨ (a.key = b.key ∧ b.ts < a.ts) := Iff.rfl

theorem KT.le_def {a b : KT K} :
    a ≤ b ↔ a.key < b.key ∨ (a.key = b.key ∧ b.ts ≤ a.ts) := Iff.rfl

omit [LinearOrder K] in
theorem KT.ext' {a b : KT K} (h : a.key = b.key) (h' : a.ts = b.ts) : a = b := by
  cases a; cases b; simp_all

/-- The comparison of src/key/ts.rs:62-69, 113-120 is a total order. -/
instance : LinearOrder (KT K) where
  le_refl a := .inr ⟨rfl, Nat.le_refl _⟩
  le_trans a b c h1 h2 := by
    rcases h1 with h1 | ⟨h1, h1'⟩ <;> rcases h2 with h2 | ⟨h2, h2'⟩
    · exact .inl (lt_trans h1 h2)
    · exact .inl (h2 ▸ h1)
    · exact .inl (h1 ▸ h2)
    · exact .inr ⟨h1.trans h2, Nat.le_trans h2' h1'⟩
  lt_iff_le_not_ge a b := by
    constructor
    · rintro (h | ⟨h, h'⟩)
      · refine ⟨.inl h, ?_⟩
        rintro (g | ⟨g, _⟩)
        · exact lt_asymm h g
        · exact absurd g.symm (ne_of_lt h)
      · refine ⟨.inr ⟨h, Nat.le_of_lt h'⟩, ?_⟩
        rintro (g | ⟨_, g⟩)
        · exact absurd h.symm (ne_of_lt g)
        · omega
    · rintro ⟨h | ⟨h, h'⟩, g⟩
      · exact .inl h
      · refine .inr ⟨h, ?_⟩
        rcases Nat.lt_or_ge b.ts a.ts with q | q
        · exact q
        · exact absurd (.inr ⟨h.symm, q⟩) g
  le_antisymm a b h1 h2 := by
    rcases h1 with h1 | ⟨h1, h1'⟩ <;> rcases h2 with h2 | ⟨h2, h2'⟩
    · exact absurd h2 (lt_asymm h1)
    · exact absurd h2.symm (ne_of_lt h1)
    · exact absurd h1.symm (ne_of_lt h2)
    · exact KT.ext' h1 (Nat.le_antisymm h2' h1')
  le_total a b := by
    rcases lt_trichotomy a.key b.key with h | h | h
    · exact .inl (.inl h)
    · rcases Nat.le_total a.ts b.ts with g | g
      · exact .inr (.inr ⟨h.symm, g⟩)
      · exact .inl (.inr ⟨h, g⟩)
    · exact .inr (.inl h)
  toDecidableLE a b := inferInstanceAs (Decidable (_ ∨ _))
  toDecidableLT a b := inferInstanceAs (Decidable (_ ∨ _))

end Tonbo.Model
