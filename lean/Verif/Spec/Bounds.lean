import Verif.Model.KeyBounds

/-!
# When a key lies in a range
-/

namespace Tonbo.Spec
open Tonbo.Model.Keys Tonbo.Model.Pred

/-- `k` is not below the lower bound `lo`, in the order of keys. -/
def AboveLower (lo : Model.Bounds.Bound) (k : List Cell) : Prop :=
  rowCmp lo.key k = .lt ∨ (lo.inclusive = true ∧ rowCmp lo.key k = .eq)

/-- `k` is not above the upper bound `hi`. -/
def BelowUpper (hi : Model.Bounds.Bound) (k : List Cell) : Prop :=
  rowCmp k hi.key = .lt ∨ (hi.inclusive = true ∧ rowCmp k hi.key = .eq)

/-- `k` satisfies the bounds. -/
def Inside (b : Model.Bounds.KeyBounds) (k : List Cell) : Prop :=
  b.empty = false ∧ (∀ lo, b.lower = some lo → AboveLower lo k) ∧
    ∀ hi, b.upper = some hi → BelowUpper hi k

/-- `k` satisfies the bounds, if there are any. -/
def InsideOpt (b : Option Model.Bounds.KeyBounds) (k : List Cell) : Prop :=
  ∀ b', b = some b' → Inside b' k

/-- The lower end of a range is below the upper end, or they are equal and both included. -/
def NotInverted : Model.Mem.Bnd (List Cell) → Model.Mem.Bnd (List Cell) → Prop
  | .incl a, .incl b => rowCmp a b = .lt ∨ rowCmp a b = .eq
  | .incl a, .excl b => rowCmp a b = .lt
  | .excl a, .incl b => rowCmp a b = .lt
  | .excl a, .excl b => rowCmp a b = .lt
  | _, _ => True

end Tonbo.Spec
