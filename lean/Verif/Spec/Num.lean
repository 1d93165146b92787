import Mathlib.Algebra.Order.Field.Rat
import Mathlib.Algebra.Order.Field.Power
import Mathlib.Tactic.Positivity
import Mathlib.Tactic.FieldSimp
import Mathlib.Tactic.NormNum

/-!
# Exact values of doubles

An IEEE 754 binary64 number given by its sign, 11-bit exponent and 52-bit fraction fields.
-/

namespace Tonbo.Spec

/-- What a double stands for. -/
inductive Real64 where
  | nan
  | inf (negative : Bool)
  | fin (q : ℚ)
deriving DecidableEq

/-- IEEE 754 binary64. -/
def ieee (sign : Bool) (exponent fraction : Nat) : Real64 :=
  if exponent = 2047 then
    if fraction = 0 then .inf sign else .nan
  else
    let magnitude : ℚ :=
      if exponent = 0 then fraction * (2 : ℚ) ^ (-1074 : ℤ)
      else (2 ^ 52 + fraction) * (2 : ℚ) ^ ((exponent : ℤ) - 1075)
    .fin (if sign then -magnitude else magnitude)

/-- Comparing an integer with a double by their exact values. -/
def cmpExact (i : Int) : Real64 → Option Ordering
  | .nan => none
  | .inf neg => some (if neg then .gt else .lt)
  | .fin q => some (if (i : ℚ) < q then .lt else if (i : ℚ) = q then .eq else .gt)

end Tonbo.Spec
