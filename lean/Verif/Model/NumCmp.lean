import Mathlib.Order.Defs.LinearOrder

/-!
# Comparing integers with doubles  (src/query/stream/package.rs:514-616)

A double is its 64 bits. `u128` and `i128` values are natural numbers and integers; shifts wrap modulo
2^128 and a shift amount of 128 or more, which panics in Rust's debug builds, is modelled as `none`.
-/

namespace Tonbo.Model.Num

/-- `f64::to_bits`. -/
structure F64 where
  bits : BitVec 64
deriving DecidableEq, Repr

/-- `f64::is_sign_negative` (std). -/
def F64.signNeg (f : F64) : Bool := decide (2 ^ 63 ≤ f.bits.toNat)

/-- The exponent field. -/
def F64.expBits (f : F64) : Nat := f.bits.toNat / 2 ^ 52 % 2 ^ 11

/-- The fraction field. -/
def F64.frac (f : F64) : Nat := f.bits.toNat % 2 ^ 52

/-- `f64::is_nan` (std). -/
def F64.isNan (f : F64) : Bool := decide (f.expBits = 2047 ∧ f.frac ≠ 0)

/-- `f64::is_infinite` (std). -/
def F64.isInf (f : F64) : Bool := decide (f.expBits = 2047 ∧ f.frac = 0)

/-- `f == 0.0` (std). -/
def F64.isZero (f : F64) : Bool := decide (f.expBits = 0 ∧ f.frac = 0)

/-- `f64::abs` (std): clears the sign bit. -/
def F64.abs (f : F64) : F64 := ⟨BitVec.ofNat 64 (f.bits.toNat % 2 ^ 63)⟩

/-- `decompose_f64` (package.rs:581-591). -/
def decompose (f : F64) : Nat × Int :=
  let expBits : Nat := f.bits.toNat / 2 ^ 52 % 2 ^ 11
  let frac : Nat := f.bits.toNat % 2 ^ 52
  if expBits = 0 then (frac, -1074)
  else (2 ^ 52 + frac, (expBits : Int) - 1023 - 52)

/-- `bit_length_u128` / `bit_length_u64` (package.rs:602-616): the width minus the leading zeros. -/
def bitLen (n : Nat) : Int := if n = 0 then 0 else (Nat.log2 n + 1 : Nat)

/-- `i128_abs_to_u128` (package.rs:593-600). -/
def absU128 (v : Int) : Nat :=
  if 0 ≤ v then v.toNat
  else
    -- `value as u128`, complemented, plus one, all modulo 2^128
    let u := (v % 2 ^ 128).toNat
    (2 ^ 128 - 1 - u + 1) % 2 ^ 128

/-- `<<` on `u128`. -/
def shl (x s : Nat) : Option Nat := if s < 128 then some (x * 2 ^ s % 2 ^ 128) else none

/-- `Ord::cmp` on unsigned integers. -/
def cmpNat (a b : Nat) : Ordering := if a < b then .lt else if a = b then .eq else .gt

/-- `Ord::cmp` on signed integers. -/
def cmpInt (a b : Int) : Ordering := if a < b then .lt else if a = b then .eq else .gt

/-- `Ordering::reverse`. -/
def rev : Ordering → Ordering
  | .lt => .gt | .eq => .eq | .gt => .lt

/-- `compare_u128_f64` (package.rs:555-579). -/
def compareU128F64 (intAbs mantissa : Nat) (exp2 : Int) : Option Ordering :=
  let intBits := bitLen intAbs
  let mantissaBits := bitLen mantissa
  if 0 ≤ exp2 then
    let floatBits := mantissaBits + exp2
    if intBits < floatBits then some .lt
    else if floatBits < intBits then some .gt
    else (shl mantissa exp2.toNat).map (fun floatInt => cmpNat intAbs floatInt)
  else
    let shift := -exp2
    let scaledIntBits := intBits + shift
    if mantissaBits < scaledIntBits then some .gt
    else if scaledIntBits < mantissaBits then some .lt
    else (shl intAbs shift.toNat).map (fun scaledInt => cmpNat scaledInt mantissa)

/-- `compare_i128_f64` (package.rs:514-553). The outer option is `none` when a shift panics. -/
def compareI128F64 (i : Int) (f : F64) : Option (Option Ordering) :=
  if f.isNan then some none
  else if f.isInf then some (some (if f.signNeg then .gt else .lt))
  else if f.isZero then some (some (cmpInt i 0))
  else if i = 0 then some (some (if f.signNeg then .gt else .lt))
  else
    let intNeg := decide (i < 0)
    let floatNeg := f.signNeg
    if intNeg ≠ floatNeg then some (some (if intNeg then .lt else .gt))
    else
      let d := decompose f.abs
      (compareU128F64 (absU128 i) d.1 d.2).map
        (fun o => some (if intNeg then rev o else o))

end Tonbo.Model.Num
