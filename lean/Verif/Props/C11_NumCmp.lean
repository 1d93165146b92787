import Verif.Lemmas.NumCmp

/-!
# C11: comparisons between integers and doubles are exact
-/

namespace Tonbo.Props.C11
open Tonbo.Model.Num Tonbo.Spec Tonbo.Lemmas.Num

private theorem cmpInt_ord (i : Int) : cmpInt i 0 = ord i 0 := by
  unfold cmpInt ord
  simp only [Int.cast_lt_zero, Int.cast_eq_zero]

private theorem cmpExact_fin (i : Int) (q : ℚ) : cmpExact i (.fin q) = some (ord i q) := rfl

/-- **C11.** For every `i128` and every bit pattern of a double, the comparison gives the ordering of
the exact values (unknown for NaN, beyond all integers for infinities), and no shift overflows. -/
theorem int_float_exact (i : Int) (h1 : -2 ^ 127 ≤ i) (h2 : i < 2 ^ 127) (f : F64) :
    compareI128F64 i f = some (cmpExact i (ieee f.signNeg f.expBits f.frac)) := by
  have hfr : f.frac < 2 ^ 52 := Nat.mod_lt _ (by norm_num)
  unfold compareI128F64 ieee
  by_cases hexp : f.expBits = 2047
  · by_cases hf : f.frac = 0
    · simp [F64.isNan, F64.isInf, hexp, hf, cmpExact]
    · simp [F64.isNan, hexp, hf, cmpExact]
  · simp only [F64.isNan, F64.isInf, hexp, false_and, decide_false, Bool.false_eq_true, if_false]
    set M : ℚ := if f.expBits = 0 then (f.frac : ℚ) * (2 : ℚ) ^ (-1074 : ℤ)
      else (2 ^ 52 + (f.frac : ℚ)) * (2 : ℚ) ^ ((f.expBits : ℤ) - 1075) with hM
    by_cases hz : f.isZero = true
    · rw [if_pos hz]
      simp only [F64.isZero, decide_eq_true_eq] at hz
      have : M = 0 := by rw [hM, if_pos hz.1, hz.2]; simp
      rw [this, cmpInt_ord]
      simp [cmpExact_fin]
    · rw [if_neg hz]
      have hdm : mag (decompose f.abs).1 (decompose f.abs).2 = M ∧ (decompose f.abs).1 ≠ 0 ∧
          (decompose f.abs).1 < 2 ^ 64 := by
        rw [decompose_abs]
        by_cases he : f.expBits = 0
        · have hfne : f.frac ≠ 0 := fun h => hz (by simp [F64.isZero, he, h])
          simp only [if_pos he] at hM ⊢
          exact ⟨by rw [hM]; rfl, hfne, by omega⟩
        · simp only [if_neg he] at hM ⊢
          refine ⟨?_, by omega, by omega⟩
          rw [hM]; simp only [mag]; push_cast; norm_num
      have hMpos : 0 < M := by
        rw [← hdm.1]
        unfold mag
        have : 0 < (decompose f.abs).1 := Nat.pos_of_ne_zero hdm.2.1
        positivity
      by_cases hi0 : i = 0
      · subst hi0
        rw [if_pos rfl]
        cases hs : f.signNeg with
        | true => simp [cmpExact_fin, ord_gt (show -M < 0 by linarith)]
        | false => simp [cmpExact_fin, ord_lt hMpos]
      · rw [if_neg hi0]
        by_cases hneg : i < 0
        · have hiq : (i : ℚ) < 0 := by exact_mod_cast hneg
          cases hs : f.signNeg with
          | false =>
            simp [cmpExact_fin, hneg, ord_lt (show (i : ℚ) < M by linarith)]
          | true =>
            simp only [hneg, decide_true, ne_eq, not_true_eq_false, if_false, if_true]
            rw [absU128_neg hneg h1, compareU128F64_spec (by omega) (by omega) hdm.2.1 hdm.2.2,
              hdm.1]
            simp only [Option.map_some, cmpExact_fin, ord_rev]
            have : (((-i).toNat : Nat) : ℚ) = -(i : ℚ) := by
              have : (((-i).toNat : Nat) : Int) = -i := Int.toNat_of_nonneg (by omega)
              rw [show (((-i).toNat : Nat) : ℚ) = (((-i).toNat : Int) : ℚ) by push_cast; rfl, this]
              push_cast; rfl
            rw [this, neg_neg]
        · have hpos : 0 < i := by omega
          have hiq : (0 : ℚ) < i := by exact_mod_cast hpos
          cases hs : f.signNeg with
          | true =>
            simp [cmpExact_fin, hneg, ord_gt (show -M < (i : ℚ) by linarith)]
          | false =>
            simp only [hneg, decide_false, ne_eq, not_true_eq_false, if_false, Bool.false_eq_true]
            rw [absU128_pos (by omega), compareU128F64_spec (by omega) (by omega) hdm.2.1 hdm.2.2,
              hdm.1]
            simp only [Option.map_some, cmpExact_fin]
            have : ((i.toNat : Nat) : ℚ) = (i : ℚ) := by
              have : ((i.toNat : Nat) : Int) = i := Int.toNat_of_nonneg (by omega)
              rw [show ((i.toNat : Nat) : ℚ) = ((i.toNat : Int) : ℚ) by push_cast; rfl, this]
            rw [this]

/-- 2^53 + 1 against 2^53 as a double: a conversion to double would call them equal. -/
example : compareI128F64 (2 ^ 53 + 1) ⟨0x4340000000000000#64⟩ = some (some .gt) ∧
    compareI128F64 (-3) ⟨0xC00C000000000000#64⟩ = some (some .gt) ∧
    compareI128F64 1 ⟨0x3FF0000000000000#64⟩ = some (some .eq) ∧
    compareI128F64 1 ⟨0x7FF8000000000000#64⟩ = some none := by decide

end Tonbo.Props.C11
