import Verif.Model.NumCmp
import Verif.Spec.Num
import Mathlib.Data.Nat.Basic
import Mathlib.Tactic.Linarith
import Mathlib.Tactic.Push
import Mathlib.Tactic.Ring

namespace Tonbo.Lemmas.Num
open Tonbo.Model.Num Tonbo.Spec

theorem bitLen_bounds {n : Nat} (h : n ≠ 0) :
    ∃ b : Nat, bitLen n = (b : Int) + 1 ∧ 2 ^ b ≤ n ∧ n < 2 ^ (b + 1) := by
  refine ⟨Nat.log2 n, by simp [bitLen, h], Nat.log2_self_le h, ?_⟩
  exact Nat.lt_log2_self

/-- The exact magnitude. -/
def mag (m : Nat) (e : Int) : ℚ := m * (2 : ℚ) ^ e

theorem cast_pow_le {m : Nat} {b : Nat} (h : 2 ^ b ≤ m) (e : Int) :
    (2 : ℚ) ^ ((b : Int) + e) ≤ mag m e := by
  unfold mag
  rw [zpow_add₀ (by norm_num), zpow_natCast]
  exact mul_le_mul_of_nonneg_right (by exact_mod_cast h) (by positivity)

theorem cast_lt_pow {m : Nat} {b : Nat} (h : m < 2 ^ (b + 1)) (e : Int) :
    mag m e < (2 : ℚ) ^ ((b : Int) + 1 + e) := by
  unfold mag
  rw [zpow_add₀ (by norm_num : (2 : ℚ) ≠ 0) ((b : Int) + 1)]
  have : (2 : ℚ) ^ ((b : Int) + 1) = ((2 ^ (b + 1) : Nat) : ℚ) := by
    rw [show (b : Int) + 1 = ((b + 1 : Nat) : Int) by push_cast; ring, zpow_natCast]
    push_cast; ring
  rw [this]
  exact mul_lt_mul_of_pos_right (by exact_mod_cast h) (by positivity)

/-- The ordering of two rationals. -/
def ord (a b : ℚ) : Ordering := if a < b then .lt else if a = b then .eq else .gt

theorem ord_lt {a b : ℚ} (h : a < b) : ord a b = .lt := by simp [ord, h]
theorem ord_gt {a b : ℚ} (h : b < a) : ord a b = .gt := by
  simp [ord, not_lt.2 h.le, h.ne']

theorem ord_rev (a b : ℚ) : rev (ord a b) = ord (-a) (-b) := by
  unfold ord
  rcases lt_trichotomy a b with h | h | h
  · rw [if_pos h, if_neg (by linarith), if_neg (by intro h'; linarith)]; rfl
  · subst h; simp [rev]
  · rw [if_neg (by linarith), if_neg (by intro h'; linarith), if_pos (by linarith)]; rfl

theorem cmpNat_ord (a b : Nat) : cmpNat a b = ord a b := by
  unfold cmpNat ord
  simp only [Nat.cast_lt, Nat.cast_inj]

theorem cmpNat_scale (a b : Nat) {c : ℚ} (hc : 0 < c) : cmpNat a b = ord (a * c) (b * c) := by
  rw [cmpNat_ord]
  unfold ord
  simp only [mul_lt_mul_iff_left₀ hc, mul_left_inj' hc.ne']

theorem compareU128F64_spec {i m : Nat} (hi : i ≠ 0) (hi' : i < 2 ^ 128) (hm : m ≠ 0)
    (hm' : m < 2 ^ 64) (e : Int) :
    compareU128F64 i m e = some (ord i (mag m e)) := by
  obtain ⟨b, hb, hb1, hb2⟩ := bitLen_bounds hi
  obtain ⟨c, hc, hc1, hc2⟩ := bitLen_bounds hm
  have hi1 : (2 : ℚ) ^ ((b : Int) + 0) ≤ mag i 0 := cast_pow_le hb1 0
  have hi2 : mag i 0 < (2 : ℚ) ^ ((b : Int) + 1 + 0) := cast_lt_pow hb2 0
  have hm1 := cast_pow_le hc1 e
  have hm2 := cast_lt_pow hc2 e
  have hmag : mag i 0 = i := by simp [mag]
  rw [hmag] at hi1 hi2
  have hb128 : b < 128 := by
    by_contra h
    have : 2 ^ 128 ≤ 2 ^ b := Nat.pow_le_pow_right (by norm_num) (by omega)
    omega
  have hc64 : c < 64 := by
    by_contra h
    have : 2 ^ 64 ≤ 2 ^ c := Nat.pow_le_pow_right (by norm_num) (by omega)
    omega
  have mono : ∀ {x y : Int}, x ≤ y → (2 : ℚ) ^ x ≤ (2 : ℚ) ^ y :=
    fun h => zpow_le_zpow_right₀ (by norm_num) h
  simp only [compareU128F64, hb, hc]
  by_cases he : 0 ≤ e
  · rw [if_pos he]
    split
    · rename_i h
      rw [ord_lt]
      calc (i : ℚ) < _ := hi2
        _ ≤ _ := mono (by omega)
        _ ≤ _ := hm1
    · split
      · rename_i h1 h
        rw [ord_gt]
        calc mag m e < _ := hm2
          _ ≤ _ := mono (by omega)
          _ ≤ _ := hi1
      · rename_i h1 h2
        obtain ⟨n, rfl⟩ := Int.eq_ofNat_of_zero_le he
        have hn : n < 128 := by omega
        have hlt : m * 2 ^ n < 2 ^ 128 := by
          have : m * 2 ^ n < 2 ^ (c + 1) * 2 ^ n :=
            Nat.mul_lt_mul_of_pos_right hc2 (by positivity)
          rw [← Nat.pow_add] at this
          exact Nat.lt_of_lt_of_le this (Nat.pow_le_pow_right (by norm_num) (by omega))
        simp only [Int.toNat_natCast, shl, if_pos hn, Option.map_some, Nat.mod_eq_of_lt hlt]
        rw [cmpNat_ord]
        simp [mag]
  · rw [if_neg he]
    obtain ⟨n, hn0⟩ := Int.eq_ofNat_of_zero_le (show 0 ≤ -e by omega)
    have hen : e = -(n : Int) := by omega
    subst hen
    split
    · rename_i h
      rw [ord_gt]
      calc mag m (-(n : Int)) < _ := hm2
        _ ≤ _ := mono (by omega)
        _ ≤ _ := hi1
    · split
      · rename_i h1 h
        rw [ord_lt]
        calc (i : ℚ) < _ := hi2
          _ ≤ _ := mono (by omega)
          _ ≤ _ := hm1
      · rename_i h1 h2
        have hn : n < 128 := by omega
        have hlt : i * 2 ^ n < 2 ^ 128 := by
          have : i * 2 ^ n < 2 ^ (b + 1) * 2 ^ n :=
            Nat.mul_lt_mul_of_pos_right hb2 (by positivity)
          rw [← Nat.pow_add] at this
          exact Nat.lt_of_lt_of_le this (Nat.pow_le_pow_right (by norm_num) (by omega))
        simp only [neg_neg, Int.toNat_natCast, shl, if_pos hn, Option.map_some,
          Nat.mod_eq_of_lt hlt]
        rw [cmpNat_scale _ _ (c := (2 : ℚ) ^ (-(n : Int))) (by positivity)]
        congr 2
        push_cast
        rw [zpow_neg, zpow_natCast]
        field_simp

theorem absU128_neg {v : Int} (h : v < 0) (h' : -2 ^ 127 ≤ v) : absU128 v = (-v).toNat := by
  unfold absU128
  rw [if_neg (by omega)]
  have : v % 2 ^ 128 = v + 2 ^ 128 := by
    rw [← Int.add_emod_right]
    exact Int.emod_eq_of_lt (by omega) (by omega)
  rw [this]
  simp only
  omega

theorem absU128_pos {v : Int} (h : 0 ≤ v) : absU128 v = v.toNat := by
  unfold absU128; rw [if_pos h]

theorem decompose_abs (f : F64) : decompose f.abs =
    if f.expBits = 0 then (f.frac, -1074) else (2 ^ 52 + f.frac, (f.expBits : Int) - 1075) := by
  have hb := f.bits.isLt
  have h1 : f.abs.bits.toNat = f.bits.toNat % 2 ^ 63 := by
    simp only [F64.abs, BitVec.toNat_ofNat]
    omega
  have h2 : f.bits.toNat % 2 ^ 63 / 2 ^ 52 % 2 ^ 11 = f.expBits := by
    unfold F64.expBits; omega
  have h3 : f.bits.toNat % 2 ^ 63 % 2 ^ 52 = f.frac := by
    unfold F64.frac; omega
  unfold decompose
  simp only [h1, h2, h3]
  split
  · rfl
  · simp; omega

end Tonbo.Lemmas.Num
