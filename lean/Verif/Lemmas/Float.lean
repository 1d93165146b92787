import Verif.Lemmas.Cell
import Verif.Spec.Key
import Mathlib.Tactic.Linarith
import Mathlib.Tactic.Ring

/-!
# The integer code of a double orders like its value
-/

namespace Tonbo.Lemmas.Float
open Tonbo.Spec Tonbo.Model.Num Tonbo.Model.Keys

/-- Magnitude of a finite double. -/
def mg (e f : Nat) : ℚ :=
  if e = 0 then f * (2 : ℚ) ^ (-1074 : ℤ) else (2 ^ 52 + f) * (2 : ℚ) ^ ((e : ℤ) - 1075)

theorem mg_nonneg (e f : Nat) : 0 ≤ mg e f := by
  unfold mg; split <;> positivity

theorem mg_lt_next {e f : Nat} (hf : f < 2 ^ 52) :
    mg e f < (2 : ℚ) ^ 52 * (2 : ℚ) ^ (((e + 1 : Nat) : ℤ) - 1075) := by
  have hf' : (f : ℚ) < 2 ^ 52 := by exact_mod_cast hf
  unfold mg
  split
  · rename_i h; subst h
    have : (2 : ℚ) ^ (((0 + 1 : Nat) : ℤ) - 1075) = (2 : ℚ) ^ (-1074 : ℤ) := by norm_num
    rw [this]
    exact mul_lt_mul_of_pos_right hf' (by positivity)
  · have : (2 : ℚ) ^ (((e + 1 : Nat) : ℤ) - 1075) = 2 * (2 : ℚ) ^ ((e : ℤ) - 1075) := by
      rw [show (((e + 1 : Nat) : ℤ) - 1075) = ((e : ℤ) - 1075) + 1 by push_cast; ring,
        zpow_add₀ (by norm_num)]
      ring
    rw [this]
    have hp : (0 : ℚ) < (2 : ℚ) ^ ((e : ℤ) - 1075) := by positivity
    nlinarith

theorem mg_ge {e f : Nat} (he : e ≠ 0) : (2 : ℚ) ^ 52 * (2 : ℚ) ^ ((e : ℤ) - 1075) ≤ mg e f := by
  unfold mg
  rw [if_neg he]
  have hp : (0 : ℚ) < (2 : ℚ) ^ ((e : ℤ) - 1075) := by positivity
  have : (0 : ℚ) ≤ f := by positivity
  nlinarith

theorem mg_lt_of_exp {e f e' f' : Nat} (hf : f < 2 ^ 52) (h : e < e') : mg e f < mg e' f' := by
  refine lt_of_lt_of_le (mg_lt_next hf) (le_trans ?_ (mg_ge (by omega)))
  have : (2 : ℚ) ^ (((e + 1 : Nat) : ℤ) - 1075) ≤ (2 : ℚ) ^ ((e' : ℤ) - 1075) :=
    zpow_le_zpow_right₀ (by norm_num) (by omega)
  nlinarith [show (0 : ℚ) < 2 ^ 52 by positivity]

theorem mg_lt_of_frac {e f f' : Nat} (h : f < f') : mg e f < mg e f' := by
  have h' : (f : ℚ) < f' := by exact_mod_cast h
  unfold mg
  split
  · exact mul_lt_mul_of_pos_right h' (by positivity)
  · exact mul_lt_mul_of_pos_right (by linarith) (by positivity)

theorem mg_lt_iff {e f e' f' : Nat} (hf : f < 2 ^ 52) (hf' : f' < 2 ^ 52) :
    mg e f < mg e' f' ↔ e * 2 ^ 52 + f < e' * 2 ^ 52 + f' := by
  rcases Nat.lt_trichotomy e e' with h | h | h
  · simp only [mg_lt_of_exp hf h, true_iff]; omega
  · subst h
    rcases Nat.lt_trichotomy f f' with g | g | g
    · simp only [mg_lt_of_frac g, true_iff]; omega
    · subst g; simp
    · have := mg_lt_of_frac (e := e) g
      constructor
      · intro x; exact absurd x (not_lt.2 this.le)
      · intro x; omega
  · have := mg_lt_of_exp (f' := f) hf' h
    constructor
    · intro x; exact absurd x (not_lt.2 this.le)
    · intro x; omega

theorem mg_eq_iff {e f e' f' : Nat} (hf : f < 2 ^ 52) (hf' : f' < 2 ^ 52) :
    mg e f = mg e' f' ↔ e * 2 ^ 52 + f = e' * 2 ^ 52 + f' := by
  have h1 := mg_lt_iff (e := e) (e' := e') hf hf'
  have h2 := mg_lt_iff (e := e') (e' := e) hf' hf
  constructor
  · intro h
    have a : ¬ mg e f < mg e' f' := by rw [h]; exact lt_irrefl _
    have b : ¬ mg e' f' < mg e f := by rw [h]; exact lt_irrefl _
    rw [h1] at a; rw [h2] at b; omega
  · intro h
    have a : ¬ mg e f < mg e' f' := by rw [h1]; omega
    have b : ¬ mg e' f' < mg e f := by rw [h2]; omega
    exact le_antisymm (not_lt.1 b) (not_lt.1 a)

theorem mg_zero_iff {e f : Nat} (hf : f < 2 ^ 52) : mg e f = 0 ↔ e * 2 ^ 52 + f = 0 := by
  have : mg 0 0 = 0 := by simp [mg]
  rw [← this, mg_eq_iff hf (by norm_num)]
  omega

theorem magBits (f : F64) : f.bits.toNat % 2 ^ 63 = f.expBits * 2 ^ 52 + f.frac := by
  simp only [F64.expBits, F64.frac]
  omega

theorem frac_lt (f : F64) : f.frac < 2 ^ 52 := Nat.mod_lt _ (by norm_num)

theorem exp_le (f : F64) : f.expBits ≤ 2047 := by
  have : f.expBits < 2 ^ 11 := Nat.mod_lt _ (by norm_num)
  omega

theorem valueOf_fin {f : F64} (h : f.expBits ≠ 2047) :
    valueOf f = .fin (if f.signNeg then -mg f.expBits f.frac else mg f.expBits f.frac) := by
  simp only [valueOf, ieee, if_neg h, mg]

theorem valueOf_inf {f : F64} (hn : f.isNan = false) (h : f.expBits = 2047) :
    valueOf f = .inf f.signNeg ∧ f.frac = 0 := by
  simp only [F64.isNan, h, true_and, ne_eq, decide_not, Bool.not_eq_eq_eq_not, Bool.not_false,
    decide_eq_true_eq] at hn
  simp [valueOf, ieee, h, hn]

theorem ordKey_eq (f : F64) : ordKey f =
    if f.signNeg then -((f.expBits * 2 ^ 52 + f.frac : Nat) : Int)
    else ((f.expBits * 2 ^ 52 + f.frac : Nat) : Int) := by
  unfold ordKey; rw [magBits]

/-- The code of a double orders exactly like the value it stands for. -/
theorem ordKey_lt_iff {a b : F64} (ha : a.isNan = false) (hb : b.isNan = false) :
    ordKey a < ordKey b ↔ Real64.Lt (valueOf a) (valueOf b) := by
  rw [ordKey_eq, ordKey_eq]
  have fa := frac_lt a
  have fb := frac_lt b
  have ea := exp_le a
  have eb := exp_le b
  by_cases h1 : a.expBits = 2047
  · obtain ⟨va, za⟩ := valueOf_inf ha h1
    by_cases h2 : b.expBits = 2047
    · obtain ⟨vb, zb⟩ := valueOf_inf hb h2
      rw [va, vb, h1, h2, za, zb]
      cases a.signNeg <;> cases b.signNeg <;> simp [Real64.Lt]
    · rw [va, valueOf_fin h2, h1, za]
      cases a.signNeg <;> cases b.signNeg <;> simp [Real64.Lt] <;> omega
  · by_cases h2 : b.expBits = 2047
    · obtain ⟨vb, zb⟩ := valueOf_inf hb h2
      rw [vb, valueOf_fin h1, h2, zb]
      cases a.signNeg <;> cases b.signNeg <;> simp [Real64.Lt] <;> omega
    · rw [valueOf_fin h1, valueOf_fin h2]
      have ab := mg_lt_iff (e := a.expBits) (e' := b.expBits) fa fb
      have ba := mg_lt_iff (e := b.expBits) (e' := a.expBits) fb fa
      have na := mg_nonneg a.expBits a.frac
      have nb := mg_nonneg b.expBits b.frac
      have za := mg_zero_iff (e := a.expBits) fa
      have zb := mg_zero_iff (e := b.expBits) fb
      cases a.signNeg <;> cases b.signNeg <;> simp only [Real64.Lt, if_true, if_false,
        Bool.false_eq_true]
      · rw [ab]; omega
      · constructor
        · intro h; omega
        · intro h; linarith
      · constructor
        · intro h
          rcases na.lt_or_eq with p | p
          · linarith
          · rcases nb.lt_or_eq with q | q
            · linarith
            · have := za.1 p.symm
              have := zb.1 q.symm
              omega
        · intro h
          by_contra hc
          clear ab ba ea eb h1 h2
          have e2 : b.expBits * 2 ^ 52 + b.frac = 0 := by omega
          have e1 : a.expBits * 2 ^ 52 + a.frac = 0 := by clear e2; omega
          have p := za.2 e1
          have q := zb.2 e2
          linarith
      · rw [show (-mg a.expBits a.frac < -mg b.expBits b.frac) ↔ mg b.expBits b.frac < mg a.expBits a.frac
          from neg_lt_neg_iff, ba]; omega

/-- Two doubles have one code exactly when they stand for the same value. -/
theorem ordKey_eq_iff {a b : F64} (ha : a.isNan = false) (hb : b.isNan = false) :
    ordKey a = ordKey b ↔ valueOf a = valueOf b := by
  rw [ordKey_eq, ordKey_eq]
  have fa := frac_lt a
  have fb := frac_lt b
  have ea := exp_le a
  have eb := exp_le b
  by_cases h1 : a.expBits = 2047
  · obtain ⟨va, za⟩ := valueOf_inf ha h1
    by_cases h2 : b.expBits = 2047
    · obtain ⟨vb, zb⟩ := valueOf_inf hb h2
      rw [va, vb, h1, h2, za, zb]
      cases a.signNeg <;> cases b.signNeg <;> simp
    · rw [va, valueOf_fin h2, h1, za]
      cases a.signNeg <;> cases b.signNeg <;> simp <;> omega
  · by_cases h2 : b.expBits = 2047
    · obtain ⟨vb, zb⟩ := valueOf_inf hb h2
      rw [vb, valueOf_fin h1, h2, zb]
      cases a.signNeg <;> cases b.signNeg <;> simp <;> omega
    · rw [valueOf_fin h1, valueOf_fin h2]
      have ab := mg_eq_iff (e := a.expBits) (e' := b.expBits) fa fb
      have na := mg_nonneg a.expBits a.frac
      have nb := mg_nonneg b.expBits b.frac
      have za := mg_zero_iff (e := a.expBits) fa
      have zb := mg_zero_iff (e := b.expBits) fb
      cases a.signNeg <;> cases b.signNeg <;> simp only [Real64.fin.injEq, if_true, if_false,
        Bool.false_eq_true]
      · rw [ab]; omega
      · constructor
        · intro h
          rw [za.2 (by omega), zb.2 (by omega)]; simp
        · intro h
          have p : mg a.expBits a.frac = 0 := by linarith
          have q : mg b.expBits b.frac = 0 := by linarith
          have := za.1 p
          have := zb.1 q
          omega
      · constructor
        · intro h
          rw [za.2 (by omega), zb.2 (by omega)]; simp
        · intro h
          have p : mg a.expBits a.frac = 0 := by linarith
          have q : mg b.expBits b.frac = 0 := by linarith
          have := za.1 p
          have := zb.1 q
          omega
      · rw [show (-mg a.expBits a.frac = -mg b.expBits b.frac) ↔ mg a.expBits a.frac = mg b.expBits b.frac
          from neg_inj, ab]; omega

end Tonbo.Lemmas.Float
