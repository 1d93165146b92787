import Verif.Spec.WalView
import Mathlib.Data.List.Basic
import Mathlib.Data.Nat.Basic

/-!
# CRC-32C: linearity, injectivity of the shift, detection of bursts
-/

namespace Tonbo.Lemmas.Crc
open Tonbo.Model.Wal Tonbo.Spec

theorem shift_xor (x y : BitVec 32) : crcShift (x ^^^ y) = crcShift x ^^^ crcShift y := by
  unfold crcShift
  have e : (x ^^^ y) >>> 1 = x >>> 1 ^^^ y >>> 1 := by
    apply BitVec.eq_of_getLsbD_eq; intro i hi; simp
  rw [e, BitVec.getLsbD_xor]
  generalize x >>> 1 = a
  generalize y >>> 1 = b
  cases x.getLsbD 0 <;> cases y.getLsbD 0 <;> simp
  · ac_rfl
  · ac_rfl
  · have : a ^^^ crcPoly ^^^ (b ^^^ crcPoly) = (a ^^^ b) ^^^ (crcPoly ^^^ crcPoly) := by ac_rfl
    rw [this]; simp

theorem shift_zero : crcShift 0#32 = 0#32 := by decide

theorem shift_eq_zero {x : BitVec 32} (h : crcShift x = 0#32) : x = 0#32 := by
  have h0 : x.getLsbD 0 = false := by
    have := congrArg (fun v => v.getLsbD 31) h
    unfold crcShift at this
    cases e : x.getLsbD 0
    · rfl
    · rw [e] at this
      simp [crcPoly] at this
  unfold crcShift at h
  rw [h0] at h
  simp at h
  apply BitVec.eq_of_getLsbD_eq
  intro i hi
  cases i with
  | zero => simpa using h0
  | succ i =>
    have := congrArg (fun v => v.getLsbD i) h
    simp at this ⊢
    rw [Nat.add_comm] at this
    exact this

/-- `n` shifts. -/
def shifts : Nat → BitVec 32 → BitVec 32
  | 0, x => x
  | n + 1, x => crcShift (shifts n x)

theorem shifts_xor (n : Nat) (x y : BitVec 32) : shifts n (x ^^^ y) = shifts n x ^^^ shifts n y := by
  induction n with
  | zero => rfl
  | succ n ih => simp only [shifts, ih, shift_xor]

theorem shifts_eq_zero {n : Nat} {x : BitVec 32} (h : shifts n x = 0#32) : x = 0#32 := by
  induction n with
  | zero => exact h
  | succ n ih => exact ih (shift_eq_zero h)

theorem shifts_one : ∀ j, j < 32 → shifts j (1#32 <<< j) = 1#32 := by decide

/-- A bit as a 32-bit word. -/
def w (b : Bool) : BitVec 32 := if b then 1#32 else 0#32

theorem w_xor (a b : Bool) : w (a ^^ b) = w a ^^^ w b := by cases a <;> cases b <;> decide

theorem bit_diff (s t : BitVec 32) (a b : Bool) :
    crcBit s a ^^^ crcBit t b = crcShift ((s ^^^ t) ^^^ w (a ^^ b)) := by
  rw [w_xor]
  unfold crcBit
  rw [← shift_xor]
  show crcShift ((s ^^^ w a) ^^^ (t ^^^ w b)) = _
  congr 1
  ac_rfl

/-- The difference register after feeding the difference bits. -/
def diff : BitVec 32 → List Bool → BitVec 32 := List.foldl (fun d e => crcShift (d ^^^ w e))

theorem fold_diff : ∀ (ps qs : List Bool) (s t : BitVec 32), ps.length = qs.length →
    ps.foldl crcBit s ^^^ qs.foldl crcBit t = diff (s ^^^ t) (List.zipWith (· ^^ ·) ps qs)
  | [], [], s, t, _ => rfl
  | p :: ps, q :: qs, s, t, h => by
    simp only [List.foldl_cons, List.zipWith_cons_cons]
    rw [fold_diff ps qs _ _ (by simpa using h), bit_diff]
    rfl

theorem diff_append (d : BitVec 32) (xs ys : List Bool) : diff d (xs ++ ys) = diff (diff d xs) ys := by
  simp [diff, List.foldl_append]

theorem diff_zeros : ∀ (xs : List Bool) (d : BitVec 32), (∀ x ∈ xs, x = false) →
    diff d xs = shifts xs.length d
  | [], _, _ => rfl
  | x :: xs, d, h => by
    have hx := h x (by simp); subst hx
    show diff (crcShift (d ^^^ w false)) xs = _
    rw [diff_zeros xs _ (fun y hy => h y (by simp [hy]))]
    have : d ^^^ w false = d := by simp [w]
    rw [this]
    clear this h
    induction xs with
    | nil => rfl
    | cons y ys ih =>
      show crcShift (shifts ys.length (crcShift d)) = crcShift (shifts (ys.length + 1) d)
      rw [ih]; rfl

/-- The first (at most 32) difference bits as a word. -/
def word : Nat → List Bool → BitVec 32
  | _, [] => 0#32
  | j, e :: es => (w e <<< j) ^^^ word (j + 1) es

theorem w_shifts {j : Nat} (hj : j < 32) (e : Bool) : shifts j (w e <<< j) = w e := by
  cases e
  · simp [w]
    induction j with
    | zero => rfl
    | succ j ih => simp only [shifts, ih (by omega), shift_zero]
  · exact shifts_one j hj

/-- Feeding at most 32 bits from a zero difference is shifting one word. -/
theorem diff_word : ∀ (es : List Bool) (j : Nat) (x : BitVec 32), j + es.length ≤ 32 →
    diff (shifts j x) es = shifts (j + es.length) (x ^^^ word j es)
  | [], j, x, _ => by simp [diff, word]
  | e :: es, j, x, h => by
    simp only [List.length_cons] at h
    show diff (crcShift (shifts j x ^^^ w e)) es = _
    have h1 : crcShift (shifts j x ^^^ w e) = shifts (j + 1) (x ^^^ (w e <<< j)) := by
      rw [← w_shifts (j := j) (by omega) e, ← shifts_xor, w_shifts (by omega)]; rfl
    rw [h1, diff_word es (j + 1) _ (by omega)]
    simp only [word, List.length_cons]
    congr 1
    · omega
    · ac_rfl

theorem w_bit (e : Bool) (j i : Nat) (hi : i < 32) : (w e <<< j).getLsbD i = (e && decide (i = j)) := by
  cases e
  · simp [w]
  · have : (1#32 : BitVec 32).getLsbD (i - j) = decide (i - j = 0) := by
      simp
    simp [w]
    grind

/-- Bit `i` of the word is difference bit `i - j`. -/
theorem word_bit : ∀ (es : List Bool) (j i : Nat), i < 32 →
    (word j es).getLsbD i = (decide (j ≤ i) && es.getD (i - j) false)
  | [], j, i, _ => by simp [word]
  | e :: es, j, i, h => by
    simp only [word, BitVec.getLsbD_xor, w_bit e j i h, word_bit es (j + 1) i h]
    rcases Nat.lt_trichotomy i j with h1 | h1 | h1
    · have : ¬ j ≤ i := by omega
      have h2 : ¬ j + 1 ≤ i := by omega
      have h3 : i ≠ j := by omega
      simp [this, h2, h3]
    · subst h1
      have h2 : ¬ i + 1 ≤ i := by omega
      simp [h2]
    · have h2 : j + 1 ≤ i := by omega
      have h3 : i ≠ j := by omega
      have h4 : j ≤ i := by omega
      obtain ⟨k, rfl⟩ : ∃ k, i = j + 1 + k := ⟨i - (j + 1), by omega⟩
      have e1 : j + 1 + k - (j + 1) = k := by omega
      have e2 : j + 1 + k - j = k + 1 := by omega
      simp [h2, h3, h4, e1, e2]

/-- A nonzero burst of at most 32 difference bits leaves a nonzero difference. -/
theorem diff_burst {es : List Bool} (hl : es.length ≤ 32) (h : diff 0#32 es = 0#32) :
    ∀ e ∈ es, e = false := by
  have h1 := diff_word es 0 0#32 (by omega)
  simp only [shifts] at h1
  rw [h1] at h
  have h2 := shifts_eq_zero h
  intro e he
  obtain ⟨i, hi, rfl⟩ := List.getElem_of_mem he
  have h3 : (word 0 es).getLsbD i = false := by
    have : word 0 es = 0#32 := by simpa using h2
    rw [this]; simp
  rw [word_bit es 0 i (by omega)] at h3
  simpa [List.getElem?_eq_getElem hi] using h3

theorem flat_len (p : Bytes) : (p.flatMap byteBits).length = 8 * p.length := by
  induction p with
  | nil => rfl
  | cons b p ih => simp [List.flatMap_cons, byteBits, ih]; omega

theorem flat_get : ∀ (p : Bytes) (i : Nat), (p.flatMap byteBits).getD i false = bitAt p i
  | [], i => by simp [bitAt]
  | b :: p, i => by
    rw [List.flatMap_cons]
    by_cases h : i < 8
    · have h1 : i / 8 = 0 := by omega
      have h2 : i % 8 = i := by omega
      simp only [bitAt, h1, h2]
      have : i = 0 ∨ i = 1 ∨ i = 2 ∨ i = 3 ∨ i = 4 ∨ i = 5 ∨ i = 6 ∨ i = 7 := by omega
      rcases this with rfl | rfl | rfl | rfl | rfl | rfl | rfl | rfl <;> simp [byteBits]
    · obtain ⟨k, rfl⟩ : ∃ k, i = 8 + k := ⟨i - 8, by omega⟩
      have h1 : (8 + k) / 8 = k / 8 + 1 := by omega
      have h2 : (8 + k) % 8 = k % 8 := by omega
      have ih := flat_get p k
      simp only [bitAt] at ih
      simp only [bitAt, h1, h2, List.getD_cons_succ, ← ih]
      rw [List.getD_eq_getElem?_getD, List.getElem?_append_right (by simp [byteBits]),
        List.getD_eq_getElem?_getD]
      congr 2
      simp [byteBits]

theorem bits_ext {p q : Bytes} (hl : p.length = q.length) (h : ∀ i, bitAt p i = bitAt q i) :
    p = q := by
  apply List.ext_getElem hl
  intro n h1 h2
  apply BitVec.eq_of_getLsbD_eq
  intro i hi
  have := h (8 * n + i)
  have e1 : (8 * n + i) / 8 = n := by omega
  have e2 : (8 * n + i) % 8 = i := by omega
  simpa [bitAt, e1, e2, h1, h2] using this

theorem bitAt_beyond {p : Bytes} {i : Nat} (h : 8 * p.length ≤ i) : bitAt p i = false := by
  unfold bitAt
  have : p.length ≤ i / 8 := by omega
  simp [List.getD_eq_getElem?_getD, List.getElem?_eq_none this]

/-- **CRC-32C detects every burst.** -/
theorem crc_burst {p q : Bytes} (h : Burst p q) : crc32c p ≠ crc32c q := by
  obtain ⟨hl, hne, a, ha⟩ := h
  intro hc
  apply hne
  let es := List.zipWith (· ^^ ·) (p.flatMap byteBits) (q.flatMap byteBits)
  have hlen : (p.flatMap byteBits).length = (q.flatMap byteBits).length := by
    rw [flat_len, flat_len, hl]
  have hd : diff 0#32 es = 0#32 := by
    have := fold_diff (p.flatMap byteBits) (q.flatMap byteBits) 0xFFFFFFFF#32 0xFFFFFFFF#32 hlen
    rw [BitVec.xor_self] at this
    show diff 0#32 es = 0#32
    rw [← this]
    unfold crc32c at hc
    have := congrArg (· ^^^ 0xFFFFFFFF#32) hc
    simp only [BitVec.xor_assoc, BitVec.xor_self, BitVec.xor_zero] at this
    rw [this, BitVec.xor_self]
  have hes : ∀ i, es.getD i false = (bitAt p i ^^ bitAt q i) := by
    intro i
    rw [← flat_get p i, ← flat_get q i]
    by_cases hi : i < (p.flatMap byteBits).length
    · have hi' : i < (q.flatMap byteBits).length := by omega
      have hz : i < es.length := by simp only [es, List.length_zipWith]; omega
      simp only [List.getD_eq_getElem?_getD, List.getElem?_eq_getElem hi, List.getElem?_eq_getElem hi',
        List.getElem?_eq_getElem hz, Option.getD_some, es, List.getElem_zipWith]
    · have hz : es.length ≤ i := by simp only [es, List.length_zipWith]; omega
      simp only [List.getD_eq_getElem?_getD,
        List.getElem?_eq_none (show (p.flatMap byteBits).length ≤ i by omega),
        List.getElem?_eq_none (show (q.flatMap byteBits).length ≤ i by omega),
        List.getElem?_eq_none hz, Option.getD_none, Bool.xor_false]
  have hzero : ∀ i, i < a ∨ a + 32 ≤ i → es.getD i false = false := by
    intro i hi; rw [hes i, ha i hi]; simp
  have split : es = es.take a ++ ((es.drop a).take 32 ++ (es.drop a).drop 32) := by
    rw [List.take_append_drop, List.take_append_drop]
  have pre : ∀ x ∈ es.take a, x = false := by
    intro x hx
    obtain ⟨i, hi, rfl⟩ := List.getElem_of_mem hx
    have hi1 : i < a ∧ i < es.length := by simp at hi; omega
    have := hzero i (Or.inl hi1.1)
    simpa [List.getD_eq_getElem?_getD, hi1.2] using this
  have post : ∀ x ∈ (es.drop a).drop 32, x = false := by
    intro x hx
    rw [List.drop_drop] at hx
    obtain ⟨i, hi, rfl⟩ := List.getElem_of_mem hx
    have hi1 : a + 32 + i < es.length := by simp at hi; omega
    have := hzero (a + 32 + i) (Or.inr (by omega))
    simpa [List.getD_eq_getElem?_getD, hi1] using this
  rw [split, diff_append, diff_append, diff_zeros _ _ pre] at hd
  have z : shifts (es.take a).length 0#32 = 0#32 := by
    generalize (es.take a).length = n
    induction n with
    | zero => rfl
    | succ n ih => simp only [shifts, ih, shift_zero]
  rw [z, diff_zeros _ _ post] at hd
  have hm := diff_burst (by rw [List.length_take]; omega) (shifts_eq_zero hd)
  apply bits_ext hl
  intro i
  have : es.getD i false = false := by
    by_cases hi : i < a ∨ a + 32 ≤ i
    · exact hzero i hi
    · by_cases hi2 : i < es.length
      · have : es[i] ∈ (es.drop a).take 32 := by
          rw [List.mem_iff_getElem]
          refine ⟨i - a, by simp; omega, ?_⟩
          simp only [List.getElem_take, List.getElem_drop]
          congr 1; omega
        simpa [List.getD_eq_getElem?_getD, hi2] using hm _ this
      · simp [List.getD_eq_getElem?_getD, List.getElem?_eq_none (by omega : es.length ≤ i)]
  rw [hes i] at this
  revert this
  cases bitAt p i <;> cases bitAt q i <;> intro h <;> first | rfl | exact absurd h (by decide)

end Tonbo.Lemmas.Crc
