import Verif.Lemmas.Str

/-!
# C10: the key range of a prefix is exact

Strings are compared by their UTF-8 bytes.
-/

namespace Tonbo.Props.C10
open Tonbo.Model.Str Tonbo.Lemmas.Str

/-- **C10.** If the upper bound of the prefix `p` is `q`, the strings from `p` (included) to `q`
(excluded) are exactly those that start with `p`. -/
theorem prefix_range (p q s : List Char) (h : nextPrefix p = some q) :
    (bytes p ≤ bytes s ∧ bytes s < bytes q) ↔ bytes p <+: bytes s := by
  rw [bytes_prefix, bytes_le_iff, bytes_lt_iff]
  unfold nextPrefix at h
  obtain ⟨r, hr, rfl⟩ := Option.map_eq_some_iff.1 h
  obtain ⟨maxed, c, rest, n, h1, h2, h3, rfl⟩ := nextRev_some _ _ hr
  have hp : p = rest.reverse ++ c :: maxed.reverse := by
    have := congrArg List.reverse h1
    simpa using this
  subst hp
  rw [List.reverse_cons]
  exact range_iff_prefix rest.reverse c n maxed.reverse s h3 (by simpa using h2)

/-- **C10.** If there is no upper bound, the strings from `p` on are exactly those that start with
`p`: nothing above them exists. -/
theorem prefix_range_unbounded (p s : List Char) (h : nextPrefix p = none) :
    bytes p ≤ bytes s ↔ bytes p <+: bytes s := by
  rw [bytes_prefix, bytes_le_iff]
  unfold nextPrefix at h
  have h1 := nextRev_none _ (Option.map_eq_none_iff.1 h)
  exact le_iff_prefix_of_max p s (by simpa using h1)

/-- The order used (bytes) is the order of code points, and starting with a prefix is the same in
bytes and in characters. -/
theorem byte_order_is_code_point_order (s t : List Char) :
    (bytes s < bytes t ↔ s.map Char.toNat < t.map Char.toNat) ∧
      (bytes s <+: bytes t ↔ s <+: t) :=
  ⟨bytes_lt_iff s t, bytes_prefix s t⟩

/-- The bytes are those of UTF-8, as Lean's own strings are encoded. -/
theorem the_bytes_are_utf8 (s : List Char) : bytes s = (s.flatMap String.utf8EncodeChar).map UInt8.toNat := by
  have hc : ∀ c : Char, encode c = (String.utf8EncodeChar c).map UInt8.toNat := by
    intro c
    have hv : c.toNat < 1114112 := by
      have h := c.valid
      have e : c.toNat = c.val.toNat := rfl
      rcases h with h | h <;> omega
    unfold encode String.utf8EncodeChar
    have e : c.val.toNat = c.toNat := rfl
    rw [e]
    generalize c.toNat = n at hv ⊢
    dsimp only
    by_cases h1 : n < 128
    · rw [if_pos h1, if_pos (by omega : n ≤ 127)]
      simp only [List.map_cons, List.map_nil, UInt8.toNat_ofNat', List.cons.injEq, and_true]
      omega
    by_cases h2 : n < 2048
    · rw [if_neg h1, if_pos h2, if_neg (by omega : ¬ n ≤ 127), if_pos (by omega : n ≤ 2047)]
      simp only [List.map_cons, List.map_nil, UInt8.toNat_ofNat', List.cons.injEq, and_true]
      omega
    by_cases h3 : n < 65536
    · rw [if_neg h1, if_neg h2, if_pos h3, if_neg (by omega : ¬ n ≤ 127), if_neg (by omega : ¬ n ≤ 2047),
        if_pos (by omega : n ≤ 65535)]
      simp only [List.map_cons, List.map_nil, UInt8.toNat_ofNat', List.cons.injEq, and_true]
      omega
    · rw [if_neg h1, if_neg h2, if_neg h3, if_neg (by omega : ¬ n ≤ 127), if_neg (by omega : ¬ n ≤ 2047),
        if_neg (by omega : ¬ n ≤ 65535)]
      simp only [List.map_cons, List.map_nil, UInt8.toNat_ofNat', List.cons.injEq, and_true]
      omega
  unfold bytes
  rw [List.map_flatMap]
  exact congrArg (List.flatMap · s) (funext hc)

/-- One character of each length. -/
example : bytes ['a', 'é', '€', Char.ofNat 0x10000] = [0x61, 0xC3, 0xA9, 0xE2, 0x82, 0xAC, 0xF0, 0x90, 0x80, 0x80] := by
  decide

/-- The surrogate gap is skipped, a trailing maximal character is dropped, and a string of maximal
characters has no bound. -/
example : nextPrefix ['a', (Char.ofNat 0xD7FF)] = some ['a', (Char.ofNat 0xE000)] ∧
    nextPrefix ['a', 'z'] = some ['a', '{'] ∧
    nextPrefix ['a', Char.ofNat 0x10FFFF] = some ['b'] ∧
    nextPrefix [Char.ofNat 0x10FFFF] = none := by
  refine ⟨?_, ?_, ?_, ?_⟩
  · have h : nextScalar (Char.ofNat 0xD7FF) = some (Char.ofNat 0xE000) := by
      cases hc : nextScalar (Char.ofNat 0xD7FF) with
      | none => exact absurd (nextScalar_none hc (Char.ofNat 0xE000)) (by decide)
      | some n =>
        obtain ⟨h1, h2⟩ := nextScalar_some hc
        have h3 := h2 (Char.ofNat 0xE000) (by decide)
        have h4 := n.valid
        have h5 : n.toNat = n.val.toNat := rfl
        have h6 : (Char.ofNat 0xD7FF).toNat = 0xD7FF := by decide
        have h7 : (Char.ofNat 0xE000).toNat = 0xE000 := by decide
        have : n.toNat = 0xE000 := by
          rcases h4 with h | ⟨h, _⟩ <;> omega
        rw [Char.toNat_inj.mp (this.trans h7.symm)]
    simp [nextPrefix, nextRev, h]
  · decide
  · have h : nextScalar (Char.ofNat 0x10FFFF) = none := by decide
    have h' : nextScalar 'a' = some 'b' := by decide
    simp [nextPrefix, nextRev, h, h']
  · have h : nextScalar (Char.ofNat 0x10FFFF) = none := by decide
    simp [nextPrefix, nextRev, h]

end Tonbo.Props.C10
