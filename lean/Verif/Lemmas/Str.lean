import Verif.Model.Str
import Mathlib.Tactic.SplitIfs

namespace Tonbo.Lemmas.Str
open Tonbo.Model.Str

theorem toNat_lt (c : Char) : c.toNat < 0x110000 := by
  have := c.valid
  have h : c.toNat = c.val.toNat := rfl
  rw [h]
  rcases this with h | ⟨_, h⟩
  · omega
  · exact h

theorem encode_ne_nil (c : Char) : encode c ≠ [] := by
  unfold encode
  simp only
  split
  · simp
  · split
    · simp
    · split <;> simp

/-- Encodings of different characters differ within the shorter one, in code point order. -/
theorem encode_lt {c d : Char} (h : c.toNat < d.toNat) (s t : List Nat) :
    encode c ++ s < encode d ++ t := by
  have hc := toNat_lt c
  have hd := toNat_lt d
  generalize hn : c.toNat = n at *
  generalize hm : d.toNat = m at *
  unfold encode
  rw [hn, hm]
  simp only
  split_ifs <;> simp only [List.cons_append, List.nil_append, List.cons_lt_cons_iff] <;> omega

theorem cons_le_cons {a b : Nat} {l m : List Nat} :
    a :: l ≤ b :: m ↔ a < b ∨ (a = b ∧ l ≤ m) := by
  rw [← not_lt, List.cons_lt_cons_iff, ← not_lt]
  constructor
  · intro h
    rcases Nat.lt_trichotomy a b with h1 | h1 | h1
    · exact .inl h1
    · exact .inr ⟨h1, fun h2 => h (.inr ⟨h1.symm, h2⟩)⟩
    · exact absurd (.inl h1) h
  · rintro (h | ⟨rfl, h⟩) (h1 | ⟨h1, h2⟩)
    · omega
    · omega
    · omega
    · exact h h2

theorem nil_le_list (l : List Nat) : [] ≤ l := by
  rw [← not_lt]; exact List.not_lt_nil _

theorem not_cons_le_nil (a : Nat) (l : List Nat) : ¬ (a :: l ≤ []) := by
  rw [not_le]; exact List.nil_lt_cons _ _

theorem bytes_cons (c : Char) (s : List Char) : bytes (c :: s) = encode c ++ bytes s := rfl

theorem append_lt_append {l s t : List Nat} : l ++ s < l ++ t ↔ s < t := by
  induction l with
  | nil => rfl
  | cons a l ih => simp [ih]

/-- Byte order is code point order. -/
theorem bytes_lt_iff : ∀ (s t : List Char),
    bytes s < bytes t ↔ s.map Char.toNat < t.map Char.toNat
  | [], [] => by simp [bytes]
  | [], d :: t => by
    have h1 : bytes [] < bytes (d :: t) := by
      rw [bytes_cons]
      cases he : encode d with
      | nil => exact absurd he (encode_ne_nil d)
      | cons a l => exact List.nil_lt_cons _ _
    simp [h1]
  | c :: s, [] => by
    constructor
    · intro h; exact absurd h (List.not_lt_nil _)
    · intro h; exact absurd h (List.not_lt_nil _)
  | c :: s, d :: t => by
    rw [bytes_cons, bytes_cons, List.map_cons, List.map_cons, List.cons_lt_cons_iff]
    rcases Nat.lt_trichotomy c.toNat d.toNat with h | h | h
    · exact ⟨fun _ => .inl h, fun _ => encode_lt h _ _⟩
    · have : c = d := Char.toNat_inj.mp h
      subst this
      rw [append_lt_append, bytes_lt_iff s t]
      simp
    · constructor
      · intro hlt
        exact absurd (lt_trans hlt (encode_lt h _ _)) (lt_irrefl _)
      · rintro (h' | ⟨h', _⟩) <;> omega

theorem bytes_inj {s t : List Char} (h : bytes s = bytes t) : s = t := by
  have h1 : ¬ s.map Char.toNat < t.map Char.toNat := by rw [← bytes_lt_iff, h]; exact lt_irrefl _
  have h2 : ¬ t.map Char.toNat < s.map Char.toNat := by rw [← bytes_lt_iff, h]; exact lt_irrefl _
  have := le_antisymm (not_lt.1 h2) (not_lt.1 h1)
  exact List.map_injective_iff.2 (fun a b hab => Char.toNat_inj.mp hab) this

theorem bytes_le_iff (s t : List Char) :
    bytes s ≤ bytes t ↔ s.map Char.toNat ≤ t.map Char.toNat := by
  rw [← not_lt, ← not_lt, bytes_lt_iff]

theorem fromU32_some {n : Nat} {c : Char} (h : fromU32 n = some c) : c.toNat = n := by
  unfold fromU32 at h
  split at h
  · rename_i hv
    obtain rfl := Option.some.inj h
    rfl
  · cases h

theorem fromU32_none {n : Nat} (h : fromU32 n = none) (c : Char) : c.toNat ≠ n := by
  unfold fromU32 at h
  split at h
  · cases h
  · rename_i hv
    rintro rfl
    exact hv c.valid

theorem nextLoop_some : ∀ (fuel n : Nat) (c : Char), nextLoop fuel n = some c →
    n ≤ c.toNat ∧ ∀ d : Char, n ≤ d.toNat → c.toNat ≤ d.toNat
  | 0, _, _, h => by simp [nextLoop] at h
  | fuel + 1, n, c, h => by
    simp only [nextLoop] at h
    split at h
    · split at h
      · rename_i ch hch
        obtain rfl := Option.some.inj h
        rw [fromU32_some hch]
        exact ⟨Nat.le_refl _, fun d hd => hd⟩
      · rename_i hn
        obtain ⟨h1, h2⟩ := nextLoop_some fuel (n + 1) c h
        refine ⟨by omega, fun d hd => h2 d ?_⟩
        have := fromU32_none hn d
        omega
    · cases h

theorem nextLoop_none : ∀ (fuel n : Nat), nextLoop fuel n = none → 0x110000 ≤ n + fuel →
    ∀ d : Char, d.toNat < n
  | 0, n, _, hf => fun d => by have := toNat_lt d; omega
  | fuel + 1, n, h, hf => by
    simp only [nextLoop] at h
    split at h
    · split at h
      · cases h
      · rename_i hn
        intro d
        have h1 := nextLoop_none fuel (n + 1) h (by omega) d
        have := fromU32_none hn d
        omega
    · intro d; have := toNat_lt d; omega

theorem nextScalar_some {c n : Char} (h : nextScalar c = some n) :
    c.toNat < n.toNat ∧ ∀ d : Char, c.toNat < d.toNat → n.toNat ≤ d.toNat := by
  obtain ⟨h1, h2⟩ := nextLoop_some _ _ _ h
  exact ⟨by omega, fun d hd => h2 d (by omega)⟩

theorem nextScalar_none {c : Char} (h : nextScalar c = none) : ∀ d : Char, d.toNat ≤ c.toNat := by
  intro d
  have := nextLoop_none _ _ h (by have := toNat_lt c; omega) d
  omega

/-- What `nextRev` finds. -/
theorem nextRev_some : ∀ (l : List Char) (q : List Char), nextRev l = some q →
    ∃ maxed c rest n, l = maxed ++ c :: rest ∧ (∀ x ∈ maxed, ∀ d : Char, d.toNat ≤ x.toNat) ∧
      nextScalar c = some n ∧ q = n :: rest
  | [], _, h => by simp [nextRev] at h
  | c :: l, q, h => by
    simp only [nextRev] at h
    split at h
    · rename_i n hn
      exact ⟨[], c, l, n, rfl, by simp, hn, (Option.some.inj h).symm⟩
    · rename_i hn
      obtain ⟨m, c', r, n, rfl, h2, h3, h4⟩ := nextRev_some l q h
      refine ⟨c :: m, c', r, n, rfl, ?_, h3, h4⟩
      intro x hx
      rcases List.mem_cons.1 hx with rfl | hx
      · exact nextScalar_none hn
      · exact h2 x hx

theorem nextRev_none : ∀ (l : List Char), nextRev l = none →
    ∀ x ∈ l, ∀ d : Char, d.toNat ≤ x.toNat
  | [], _ => by simp
  | c :: l, h => by
    simp only [nextRev] at h
    split at h
    · cases h
    · rename_i hn
      intro x hx
      rcases List.mem_cons.1 hx with rfl | hx
      · exact nextScalar_none hn
      · exact nextRev_none l h x hx

abbrev nums (s : List Char) : List Nat := s.map Char.toNat

/-- At or above a string of maximal characters means having it as a prefix. -/
theorem le_iff_prefix_of_max : ∀ (p s : List Char), (∀ x ∈ p, ∀ d : Char, d.toNat ≤ x.toNat) →
    (nums p ≤ nums s ↔ p <+: s)
  | [], s, _ => by simp [nums, nil_le_list]
  | c :: p, [], _ => by simp [nums, not_cons_le_nil]
  | c :: p, d :: s, h => by
    have hd := h c List.mem_cons_self d
    show c.toNat :: nums p ≤ d.toNat :: nums s ↔ _
    rw [cons_le_cons, List.cons_prefix_cons,
      le_iff_prefix_of_max p s (fun x hx => h x (List.mem_cons_of_mem _ hx)),
      ← Char.toNat_inj]
    constructor
    · rintro (h' | h')
      · omega
      · exact h'
    · exact .inr

theorem range_iff_prefix : ∀ (pre : List Char) (c n : Char) (maxed s : List Char),
    nextScalar c = some n → (∀ x ∈ maxed, ∀ d : Char, d.toNat ≤ x.toNat) →
    ((nums (pre ++ c :: maxed) ≤ nums s ∧ nums s < nums (pre ++ [n])) ↔ (pre ++ c :: maxed) <+: s)
  | [], c, n, maxed, s, hn, hm => by
    obtain ⟨h1, h2⟩ := nextScalar_some hn
    cases s with
    | nil => simp [nums, not_cons_le_nil]
    | cons d s =>
      have h2d := h2 d
      simp only [nums, List.nil_append, List.map_cons, List.map_nil, cons_le_cons,
        List.cons_lt_cons_iff, List.cons_prefix_cons, List.not_lt_nil, and_false, or_false,
        ← Char.toNat_inj]
      have := le_iff_prefix_of_max maxed s hm
      constructor
      · rintro ⟨h3 | ⟨h3, h4⟩, h5⟩
        · have := h2d h3; omega
        · exact ⟨h3, this.1 h4⟩
      · rintro ⟨h3, h4⟩
        exact ⟨.inr ⟨h3, this.2 h4⟩, by omega⟩
  | a :: pre, c, n, maxed, s, hn, hm => by
    cases s with
    | nil => simp [nums, not_cons_le_nil]
    | cons d s =>
      have ih := range_iff_prefix pre c n maxed s hn hm
      simp only [nums] at ih
      simp only [nums, List.cons_append, List.map_cons, cons_le_cons,
        List.cons_lt_cons_iff, List.cons_prefix_cons, ← Char.toNat_inj]
      rw [← ih]
      constructor
      · rintro ⟨h3 | ⟨h3, h4⟩, h5 | ⟨h5, h6⟩⟩
        · omega
        · omega
        · omega
        · exact ⟨h3, h4, h6⟩
      · rintro ⟨h3, h4, h5⟩
        exact ⟨.inr ⟨h3, h4⟩, .inr ⟨h3.symm, h5⟩⟩

/-- Prefix at byte level is prefix at character level. -/
theorem bytes_prefix : ∀ (p s : List Char), bytes p <+: bytes s ↔ p <+: s
  | [], s => by simp [bytes]
  | c :: p, [] => by
    simp only [bytes_cons]
    constructor
    · intro h
      have : encode c = [] := (List.append_eq_nil_iff.1 (List.prefix_nil.1 h)).1
      exact absurd this (encode_ne_nil c)
    · intro h; simp at h
  | c :: p, d :: s => by
    rw [bytes_cons, bytes_cons, List.cons_prefix_cons]
    by_cases h : c = d
    · subst h
      rw [List.prefix_append_right_inj, bytes_prefix p s]
      simp
    · simp only [h, false_and, iff_false]
      rintro ⟨r, hr⟩
      rw [List.append_assoc] at hr
      have hne : c.toNat ≠ d.toNat := fun e => h (Char.toNat_inj.mp e)
      rcases Nat.lt_or_gt_of_ne hne with h1 | h1
      · exact absurd hr (ne_of_lt (encode_lt h1 _ _))
      · exact absurd hr.symm (ne_of_lt (encode_lt h1 _ _))

end Tonbo.Lemmas.Str
