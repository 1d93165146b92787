import Verif.Model.WalStore
import Mathlib.Data.List.Basic
import Mathlib.Data.List.Induction
import Mathlib.Data.Nat.Basic
import Mathlib.Data.List.Sort

/-!
# Segment file names: digits, parsing, order
-/

namespace Tonbo.Lemmas.SegName
open Tonbo.Model.Wal

theorem digit_nat : ∀ d, d < 10 → (digitChar d).toNat = 48 + d := by decide

theorem digit_of_nat {c : Char} (h1 : 48 ≤ c.toNat) (h2 : c.toNat ≤ 57) :
    c = digitChar (c.toNat - 48) := by
  unfold digitChar
  rw [show 48 + (c.toNat - 48) = c.toNat by omega, Char.ofNat_toNat]

theorem dec_len (w n : Nat) : (decDigits w n).length = w := by
  induction w generalizing n with
  | zero => rfl
  | succ w ih => simp [decDigits, ih]

theorem value_append (xs ys : List Char) (acc : Nat) :
    digitsValue (xs ++ ys) acc = (digitsValue xs acc).bind (digitsValue ys) := by
  induction xs generalizing acc with
  | nil => rfl
  | cons x xs ih =>
    simp only [List.cons_append, digitsValue]
    split
    · exact ih _
    · rfl

theorem value_dec (w n : Nat) : digitsValue (decDigits w n) 0 = some (n % 10 ^ w) := by
  induction w generalizing n with
  | zero => simp [decDigits, digitsValue, Nat.mod_one]
  | succ w ih =>
    simp only [decDigits, value_append, ih, Option.bind_some, digitsValue]
    have h := digit_nat (n % 10) (by omega)
    rw [h, if_pos (by omega)]
    rw [show (10 : Nat) ^ (w + 1) = 10 * 10 ^ w by rw [Nat.pow_succ, Nat.mul_comm], Nat.mod_mul]
    congr 1
    omega

/-- A character list that has a decimal value is its digits. -/
theorem dec_of_value (cs : List Char) : ∀ v, digitsValue cs 0 = some v →
    v < 10 ^ cs.length ∧ cs = decDigits cs.length v := by
  induction cs using List.reverseRecOn with
  | nil => intro v h; simp only [digitsValue, Option.some.injEq] at h; subst h; simp [decDigits]
  | append_singleton cs c ih =>
    intro v h
    rw [value_append] at h
    cases hc : digitsValue cs 0 with
    | none => rw [hc] at h; cases h
    | some u =>
      rw [hc] at h
      simp only [Option.bind_some, digitsValue] at h
      split at h
      · rename_i hd
        cases h
        obtain ⟨h1, h2⟩ := ih u hc
        have e : (u * 10 + (c.toNat - 48)) / 10 = u := by omega
        have e2 : (u * 10 + (c.toNat - 48)) % 10 = c.toNat - 48 := by omega
        refine ⟨?_, ?_⟩
        · rw [List.length_append, List.length_singleton, Nat.pow_succ]; omega
        · rw [List.length_append, List.length_singleton]
          simp only [decDigits, e, e2]
          rw [← digit_of_nat hd.1 hd.2, ← h2]
      · cases h

theorem dec_inj {w m n : Nat} (hm : m < 10 ^ w) (hn : n < 10 ^ w) (h : decDigits w m = decDigits w n) :
    m = n := by
  have h1 := value_dec w m
  rw [h, value_dec w n, Nat.mod_eq_of_lt hm, Nat.mod_eq_of_lt hn] at h1
  exact (Option.some.inj h1).symm

theorem append_lt : ∀ {a b s t : List Char}, a.length = b.length →
    (a ++ s < b ++ t ↔ a < b ∨ (a = b ∧ s < t))
  | [], [], s, t, _ => by simp
  | x :: a, y :: b, s, t, h => by
    simp only [List.cons_append, List.cons_lt_cons_iff, append_lt (a := a) (b := b) (by simpa using h),
      List.cons.injEq]
    constructor
    · rintro (h | ⟨h1, h | ⟨h2, h3⟩⟩)
      · exact Or.inl (Or.inl h)
      · exact Or.inl (Or.inr ⟨h1, h⟩)
      · exact Or.inr ⟨⟨h1, h2⟩, h3⟩
    · rintro ((h | ⟨h1, h⟩) | ⟨⟨h1, h2⟩, h3⟩)
      · exact Or.inl h
      · exact Or.inr ⟨h1, Or.inl h⟩
      · exact Or.inr ⟨h1, Or.inr ⟨h2, h3⟩⟩

theorem digit_lt : ∀ a, a < 10 → ∀ b, b < 10 → (digitChar a < digitChar b ↔ a < b) := by decide

theorem dec_lt {w m n : Nat} (hm : m < 10 ^ w) (hn : n < 10 ^ w) :
    decDigits w m < decDigits w n ↔ m < n := by
  induction w generalizing m n with
  | zero =>
    simp only [Nat.pow_zero, Nat.lt_one_iff] at hm hn
    subst hm hn; simp [decDigits]
  | succ w ih =>
    have h1 : m / 10 < 10 ^ w := by rw [Nat.pow_succ] at hm; omega
    have h2 : n / 10 < 10 ^ w := by rw [Nat.pow_succ] at hn; omega
    simp only [decDigits]
    rw [append_lt (by simp [dec_len]), ih h1 h2]
    have e : [digitChar (m % 10)] < [digitChar (n % 10)] ↔ m % 10 < n % 10 := by
      rw [List.cons_lt_cons_iff]
      simp [digit_lt (m % 10) (by omega) (n % 10) (by omega)]
    rw [e]
    constructor
    · rintro (h | ⟨h, h3⟩)
      · omega
      · have := dec_inj h1 h2 h; omega
    · intro h
      by_cases hq : m / 10 = n / 10
      · exact Or.inr ⟨by rw [hq], by omega⟩
      · exact Or.inl (by omega)

theorem strip_name (d : List Char) :
    (stripPrefix "wal-".toList ("wal-".toList ++ d ++ ".tonwal".toList)).bind
      (stripSuffix ".tonwal".toList) = some d := by
  unfold stripPrefix
  rw [List.append_assoc, if_pos (by rw [List.isPrefixOf_iff_prefix]; exact List.prefix_append _ _)]
  rw [List.drop_left, Option.bind_some]
  unfold stripSuffix
  rw [if_pos (by rw [List.isSuffixOf_iff_suffix]; exact List.suffix_append _ _)]
  rw [List.length_append, Nat.add_sub_cancel, List.take_left]

theorem strip_inv {name d : List Char}
    (h : (stripPrefix "wal-".toList name).bind (stripSuffix ".tonwal".toList) = some d) :
    name = "wal-".toList ++ d ++ ".tonwal".toList := by
  unfold stripPrefix at h
  split at h
  · rename_i h1
    rw [List.isPrefixOf_iff_prefix] at h1
    obtain ⟨r, rfl⟩ := h1
    rw [List.drop_left, Option.bind_some] at h
    unfold stripSuffix at h
    split at h
    · rename_i h2
      rw [List.isSuffixOf_iff_suffix] at h2
      obtain ⟨t, rfl⟩ := h2
      rw [List.length_append, Nat.add_sub_cancel, List.take_left] at h
      cases h
      rw [List.append_assoc]
    · cases h
  · cases h

theorem seq_eq (name : List Char) : segmentSequence name =
    match (stripPrefix "wal-".toList name).bind (stripSuffix ".tonwal".toList) with
    | none => none
    | some t => if t.length ≠ 20 then none else parseU64 t := by
  unfold segmentSequence
  cases stripPrefix "wal-".toList name with
  | none => rfl
  | some r =>
    simp only [Option.bind_some]
    cases stripSuffix ".tonwal".toList r <;> rfl

theorem digit_ne_plus : ∀ d, d < 10 → digitChar d ≠ '+' := by decide

theorem parse_dec (w n : Nat) (hn : n < 10 ^ (w + 1)) (hu : n < 18446744073709551616) :
    parseU64 (decDigits (w + 1) n) = some n := by
  have hv := value_dec (w + 1) n
  rw [Nat.mod_eq_of_lt hn] at hv
  cases hd : decDigits (w + 1) n with
  | nil => have := dec_len (w + 1) n; rw [hd] at this; cases this
  | cons c cs =>
    have hc : c ≠ '+' := by
      intro e
      rw [hd] at hv
      simp only [digitsValue] at hv
      split at hv
      · rename_i h; subst e; revert h; decide
      · cases hv
    rw [hd] at hv
    have e : dropPlus (c :: cs) = c :: cs := by
      unfold dropPlus
      split
      · rename_i h; cases h; exact absurd rfl hc
      · rfl
    unfold parseU64 parseDigits
    rw [e, if_neg (by simp), hv]
    simp only [if_pos hu]

theorem parseDigits_inv {ds : List Char} {n : Nat} (h : parseDigits ds = some n) :
    ds ≠ [] ∧ n < 18446744073709551616 ∧ ds = decDigits ds.length n ∧ n < 10 ^ ds.length := by
  unfold parseDigits at h
  split at h
  · cases h
  · rename_i hne
    cases hv : digitsValue ds 0 with
    | none => rw [hv] at h; cases h
    | some v =>
      rw [hv] at h
      simp only at h
      split at h
      · rename_i hlt
        cases h
        obtain ⟨a, b⟩ := dec_of_value ds _ hv
        exact ⟨hne, hlt, b, a⟩
      · cases h

theorem parse_inv {cs : List Char} {n : Nat} (h : parseU64 cs = some n) :
    n < 18446744073709551616 ∧ (cs = decDigits cs.length n ∧ n < 10 ^ cs.length ∨
      ∃ ds, cs = '+' :: ds ∧ ds = decDigits ds.length n ∧ n < 10 ^ ds.length) := by
  unfold parseU64 at h
  obtain ⟨_, h1, h2, h3⟩ := parseDigits_inv h
  refine ⟨h1, ?_⟩
  have e : dropPlus cs = cs ∨ cs = '+' :: dropPlus cs := by
    unfold dropPlus
    split
    · exact Or.inr rfl
    · exact Or.inl rfl
  rcases e with e | e
  · rw [e] at h2 h3
    exact Or.inl ⟨h2, h3⟩
  · exact Or.inr ⟨_, e, h2, h3⟩

/-! ## The listing -/

theorem dedup_sub (l : List Seg) : ∀ s ∈ dedupSegs l, s ∈ l := by
  induction l with
  | nil => simp [dedupSegs]
  | cons a l ih =>
    unfold dedupSegs
    cases h : dedupSegs l with
    | nil => simp
    | cons b bs =>
      rw [h] at ih
      simp only
      split
      · intro s hs
        rcases List.mem_cons.1 hs with rfl | hs
        · simp
        · exact List.mem_cons_of_mem _ (ih s (List.mem_cons_of_mem _ hs))
      · intro s hs
        rcases List.mem_cons.1 hs with rfl | hs
        · simp
        · exact List.mem_cons_of_mem _ (ih s hs)

theorem dedup_keeps (l : List Seg) :
    ∀ s ∈ l, ∃ t ∈ dedupSegs l, t.seq = s.seq ∧ t.path = s.path := by
  induction l with
  | nil => simp
  | cons a l ih =>
    intro s hs
    unfold dedupSegs
    cases h : dedupSegs l with
    | nil =>
      simp only
      rcases List.mem_cons.1 hs with rfl | hs
      · exact ⟨s, by simp, rfl, rfl⟩
      · obtain ⟨t, ht, _⟩ := ih s hs
        rw [h] at ht; cases ht
    | cons b bs =>
      simp only
      rw [h] at ih
      rcases List.mem_cons.1 hs with rfl | hs
      · exact ⟨s, by split <;> simp, rfl, rfl⟩
      · obtain ⟨t, ht, h1, h2⟩ := ih s hs
        split
        · rename_i he
          rcases List.mem_cons.1 ht with rfl | ht
          · exact ⟨a, by simp, by rw [he.1, h1], by rw [he.2, h2]⟩
          · exact ⟨t, List.mem_cons_of_mem _ ht, h1, h2⟩
        · exact ⟨t, List.mem_cons_of_mem _ ht, h1, h2⟩

theorem dedup_le (l : List Seg) (h : l.Pairwise (fun a b => a.seq ≤ b.seq)) :
    (dedupSegs l).Pairwise (fun a b => a.seq ≤ b.seq) := by
  induction l with
  | nil => simp [dedupSegs]
  | cons a l ih =>
    have hsub := dedup_sub l
    rw [List.pairwise_cons] at h
    have ih := ih h.2
    unfold dedupSegs
    cases hd : dedupSegs l with
    | nil => simp
    | cons b bs =>
      rw [hd] at ih hsub
      simp only
      split
      · rw [List.pairwise_cons] at ih ⊢
        exact ⟨fun x hx => h.1 x (hsub x (List.mem_cons_of_mem _ hx)), ih.2⟩
      · rw [List.pairwise_cons]
        exact ⟨fun x hx => h.1 x (hsub x hx), ih⟩

theorem dedup_lt (l : List Seg) (h : l.Pairwise (fun a b => a.seq ≤ b.seq))
    (hp : ∀ s t : Seg, s ∈ l → t ∈ l → s.seq = t.seq → s.path = t.path) :
    (dedupSegs l).Pairwise (fun a b => a.seq < b.seq) := by
  induction l with
  | nil => simp [dedupSegs]
  | cons a l ih =>
    have hsub := dedup_sub l
    rw [List.pairwise_cons] at h
    have ih := ih h.2 (fun s t hs ht => hp s t (List.mem_cons_of_mem _ hs) (List.mem_cons_of_mem _ ht))
    unfold dedupSegs
    cases hd : dedupSegs l with
    | nil => simp
    | cons b bs =>
      rw [hd] at ih hsub
      have hb := h.1 b (hsub b (by simp))
      simp only
      rw [List.pairwise_cons] at ih
      split
      · rename_i he
        rw [List.pairwise_cons]
        exact ⟨fun x hx => by rw [he.1]; exact ih.1 x hx, ih.2⟩
      · rename_i he
        have hlt : a.seq < b.seq := by
          rcases Nat.lt_or_eq_of_le hb with h' | h'
          · exact h'
          · exact absurd ⟨h', hp a b (by simp) (List.mem_cons_of_mem _ (hsub b (by simp))) h'⟩ he
        rw [List.pairwise_cons, List.pairwise_cons]
        refine ⟨fun x hx => ?_, ih.1, ih.2⟩
        rcases List.mem_cons.1 hx with rfl | hx
        · exact hlt
        · exact lt_trans hlt (ih.1 x hx)

/-- What was found before sorting. -/
def found (isS3 : Bool) (hint : Option Nat) (dir root : List WFile) : List WFile :=
  if shouldFallback isS3 hint (dir.filterMap describe) then dir ++ root else dir

theorem list_eq (isS3 : Bool) (hint : Option Nat) (dir root : List WFile) :
    listSegments isS3 hint dir root =
      dedupSegs (((found isS3 hint dir root).filterMap describe).insertionSort
        (fun a b => a.seq ≤ b.seq)) := by
  unfold listSegments found
  simp only
  split <;> simp

theorem sorted (l : List Seg) :
    (l.insertionSort (fun a b => a.seq ≤ b.seq)).Pairwise (fun a b => a.seq ≤ b.seq) := by
  have : Std.Total (fun a b : Seg => a.seq ≤ b.seq) := ⟨fun a b => Nat.le_total _ _⟩
  have : IsTrans Seg (fun a b => a.seq ≤ b.seq) := ⟨fun _ _ _ h1 h2 => Nat.le_trans h1 h2⟩
  exact List.pairwise_insertionSort (fun a b : Seg => a.seq ≤ b.seq) l

end Tonbo.Lemmas.SegName
