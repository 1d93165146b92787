import Verif.Lemmas.SegName
import Verif.Spec.SegView
import Mathlib.Data.List.Sort
import Mathlib.Tactic.NormNum

/-!
# C35: segment files are replayed in write order

The listing sorts by the number parsed from the file name, so what matters is that names and numbers
correspond, that the order of names is the order of numbers, and that the listing is complete.
-/

namespace Tonbo.Props.C35
open Tonbo.Model.Wal Tonbo.Spec.Wal Tonbo.Lemmas.SegName

/-- The name the log gives to segment `n` parses back to `n`, for every 64-bit number. -/
theorem name_parses_back (n : Nat) (h : n < 2 ^ 64) : segmentSequence (segName n) = some n := by
  rw [seq_eq]
  unfold segName
  rw [strip_name]
  simp only [dec_len, ne_eq, not_true, if_false]
  exact parse_dec 19 n (by norm_num at h ⊢; omega) (by norm_num at h; omega)

example : segName 42 = "wal-00000000000000000042.tonwal".toList := by decide
example : segmentSequence "wal-00000000000000000042.tonwal".toList = some 42 := by decide

/-- Comparing two names character by character gives the order of their numbers. -/
theorem names_sort_as_numbers (m n : Nat) (hm : m < 2 ^ 64) (hn : n < 2 ^ 64) :
    segName m < segName n ↔ m < n := by
  have h : (2 : Nat) ^ 64 < 10 ^ 20 := by norm_num
  unfold segName
  rw [append_lt (by simp [dec_len]), append_lt rfl, dec_lt (by omega) (by omega)]
  simp

/-- Different numbers have different names. -/
theorem names_are_distinct (m n : Nat) (hm : m < 2 ^ 64) (hn : n < 2 ^ 64) (h : segName m = segName n) :
    m = n := by
  have := name_parses_back m hm
  rw [h, name_parses_back n hn] at this
  exact (Option.some.inj this).symm

/-- Every file name that is accepted is the name of a 64-bit number, or the same with a plus sign
in place of the first digit. -/
theorem accepted_names_partial (name : List Char) (n : Nat) (h : segmentSequence name = some n) :
    n < 2 ^ 64 ∧ (name = segName n ∨
      (n < 10 ^ 19 ∧ name = "wal-+".toList ++ decDigits 19 n ++ ".tonwal".toList)) := by
  rw [seq_eq] at h
  cases ht : (stripPrefix "wal-".toList name).bind (stripSuffix ".tonwal".toList) with
  | none => rw [ht] at h; cases h
  | some t =>
    rw [ht] at h
    simp only at h
    split at h
    · cases h
    · rename_i hl
      have hl : t.length = 20 := by omega
      have hname := strip_inv ht
      obtain ⟨h1, h2⟩ := parse_inv h
      refine ⟨by norm_num; omega, ?_⟩
      rcases h2 with ⟨h2, _⟩ | ⟨ds, h2, h3, h4⟩
      · left
        rw [hname]
        unfold segName
        rw [hl] at h2
        rw [← h2]
      · right
        have hd : ds.length = 19 := by rw [h2] at hl; simpa using hl
        rw [hd] at h3 h4
        refine ⟨h4, ?_⟩
        rw [hname, h2, ← h3]
        simp

/-- The plus sign is really accepted: a name the log never writes is taken for a segment, so "other
file names are ignored" fails. -/
theorem foreign_name_is_accepted :
    segmentSequence "wal-+0000000000000000007.tonwal".toList = some 7 ∧
    "wal-+0000000000000000007.tonwal".toList ≠ segName 7 := by decide

/-- Every name without the plus sign that is not the name of a 64-bit number is ignored. -/
theorem other_names_are_ignored (f : WFile) (hp : '+' ∉ f.name)
    (h : ∀ n, ¬ IsSegmentFile f n) : describe f = none := by
  unfold describe
  cases hs : segmentSequence f.name with
  | none => rfl
  | some n =>
    exfalso
    obtain ⟨h1, h2 | ⟨_, h2⟩⟩ := accepted_names_partial _ _ hs
    · exact h n ⟨h2, h1⟩
    · apply hp; rw [h2]; simp

example : describe ⟨[], "wal-7.tonwal".toList, []⟩ = none := by decide
example : describe ⟨[], "wal-00000000000000000007.tmp".toList, []⟩ = none := by decide
example : describe ⟨[], "wal-99999999999999999999.tonwal".toList, []⟩ = none := by decide

/-! ## The listing -/

/-- The listing is in the order of the sequence numbers, whatever order the store lists files in. -/
theorem listing_is_sorted (isS3 : Bool) (hint : Option Nat) (dir root : List WFile) :
    (listSegments isS3 hint dir root).Pairwise (fun a b => a.seq ≤ b.seq) := by
  rw [list_eq]
  exact dedup_le _ (sorted _)

/-- When each number has one path, the order is strict: no segment is replayed twice. -/
theorem listing_is_strict (isS3 : Bool) (hint : Option Nat) (dir root : List WFile)
    (h : OnePathPerNumber (dir ++ root)) :
    (listSegments isS3 hint dir root).Pairwise (fun a b => a.seq < b.seq) := by
  rw [list_eq]
  apply dedup_lt _ (sorted _)
  intro s t hs ht hst
  rw [List.mem_insertionSort, List.mem_filterMap] at hs ht
  obtain ⟨f, hf, hfs⟩ := hs
  obtain ⟨g, hg, hgs⟩ := ht
  have sub : ∀ x ∈ found isS3 hint dir root, x ∈ dir ++ root := by
    intro x hx; unfold found at hx; split at hx
    · exact hx
    · exact List.mem_append_left _ hx
  unfold describe at hfs hgs
  cases e1 : segmentSequence f.name with
  | none => rw [e1] at hfs; cases hfs
  | some n =>
    cases e2 : segmentSequence g.name with
    | none => rw [e2] at hgs; cases hgs
    | some m =>
      rw [e1] at hfs; rw [e2] at hgs
      simp only [Option.some.injEq] at hfs hgs
      subst hfs hgs
      simp only at hst ⊢
      subst hst
      exact h f g n (sub f hf) (sub g hg) e1 e2

/-- The listing holds every segment file of the directory with its number and content. -/
theorem listing_is_complete (isS3 : Bool) (hint : Option Nat) (dir root : List WFile)
    (hc : Consistent (dir ++ root)) (f : WFile) (hf : f ∈ dir) (n : Nat) (h : IsSegmentFile f n) :
    (⟨n, f.path, f.data⟩ : Seg) ∈ listSegments isS3 hint dir root := by
  rw [list_eq]
  have sub : ∀ x ∈ found isS3 hint dir root, x ∈ dir ++ root := by
    intro x hx; unfold found at hx; split at hx
    · exact hx
    · exact List.mem_append_left _ hx
  have hin : f ∈ found isS3 hint dir root := by
    unfold found; split
    · exact List.mem_append_left _ hf
    · exact hf
  have hd : describe f = some ⟨n, f.path, f.data⟩ := by
    unfold describe; rw [h.1, name_parses_back n h.2]
  have hm : (⟨n, f.path, f.data⟩ : Seg) ∈ ((found isS3 hint dir root).filterMap describe).insertionSort
        (fun a b => a.seq ≤ b.seq) := by
    rw [List.mem_insertionSort, List.mem_filterMap]; exact ⟨f, hin, hd⟩
  obtain ⟨t, ht, h1, h2⟩ := dedup_keeps _ _ hm
  have ht' := dedup_sub _ t ht
  rw [List.mem_insertionSort, List.mem_filterMap] at ht'
  obtain ⟨g, hg, hgt⟩ := ht'
  have hgp : g.path = t.path ∧ g.data = t.data := by
    unfold describe at hgt
    cases e : segmentSequence g.name with
    | none => rw [e] at hgt; cases hgt
    | some m => rw [e] at hgt; simp only [Option.some.injEq] at hgt; subst hgt; exact ⟨rfl, rfl⟩
  have e : g = f := hc g f (sub g hg) (sub f hin) (by rw [hgp.1, h2])
  subst e
  have : t = ⟨n, g.path, g.data⟩ := by
    cases t; simp only at h1 hgp; simp [h1, hgp.1, hgp.2]
  rwa [← this]

/-- Nothing else is in the listing: each entry is a file of the store whose name carries its number. -/
theorem listing_is_sound (isS3 : Bool) (hint : Option Nat) (dir root : List WFile) (s : Seg)
    (h : s ∈ listSegments isS3 hint dir root) :
    ∃ f ∈ dir ++ root, f.path = s.path ∧ f.data = s.data ∧ segmentSequence f.name = some s.seq := by
  rw [list_eq] at h
  have := dedup_sub _ _ h
  rw [List.mem_insertionSort, List.mem_filterMap] at this
  obtain ⟨f, hf, hfs⟩ := this
  refine ⟨f, ?_, ?_⟩
  · unfold found at hf; split at hf
    · exact hf
    · exact List.mem_append_left _ hf
  · unfold describe at hfs
    cases e : segmentSequence f.name with
    | none => rw [e] at hfs; cases hfs
    | some m => rw [e] at hfs; simp only [Option.some.injEq] at hfs; subst hfs; exact ⟨rfl, rfl, rfl⟩

/-- Files in the opposite order, a stranger and a fallback listing that repeats one of them. -/
def exDir : List WFile :=
  [⟨['b'], segName 10, [1]⟩, ⟨['x'], "state.json".toList, []⟩, ⟨['a'], segName 9, [2]⟩]

example : listSegments true (some 11) exDir (exDir ++ [⟨['c'], segName 11, [3]⟩]) =
    [⟨9, ['a'], [2]⟩, ⟨10, ['b'], [1]⟩, ⟨11, ['c'], [3]⟩] := by decide +kernel

example : Consistent (exDir ++ (exDir ++ [⟨['c'], segName 11, [3]⟩])) := by
  unfold Consistent
  have : ∀ f ∈ (exDir ++ (exDir ++ [⟨['c'], segName 11, [3]⟩])),
      ∀ g ∈ (exDir ++ (exDir ++ [⟨['c'], segName 11, [3]⟩])), f.path = g.path → f = g := by decide +kernel
  exact fun f g hf hg => this f hf g hg

example : OnePathPerNumber (exDir ++ (exDir ++ [⟨['c'], segName 11, [3]⟩])) := by
  have : ∀ f ∈ (exDir ++ (exDir ++ [⟨['c'], segName 11, [3]⟩])), ∀ g ∈ (exDir ++ (exDir ++ [⟨['c'], segName 11, [3]⟩])),
      (segmentSequence f.name).isSome = true → segmentSequence f.name = segmentSequence g.name → f.path = g.path := by
    decide +kernel
  exact fun f g n hf hg h1 h2 => this f hf g hg (by rw [h1]; rfl) (h1.trans h2.symm)

example : IsSegmentFile ⟨['a'], segName 9, [2]⟩ 9 := ⟨rfl, by norm_num⟩

/-- Pruning below a floor keeps exactly the segments at or above it. -/
theorem prune_keeps_at_or_above (floor : Nat) (segs : List Seg) (s : Seg) :
    s ∈ pruneBelow floor segs ↔ s ∈ segs ∧ floor ≤ s.seq := by
  unfold pruneBelow
  split
  · simp [*]
  · simp [List.mem_filter]

end Tonbo.Props.C35
