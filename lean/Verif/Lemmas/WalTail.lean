import Verif.Lemmas.FrameWalk
import Verif.Spec.LogView

/-!
# The tail of the log
-/

namespace Tonbo.Lemmas.WalTail
open Tonbo.Model.Wal Tonbo.Spec Tonbo.Spec.Wal Tonbo.Lemmas.FrameWalk

/-- The transaction id a frame carries, as the tail scan sees it. -/
def idOf (f : RawFrame) : Option Nat :=
  if f.1 = .txnAppend ∨ f.1 = .txnCommit then some (fromLe (f.2.2.take 8)) else none

/-- Frames that carry an id have room for it. -/
def IdsFit (fs : List RawFrame) : Prop :=
  ∀ f ∈ fs, (f.1 = .txnAppend ∨ f.1 = .txnCommit) → 8 ≤ f.2.2.length

theorem bytes_length (t : FrameType) (p : Bytes) (seq : BitVec 64) :
    (Frame.bytes ⟨t, p⟩ seq).length = 24 + p.length := bytes_len t p seq

/-- What the tail scan remembers after the frames `fs`. -/
def metaOf (off : Nat) (fs : List RawFrame) : Option TailMeta :=
  fs.getLast?.map (fun f => ⟨f.2.1.toNat, idOf f, off + (logBytes fs).length⟩)

def offOf : Option TailMeta → Nat
  | some m => m.endOffset
  | none => 0

theorem visitAll_tail (tail : Option WErr) : ∀ (fs : List RawFrame) (st : Option TailMeta), IdsFit fs →
    visitAll tailVisit tail st fs = .ok ((metaOf (offOf st) fs).or st, tail)
  | [], st, _ => by simp [visitAll, metaOf]
  | (t, seq, p) :: fs, st, h => by
    have hv : tailVisit st (Header.new seq t p) p =
        .ok (some (some ⟨seq.toNat, idOf (t, seq, p), offOf st + (24 + p.length)⟩)) := by
      by_cases ht : t = .txnAppend ∨ t = .txnCommit
      · have := h (t, seq, p) (by simp) ht
        simp only at this
        cases st <;>
          simp [tailVisit, idOf, Header.new, headerSize, offOf, ht, Nat.not_lt.2 this, Nat.add_assoc]
      · cases st <;>
          simp [tailVisit, idOf, Header.new, headerSize, offOf, ht, Nat.add_assoc]
    simp only [visitAll, hv]
    rw [visitAll_tail tail fs _ (fun f hf => h f (List.mem_cons_of_mem _ hf))]
    cases hfs : fs with
    | nil =>
      simp [metaOf, offOf, logBytes, bytes_length]
    | cons g gs =>
      have hne : (g :: gs).getLast? ≠ none := by simp
      have h2 : ((t, seq, p) :: g :: gs).getLast? = (g :: gs).getLast? := by simp [List.getLast?_cons_cons]
      unfold metaOf
      rw [h2]
      cases hl : (g :: gs).getLast? with
      | none => exact absurd hl hne
      | some f =>
        simp only [Option.map_some, Option.some_or, offOf]
        congr 4
        simp only [logBytes, List.length_append, bytes_length]
        omega

theorem logBytes_prefix {a b : List RawFrame} (h : a <+: b) : logBytes a <+: logBytes b := by
  obtain ⟨c, rfl⟩ := h
  induction a with
  | nil => exact List.nil_prefix
  | cons f a ih =>
    obtain ⟨t, seq, p⟩ := f
    obtain ⟨d, hd⟩ := ih
    exact ⟨d, by simp [logBytes, ← hd, List.append_assoc]⟩

theorem within_take (fs : List RawFrame) (n : Nat) : (logBytes (framesWithin n fs)).length ≤ n := by
  induction fs generalizing n with
  | nil => simp [framesWithin, logBytes]
  | cons f fs ih =>
    obtain ⟨t, seq, p⟩ := f
    unfold framesWithin
    split
    · rename_i h
      have := ih (n - (24 + p.length))
      simp only [logBytes, List.length_append, bytes_length]
      omega
    · simp [logBytes]

theorem take_within (fs : List RawFrame) (n : Nat) :
    ((logBytes fs).take n).take (logBytes (framesWithin n fs)).length = logBytes (framesWithin n fs) := by
  rw [List.take_take, Nat.min_eq_left (within_take fs n)]
  obtain ⟨d, hd⟩ := logBytes_prefix (framesWithin_prefix n fs)
  rw [← hd, List.take_left]

theorem fit_within {fs : List RawFrame} (h : IdsFit fs) (n : Nat) : IdsFit (framesWithin n fs) :=
  fun f hf => h f ((framesWithin_prefix n fs).subset hf)

/-- The tail of a log whose last segment is cut anywhere. -/
theorem tail_of (segs : List SegLog) (s : SegLog) (cut : Nat) (hw : WellFormed s.frames) (hi : IdsFit s.frames) :
    tailMetadata (segs.map SegLog.file ++ [s.cut cut]) =
      .ok (some ⟨⟨s.num, s.path, logBytes (framesWithin cut s.frames)⟩, segs.map SegLog.file,
        (framesWithin cut s.frames).getLast?.map (·.2.1.toNat),
        (framesWithin cut s.frames).getLast?.bind idOf⟩) := by
  unfold tailMetadata
  rw [List.getLast?_append, List.getLast?_singleton, Option.some_or]
  simp only [SegLog.cut]
  have hscan : scanTail ((logBytes s.frames).take cut) = .ok (metaOf 0 (framesWithin cut s.frames)) := by
    unfold scanTail
    obtain ⟨tail, _, _, h3⟩ := walk_cut tailVisit s.frames cut
      (max s.frames.length ((logBytes s.frames).take cut).length) hw (Nat.le_max_left _ _)
    rw [walk_fuel tailVisit ((logBytes s.frames).take cut).length
      (max s.frames.length ((logBytes s.frames).take cut).length) none _ (le_refl _) (Nat.le_max_right _ _),
      h3 none, visitAll_tail tail _ none (fit_within hi cut)]
    simp [offOf]
  rw [hscan]
  simp only
  have hdrop : (segs.map SegLog.file ++ [(⟨s.num, s.path, (logBytes s.frames).take cut⟩ : Seg)]).dropLast =
      segs.map SegLog.file := by rw [List.dropLast_append_of_ne_nil (by simp)]; simp
  rw [hdrop]
  unfold metaOf
  cases hl : (framesWithin cut s.frames).getLast? with
  | none =>
    have : framesWithin cut s.frames = [] := List.getLast?_eq_none_iff.1 hl
    simp [this, logBytes]
  | some f =>
    simp only [Option.map_some, Option.bind_some, Nat.zero_add, take_within]

end Tonbo.Lemmas.WalTail
