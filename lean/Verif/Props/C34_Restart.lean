import Verif.Lemmas.WalTail
import Verif.Model.Recovery
import Verif.Props.C28_Replay

/-!
# C34: numbers are not reused after a restart

A log is a list of intact segments and a last, active one of which any number of bytes reached the disk.
`inLog` are its complete frames. A restart repairs the active segment and goes on with the numbers of
`resume`.
-/

namespace Tonbo.Props.C34
open Tonbo.Model Tonbo.Model.Wal Tonbo.Model.Mem Tonbo.Spec Tonbo.Spec.Wal Tonbo.Lemmas Tonbo.Lemmas.WalTail

/-- The complete frames of a log whose last segment is cut behind `cut` bytes. -/
def inLog (segs : List SegLog) (s : SegLog) (cut : Nat) : List RawFrame :=
  segs.flatMap SegLog.frames ++ framesWithin cut s.frames

/-- The transaction id in a frame, wherever it has one: in its first eight bytes. -/
def txnId (f : RawFrame) : Option Nat :=
  if f.1 = .sealMarker then none else some (fromLe (f.2.2.take 8))

/-- **C34, tail repair:** after the restart the active segment consists of exactly its complete frames,
for every cut, the other segments are untouched, and the numbers found are those of the last complete
frame. -/
theorem repair_keeps_the_complete_frames (segs : List SegLog) (s : SegLog) (cut : Nat)
    (hw : WellFormed s.frames) (hi : IdsFit s.frames) :
    ∃ t, tailMetadata (segs.map SegLog.file ++ [s.cut cut]) = .ok (some t) ∧
      t.active.data = logBytes (framesWithin cut s.frames) ∧ t.active.seq = s.num ∧
      t.active.path = s.path ∧ t.completed = segs.map SegLog.file ∧
      t.lastFrame = (framesWithin cut s.frames).getLast?.map (fun f => f.2.1.toNat) :=
  ⟨_, tail_of segs s cut hw hi, rfl, rfl, rfl, rfl, rfl⟩

/-- First and last frame number of a list of frames. -/
def endsOf (fs : List RawFrame) : Option (Nat × Nat) :=
  match fs.head?, fs.getLast? with
  | some a, some b => some (a.2.1.toNat, b.2.1.toNat)
  | _, _ => none

theorem visit_bounds (tail : Option WErr) : ∀ (fs : List RawFrame) (f l : Nat),
    FrameWalk.visitAll boundsVisit
      tail (some (f, l)) fs = .ok (some (f, (fs.getLast?.map (·.2.1.toNat)).getD l), tail)
  | [], f, l => rfl
  | (t, seq, p) :: fs, f, l => by
    simp only [FrameWalk.visitAll, boundsVisit]
    rw [visit_bounds tail fs]
    cases fs with
    | nil => rfl
    | cons g fs => simp [List.getLast?_cons_cons, List.getLast?_eq_some_getLast (List.cons_ne_nil g fs)]

/-- **C34, bounds of a segment:** reading a segment to find its first and last frame gives exactly these, for every
content; a segment with an incomplete frame at its end is refused. The references to segments in the manifest, by which
replay skips frames, are made from these bounds. -/
theorem segment_bounds (fs : List RawFrame) (cut : Nat) (hw : WellFormed fs) :
    ((logBytes fs).take cut = logBytes (framesWithin cut fs) →
      frameBounds ((logBytes fs).take cut) = .ok (endsOf (framesWithin cut fs))) ∧
    ((logBytes fs).take cut ≠ logBytes (framesWithin cut fs) → ∃ e, frameBounds ((logBytes fs).take cut) = .error e) := by
  obtain ⟨tail, h1, h2, h3⟩ := FrameWalk.walk_cut boundsVisit fs cut
    (max fs.length ((logBytes fs).take cut).length) hw (Nat.le_max_left _ _)
  have hfuel := FrameWalk.walk_fuel boundsVisit
    ((logBytes fs).take cut).length
    (max fs.length ((logBytes fs).take cut).length) none ((logBytes fs).take cut) (le_refl _) (Nat.le_max_right _ _)
  have hv := hfuel.trans (h3 none)
  have key : ∀ gs : List RawFrame, FrameWalk.visitAll boundsVisit
      tail none gs = .ok (endsOf gs, tail) := by
    intro gs
    cases gs with
    | nil => rfl
    | cons g gs =>
      obtain ⟨t, seq, p⟩ := g
      simp only [FrameWalk.visitAll, boundsVisit]
      rw [visit_bounds]
      cases gs with
      | nil => rfl
      | cons g gs => simp [endsOf, List.getLast?_cons_cons, List.getLast?_eq_some_getLast (List.cons_ne_nil g gs), Header.new]
  rw [key] at hv
  constructor
  · intro hc
    rw [h2.2 hc] at hv
    unfold frameBounds
    rw [hv]
  · intro hc
    cases tail with
    | none => exact absurd (h2.1 rfl) hc
    | some e =>
      refine ⟨e, ?_⟩
      unfold frameBounds
      rw [hv]

example : frameBounds (logBytes [(.txnBegin, 4, leBytes 8 1), (.txnCommit, 5, leBytes 8 1 ++ leBytes 8 6),
    (.txnAbort, 7, leBytes 8 2)]) = .ok (some (4, 7)) := by decide +kernel

/-- **C34, segments:** the segment opened next has a larger number than every listed one. -/
theorem segment_numbers_not_reused (segs : List SegLog) (s : SegLog) (cut : Nat) (st : Option WState)
    (hw : WellFormed s.frames) (hi : IdsFit s.frames)
    (hs : (segs ++ [s]).Pairwise (fun a b => a.num < b.num)) :
    ∃ t, tailMetadata (segs.map SegLog.file ++ [s.cut cut]) = .ok t ∧
      ∀ x ∈ segs ++ [s], x.num < (resume t st).nextSegment := by
  refine ⟨_, tail_of segs s cut hw hi, ?_⟩
  intro x hx
  have hle : x.num ≤ s.num := by
    rcases List.mem_append.1 hx with h | h
    · exact Nat.le_of_lt ((List.pairwise_append.1 hs).2.2 x h s (by simp))
    · simp only [List.mem_cons, List.not_mem_nil, or_false] at h; rw [h]
  have hge : s.num + 1 ≤ (resume (some ⟨⟨s.num, s.path, logBytes (framesWithin cut s.frames)⟩, segs.map SegLog.file,
        (framesWithin cut s.frames).getLast?.map (·.2.1.toNat),
        (framesWithin cut s.frames).getLast?.bind idOf⟩) st).nextSegment := by
    unfold resume
    cases st.bind (·.lastSegment) <;> simp
  omega

/-- **C34, frames (partial):** if the active segment has a complete frame, the frame written next has a
larger number than every frame in the log. Missing: an empty active segment, see
`frame_numbers_restart`. -/
theorem frame_numbers_not_reused_partial (segs : List SegLog) (s : SegLog) (cut : Nat) (st : Option WState)
    (hw : WellFormed s.frames) (hi : IdsFit s.frames)
    (hs : (inLog segs s cut).Pairwise (fun a b => a.2.1.toNat < b.2.1.toNat))
    (hne : framesWithin cut s.frames ≠ []) :
    ∃ t, tailMetadata (segs.map SegLog.file ++ [s.cut cut]) = .ok t ∧
      ∀ f ∈ inLog segs s cut, f.2.1.toNat < (resume t st).nextFrame := by
  refine ⟨_, tail_of segs s cut hw hi, ?_⟩
  obtain ⟨init, g, hg⟩ : ∃ init g, framesWithin cut s.frames = init ++ [g] :=
    ⟨_, _, (List.dropLast_append_getLast hne).symm⟩
  have hge : g.2.1.toNat + 1 ≤ (resume (some ⟨⟨s.num, s.path, logBytes (framesWithin cut s.frames)⟩,
      segs.map SegLog.file, (framesWithin cut s.frames).getLast?.map (·.2.1.toNat),
        (framesWithin cut s.frames).getLast?.bind idOf⟩) st).nextFrame := by
    rw [hg]
    unfold resume
    cases st.bind (·.lastFrame) <;> simp [succOr] <;> omega
  intro f hf
  unfold inLog at hs hf
  rw [hg, ← List.append_assoc] at hs hf
  rcases List.mem_append.1 hf with h | h
  · have := (List.pairwise_append.1 hs).2.2 f h g (by simp)
    omega
  · simp only [List.mem_cons, List.not_mem_nil, or_false] at h
    rw [h]; omega

/-- **C34, frames with a state file (partial):** if the state file knows a frame number at least as large as
all in the log, the next frame has a larger one, even when the active segment is empty. -/
theorem frame_numbers_with_state_partial (segs : List SegLog) (s : SegLog) (cut : Nat) (st : WState) (n : Nat)
    (hw : WellFormed s.frames) (hi : IdsFit s.frames) (hst : st.lastFrame = some n)
    (hn : ∀ f ∈ inLog segs s cut, f.2.1.toNat ≤ n) :
    ∃ t, tailMetadata (segs.map SegLog.file ++ [s.cut cut]) = .ok t ∧
      ∀ f ∈ inLog segs s cut, f.2.1.toNat < (resume t (some st)).nextFrame := by
  refine ⟨_, tail_of segs s cut hw hi, ?_⟩
  intro f hf
  have := hn f hf
  unfold resume
  simp only [Option.bind_some, hst]
  exact Nat.lt_of_lt_of_le (Nat.lt_succ_of_le this) (le_trans (Nat.le_max_right _ _) (Nat.le_max_left _ _))

/-- **C34, transaction ids (partial):** if the last complete frame is an append or a commit and no
frame has a larger id, the id given next is larger than every id in the log. Missing: other tails, see
`unfinished_ingest_is_merged` and `ids_restart_after_abort`. -/
theorem ids_not_reused_partial (segs : List SegLog) (s : SegLog) (cut : Nat) (st : Option WState) (g : RawFrame)
    (hw : WellFormed s.frames) (hi : IdsFit s.frames)
    (hlast : (framesWithin cut s.frames).getLast? = some g) (hk : g.1 = .txnAppend ∨ g.1 = .txnCommit)
    (hmax : ∀ f ∈ inLog segs s cut, ∀ i, txnId f = some i → i ≤ fromLe (g.2.2.take 8)) :
    ∃ t, tailMetadata (segs.map SegLog.file ++ [s.cut cut]) = .ok t ∧
      ∀ f ∈ inLog segs s cut, ∀ i, txnId f = some i → i < (resume t st).nextId := by
  refine ⟨_, tail_of segs s cut hw hi, ?_⟩
  intro f hf i hfi
  have := hmax f hf i hfi
  have e : (resume (some ⟨⟨s.num, s.path, logBytes (framesWithin cut s.frames)⟩,
      segs.map SegLog.file, (framesWithin cut s.frames).getLast?.map (·.2.1.toNat),
        (framesWithin cut s.frames).getLast?.bind idOf⟩) st).nextId = fromLe (g.2.2.take 8) + 1 := by
    rw [hlast]
    simp only [resume, Option.bind_some, idOf, if_pos hk, succOr]
  rw [e]
  omega

/-! ## Tails where the numbers are reused -/

section Witness
set_option synthInstance.maxSize 1000
set_option synthInstance.maxHeartbeats 200000

/-- A codec for one-row batches: a row `k` committed at `ts`. -/
def wIpc : Ipc (Batch Unit) where
  enc b := match b.cols with
    | [⟨_, _, .u64 [some k]⟩, ⟨_, _, .u64 [some ts]⟩] => [k.setWidth 8, ts.setWidth 8]
    | _ => [0]
  dec bs := match bs with
    | [k, ts] => some [⟨[⟨"k", false, .u64 [some (k.setWidth 64)]⟩, ⟨"_commit_ts", false, .u64 [some (ts.setWidth 64)]⟩], []⟩]
    | _ => none

/-- The append frame of an ingest of the row `k` (db/mod.rs:782-785). -/
def wAppend (seq id : Nat) (k ts : BitVec 64) : RawFrame :=
  (.txnAppend, BitVec.ofNat 64 seq, encodeAppend wIpc (BitVec.ofNat 64 id) false
    ⟨[⟨"k", false, .u64 [some k]⟩, ⟨"_commit_ts", false, .u64 [some ts]⟩], []⟩)

/-- The commit frame of an ingest (db/mod.rs:786-789). -/
def wCommit (seq id : Nat) (ts : BitVec 64) : RawFrame :=
  (.txnCommit, BitVec.ofNat 64 seq, leBytes 8 id ++ leBytes 8 ts.toNat)

/-- The log at the crash: two ingests run concurrently; both have appended, the first has committed. -/
def wLog : SegLog := ⟨0, [], [wAppend 1 4 10 5, wAppend 2 5 20 6, wCommit 3 4 5]⟩

/-- Restart on `log`, then one ingest of the row 30, with the numbers handed out by the restarted
database: transaction id, frame sequence and commit timestamp. -/
def wNext (log : SegLog) : Option SegLog :=
  match tailMetadata [log.file],
      recoverDb C28.exExt C28.exSch (fun _ => false) wIpc 8 none none [log.file] with
  | .ok t, some r =>
    let n := resume t none
    some { log with frames := log.frames ++
      [wAppend n.nextFrame n.nextId 30 (BitVec.ofNat 64 r.clock),
        wCommit (n.nextFrame + 1) n.nextId (BitVec.ofNat 64 r.clock)] }
  | _, _ => none

/-- What a database recovered from one segment shows at timestamp 100. -/
def wShows (log : SegLog) : Option (Option (List (Entry Nat Nat))) :=
  (recoverDb C28.exExt C28.exSch (fun _ => false) wIpc 8 none none [log.file]).map
    (fun r => Mem.scan r.mem.mem none 100)

/-- **C34 fails:** the log ends with the commit of transaction 4 while transaction 5 is unfinished. The
restart hands out id 5 again. Before, recovery shows only row 10. After one more ingest, of row 30,
the next recovery shows row 20 as well: the unfinished ingest was merged into the new one and
committed with it. -/
theorem unfinished_ingest_is_merged :
    wShows wLog = some (some [.row ⟨10, 5⟩ 10]) ∧
    (wNext wLog).map (fun l => l.frames.filterMap txnId) = some [4, 5, 4, 5, 5] ∧
    (wNext wLog).bind wShows = some (some [.row ⟨10, 5⟩ 10, .row ⟨20, 6⟩ 20, .row ⟨30, 6⟩ 30]) := by
  refine ⟨?_, ?_, ?_⟩ <;> decide +kernel

/-- **C34 fails:** every log that ends with an abort record (or a begin record, or a seal marker) makes
ids start over at 1. -/
theorem ids_restart_after_abort (segs : List SegLog) (s : SegLog) (cut : Nat) (st : Option WState) (g : RawFrame)
    (hw : WellFormed s.frames) (hi : IdsFit s.frames)
    (hlast : (framesWithin cut s.frames).getLast? = some g) (hk : g.1 ≠ .txnAppend) (hk' : g.1 ≠ .txnCommit) :
    ∃ t, tailMetadata (segs.map SegLog.file ++ [s.cut cut]) = .ok t ∧ (resume t st).nextId = 1 := by
  refine ⟨_, tail_of segs s cut hw hi, ?_⟩
  rw [hlast]
  simp [resume, idOf, hk, hk', succOr, initialFrameSeq]

/-- Such a log, in which id 1 is in use. -/
example : (tailMetadata [SegLog.file ⟨0, [], [wAppend 1 1 10 5, (.txnAbort, 2, leBytes 8 1)]⟩]).map
    (fun t => resume t none) = .ok ⟨1, 3, 0, 1⟩ := by decide +kernel

/-- **C34 fails:** without a state file, an empty active segment behind any number of segments makes
frame numbers and transaction ids start over at 1. -/
theorem frame_numbers_restart (segs : List SegLog) (n : Nat) (path : List Char) :
    ∃ t, tailMetadata (segs.map SegLog.file ++ [SegLog.file ⟨n, path, []⟩]) = .ok t ∧
      (resume t none).nextFrame = 1 ∧ (resume t none).nextId = 1 := by
  refine ⟨_, tail_of segs ⟨n, path, []⟩ 0 (by simp [WellFormed]) (by simp [IdsFit]), ?_, ?_⟩ <;>
    simp [resume, framesWithin, succOr, initialFrameSeq]

/-! A log that meets the hypotheses of the positive theorems. -/

/-- Two segments, the second one cut inside its last frame. -/
def wGood : List SegLog × SegLog :=
  ([⟨0, [], [wAppend 1 1 10 5, wCommit 2 1 5]⟩], ⟨1, [], [wAppend 3 2 20 6, wCommit 4 2 6, wAppend 5 3 20 7]⟩)

example : framesWithin 90 wGood.2.frames = [wAppend 3 2 20 6, wCommit 4 2 6] := by decide +kernel
example : (inLog wGood.1 wGood.2 90).Pairwise (fun a b => a.2.1.toNat < b.2.1.toNat) := by decide +kernel
example : (wGood.1 ++ [wGood.2]).Pairwise (fun a b => a.num < b.num) := by simp [wGood]
example : ∀ f ∈ inLog wGood.1 wGood.2 90, ∀ i, txnId f = some i → i ≤ fromLe ((wCommit 4 2 6).2.2.take 8) := by
  decide +kernel
example : WellFormed wGood.2.frames := by
  have h : ∀ f ∈ wGood.2.frames, f.2.1 ≠ 0 ∧ f.2.2.length < 4294967296 := by decide +kernel
  exact h
example : IdsFit wGood.2.frames := by
  have h : ∀ f ∈ wGood.2.frames, (f.1 = .txnAppend ∨ f.1 = .txnCommit) → 8 ≤ f.2.2.length := by decide +kernel
  exact h
example : (tailMetadata (wGood.1.map SegLog.file ++ [wGood.2.cut 90])).map (fun t => resume t none) =
    .ok ⟨3, 5, 1, 2⟩ := by decide +kernel

end Witness

end Tonbo.Props.C34
