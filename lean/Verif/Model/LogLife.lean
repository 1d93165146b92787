import Verif.Model.WalQueue
import Verif.Model.WalStore

/-!
# The life of a log: sessions, crashes and the bytes between them

The writer task (`Model/WalQueue.lean`) on real frames, the bytes it leaves in its files, and the writer that is opened
on these files after a crash.

Simplified: the writer keeps no frames, it only appends to the last file; the model keeps every file as frames and
therefore reads the files back when it opens them. A sealed file that cannot be read makes the code fail
(`rehydrate_segment_metadata`, writer.rs:1082-1124) and counts as empty here; no crash leaves one, as long as segments are
synced before the next is opened.
-/

namespace Tonbo.Model.LogLife
open Tonbo.Model.Wal Tonbo.Model

variable {A : Type}

/-- `write_frame` returns the number of bytes written (writer.rs:704-713, frame.rs:122-128). -/
def frameSize (f : Frame) : Nat := headerSize + f.payload.length

/-- The bytes `write_frame` appends (writer.rs:704-713); the number is a `u64`. -/
def frameBytes (p : Nat × Frame) : Bytes := p.2.bytes (BitVec.ofNat 64 p.1)

/-- The bytes of frames in a row (writer.rs:704-713). -/
def bytesOf (l : List (Nat × Frame)) : Bytes := l.flatMap frameBytes

/-- The frames of a command (`encode_command`, called by `handle_enqueue`, writer.rs:624-627). A command that cannot be
encoded ends the task, as one without frames does. -/
def framesOfCmd (c : Ipc (Batch A)) (x : Wal.Cmd A) : List Frame :=
  match encodeCmd c x with
  | .ok fs => fs
  | .error _ => []

/-- A request with its frames (writer.rs:613-627). -/
def encodeMsg (c : Ipc (Batch A)) : WalQ.Msg (Wal.Cmd A) → WalQ.Msg Frame
  | .cmd x => .cmd ⟨x.frames.flatMap (framesOfCmd c), x.commit, x.elapsed⟩
  | .rotate => .rotate
  | .snapshot => .snapshot

/-- A step with the frames of its request (writer.rs:613-627). -/
def encodeOp (c : Ipc (Batch A)) : WalQ.Op (Wal.Cmd A) → WalQ.Op Frame
  | .submit m => .submit (encodeMsg c m)
  | .close => .close
  | .turn l f => .turn l f
  | .timer r y f => .timer r y f
  | .drain => .drain
  | .writeback => .writeback
  | .shutdown => .shutdown

/-- The frames in a file that was opened again, with their numbers. -/
def framesIn (data : Bytes) : List (Nat × Frame) :=
  match readLog data with
  | .ok (fs, _) => fs.map (fun f => (f.2.1.toNat, ⟨f.1, f.2.2⟩))
  | .error _ => []

/-- The open segment of a writer that starts (writer.rs:520-545): the last file, cut to its valid part by
`tail_metadata_with_hint`, or a new one. -/
def openActive (tail : Option Tail) : WalW.Seg Frame :=
  match tail with
  | some t => ⟨t.active.seq, framesIn t.active.data, [], []⟩
  | none => WalW.Seg.new 0

/-- The size of the open segment (writer.rs:520-545, storage.rs:295-313). -/
def openBytes (tail : Option Tail) : Nat :=
  match tail with
  | some t => t.active.data.length
  | none => 0

/-- The sealed segments of a writer that starts (`rehydrate_segment_metadata`, writer.rs:1082-1124). -/
def openCompleted (tail : Option Tail) : List (WalW.Seg Frame × Nat) :=
  match tail with
  | some t => t.completed.map (fun s => (⟨s.seq, framesIn s.data, [], []⟩, s.data.length))
  | none => []

/-- `WriterContext::new` (writer.rs:501-606) on the files that are there, in the order of their numbers; `st` is the
content of the state file. -/
def openWriter (cfg : WalW.Cfg) (st : Option WState) (files : List Seg) : Except WErr (WalW.W Frame) :=
  match tailMetadata files with
  | .error e => .error e
  | .ok tail =>
    .ok (WalW.retain cfg {
      active := openActive tail
      bytes := openBytes tail
      since := 0
      next := (resume tail st).nextFrame
      nextSeg := (resume tail st).nextSegment
      completed := openCompleted tail
      commit := st.bind (·.lastCommit)
      pruned := 0
      dead := false })

/-- The queue of a task on an opened log (`spawn_writer`, writer.rs:123-165). -/
def startQueue (w : WalW.W Frame) : WalQ.Q Frame := { WalQ.Q.new with w := w }

/-- A session: the settings, the state file, the calls and everything else until the crash. -/
structure Session (A : Type) where
  cfg : WalW.Cfg
  state : Option WState
  ops : List (WalQ.Op (Wal.Cmd A))

/-- The session until the crash (writer.rs:177-461). -/
def runSession (c : Ipc (Batch A)) (s : Session A) (w : WalW.W Frame) : WalQ.Q Frame :=
  WalQ.run s.cfg frameSize (startQueue w) (s.ops.map (encodeOp c))

end Tonbo.Model.LogLife
