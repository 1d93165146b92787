import Verif.Model.WalCut

/-!
# What the log writer says about its segments

The writer keeps, for every segment it knows of, the numbers of the first and the last frame. It answers
`WalHandle::snapshot` (wal/mod.rs:581-593) from them, and it writes them into the state file. The frames themselves, and what
a command, a rotation, a deadline or a restart does to them, are those of `WalWriter.lean`.
-/

namespace Tonbo.Model.WalSnap
open Tonbo.Model.WalW Tonbo.Model.WalCut

variable {F : Type}

/-- `WalSegmentBounds` (wal/state.rs:179-190), without the file id, which is made from the number
(wal/mod.rs:702-706). -/
structure B where
  seq : Nat
  first : Nat
  last : Nat
deriving Repr, DecidableEq

/-- `touch_active_segment` (writer.rs:920-930) with `extend_to` (wal/state.rs:204-206). -/
def touch (seg : Nat) (a : Option B) (n : Nat) : Option B :=
  match a with
  | none => some ⟨seg, n, n⟩
  | some b => some { b with last := n }

/-- The loop of `decode_frame_bounds` (wal/storage.rs:538-548). -/
def scanBounds (l : List (Nat × F)) : Option Nat × Option Nat :=
  l.foldl (fun p f => (if p.1.isNone then some f.1 else p.1, some f.1)) (none, none)

/-- `load_bounds_from_storage` (writer.rs:963-978) with `decode_frame_bounds` (wal/storage.rs:533-557) on the frames of a
file. A file that has bytes and no frame is an error in the code. -/
def fileBounds (seq : Nat) (l : List (Nat × F)) : Option B :=
  match scanBounds l with
  | (some a, some b) => some ⟨seq, a, b⟩
  | _ => none

/-- The parts of `WriterContext` (writer.rs:463-489) that describe segments: the bounds in `completed_segments`,
`active_segment`, and the same two lists in the state file (wal/state.rs:22-34). The state file is written at the end of
every step that changes it, so it is as in memory between steps; a rotation that ends with an error is not followed by a
write, but what is missing then is read from the segments at the next start. Without a state store `mem` and `memActive`
stand for nothing. -/
structure S (F : Type) where
  w : W F
  sealed : List B
  active : Option B
  mem : List B
  memActive : Option B
deriving Repr, DecidableEq

/-- A writer on an empty log (writer.rs:501-606). -/
def S.new : S F := ⟨W.new, [], none, [], none⟩

/-- `snapshot` (writer.rs:875-884), in the order of `WalSnapshot::iter` (wal/mod.rs:242-249). -/
def snapshot (s : S F) : List B := s.sealed ++ s.active.toList

/-- What `enforce_retention_limit` leaves of a list of bounds (writer.rs:980-1002): a sealed segment and its bounds are one
element of `completed_segments`, and `remove_sealed_segment_metadata` (writer.rs:947-961) takes the bounds out of the state
file. -/
def keepB (w : W F) (l : List B) : List B := l.filter (fun b => w.completed.any (fun c => c.1.seq == b.seq))

/-- `upsert_sealed_segment` (wal/state.rs:68-72). -/
def upsert (l : List B) (b : B) : List B := l.filter (fun x => x.seq != b.seq) ++ [b]

/-- The bounds with which a rotation seals the open segment (writer.rs:836-840). -/
def sealB (s : S F) : Option B :=
  match s.active with
  | some b => some b
  | none => fileBounds s.w.active.seq s.w.active.all

/-- `record_sealed_segment` (writer.rs:1027-1034) on the list of the state file. -/
def recordSealed (l : List B) : Option B → List B
  | some b => upsert l b
  | none => l

/-- `rotate_active_segment` (writer.rs:794-860) with `record_sealed_segment` (writer.rs:1027-1034). -/
def srotate (cfg : Cfg) (s : S F) : S F where
  w := rotate cfg s.w
  sealed := keepB (rotate cfg s.w) (s.sealed ++ (sealB s).toList)
  active := none
  mem := keepB (rotate cfg s.w) (recordSealed s.mem (sealB s))
  memActive := none

/-- `maybe_rotate` (writer.rs:777-792). -/
def smaybeRotate (cfg : Cfg) (s : S F) : S F :=
  if cfg.maxBytes = 0 ∨ s.w.bytes < cfg.maxBytes ∨ s.w.bytes = 0 then s else srotate cfg s

/-- The bounds after the frames of a command (writer.rs:629-633, 704-713, 920-930). -/
def touchAll (s : S F) (fs : List F) : Option B :=
  (number s.w.next fs).foldl (fun a f => touch s.w.active.seq a f.1) s.active

/-- The writes of `handle_enqueue` up to the rotation (writer.rs:624-655). -/
def swriteOut (cfg : Cfg) (size : F → Nat) (s : S F) (c : Cmd F) : S F :=
  smaybeRotate cfg
    { w := flushIf (cfg.flushZero || c.elapsed) (writeFrames size s.w c.frames)
      sealed := s.sealed
      active := touchAll s c.frames
      mem := s.mem
      memActive := touchAll s c.frames }

/-- `handle_enqueue` (writer.rs:613-680): the rest of it does not touch the bounds. -/
def senqueue (cfg : Cfg) (size : F → Nat) (s : S F) (c : Cmd F) : S F :=
  if c.frames = [] then { s with w := (enqueue cfg size s.w c).1 }
  else { swriteOut cfg size s c with w := (enqueue cfg size s.w c).1 }

/-- `handle_enqueue_batch` (writer.rs:682-702). -/
def senqueueAll (cfg : Cfg) (size : F → Nat) (s : S F) : List (Cmd F) → S F
  | [] => s
  | c :: cs => if (enqueue cfg size s.w c).2.isNone then senqueue cfg size s c else senqueueAll cfg size (senqueue cfg size s c) cs

/-- `handle_rotation_request` (writer.rs:862-873). -/
def srequest (cfg : Cfg) (s : S F) : S F := if s.w.bytes = 0 then s else srotate cfg s

/-- The bounds of a sealed segment at a start (writer.rs:1107-1113): from the state file if it has them, from the segment
otherwise. -/
def lookup (cfg : Cfg) (mem : List B) (g : Seg F) : Option B :=
  match (if cfg.stateFile then mem.find? (fun b => b.seq == g.seq) else none) with
  | some b => some b
  | none => fileBounds g.seq g.synced

/-- The sealed segments that a start finds, with their bounds (`rehydrate_segment_metadata`, writer.rs:1082-1124).
A file without frames is skipped; the code asks for its length. -/
def rehydrate (cfg : Cfg) (s : S F) : List B :=
  (((s.w.completed.map Prod.fst).filter (fun g => decide (s.w.pruned ≤ g.seq))).filter (fun g => !g.synced.isEmpty)).filterMap
    (lookup cfg s.mem)

/-- A power loss and the start after it (`WriterContext::new`, writer.rs:501-606): the bounds of the open segment are read
from the file, and the state file is brought in line (`align_state_with_segments`, writer.rs:1126-1152). -/
def sreopen (cfg : Cfg) (size : F → Nat) (s : S F) : S F where
  w := reopen cfg size s.w
  sealed := keepB (reopen cfg size s.w) (rehydrate cfg s)
  active := fileBounds s.w.active.seq s.w.active.synced
  mem := keepB (reopen cfg size s.w) (rehydrate cfg s)
  memActive := fileBounds s.w.active.seq s.w.active.synced

/-- A step of a living task (writer.rs:177-461). -/
def slive (cfg : Cfg) (size : F → Nat) (s : S F) : Op F → S F
  | .batch cs => senqueueAll cfg size s cs
  | .rotate => srequest cfg s
  | .tick r y => { (if r then srequest cfg s else s) with w := tick cfg s.w r y }
  | .powerLoss => sreopen cfg size s
  | op => { s with w := (live cfg size s.w op).1 }

/-- One step: a task that has ended does nothing until the restart. -/
def sstep (cfg : Cfg) (size : F → Nat) (s : S F) (op : Op F) : S F :=
  if s.w.dead then
    match op with
    | .powerLoss => sreopen cfg size s
    | _ => s
  else slive cfg size s op

/-- A history. -/
def srun (cfg : Cfg) (size : F → Nat) (s : S F) (ops : List (Op F)) : S F := ops.foldl (sstep cfg size) s

/-- The power fails inside `handle_enqueue`, after the rotation and before the state file is written (writer.rs:655-661;
`cutCommand` of `WalCut.lean`): the start meets the state file of the command before. -/
def scut (cfg : Cfg) (size : F → Nat) (s : S F) (c : Cmd F) (synced : Bool) : S F :=
  if c.frames = [] then s
  else
    { sreopen cfg size
        { swriteOut cfg size s c with
          w := { (if synced then syncNow (writeOut cfg size s.w c) else writeOut cfg size s.w c) with commit := s.w.commit }
          mem := s.mem } with
      w := cutCommand cfg size s.w c synced }

/-- One step, power losses inside commands included. -/
def scstep (cfg : Cfg) (size : F → Nat) (s : S F) : COp F → S F
  | .op o => sstep cfg size s o
  | .cut c synced => if s.w.dead then s else scut cfg size s c synced

/-- A history. -/
def scrun (cfg : Cfg) (size : F → Nat) (s : S F) (ops : List (COp F)) : S F := ops.foldl (scstep cfg size) s

end Tonbo.Model.WalSnap
