/-!
# The task that writes the log (src/wal/writer.rs)

The writer task owns one open segment. A frame passes through three places: the buffer of the open
file, the operating system, and the disk. `write_all` leaves it in the first (fusio's local file is a
`tokio::fs::File`, whose writes return before the bytes have been handed over), `flush` moves it to
the second and `fsync` of the path moves what is in the second to the third. A segment is therefore
three lists of numbered frames. The other storage backends have no `fsync` at all
(writer.rs:1278, `Memory | S3 => Ok(())`) and are not modelled.

Simplified: calls to the storage succeed, except removing a file that is not there; byte counts do not
saturate; clocks are replaced by a flag on
every command (has the flush interval elapsed?) and on every timer tick (which deadlines passed?), so
the theorems hold for every behaviour of time.
-/

namespace Tonbo.Model.WalW

/-- `WalSyncPolicy` (wal/mod.rs:55-64). The interval of the timed policy is left to the ticks. -/
inductive Sync where
  | always
  | bytes (threshold : Nat)
  | time
  | disabled
deriving Repr, DecidableEq

/-- The parts of `WalConfig` the writer uses (wal/mod.rs:98-122). `flushZero` is
`flush_interval.is_zero()`; `stateFile` says that a state store is configured. -/
structure Cfg where
  maxBytes : Nat
  flushZero : Bool
  sync : Sync
  retention : Option Nat
  stateFile : Bool
deriving Repr, DecidableEq

variable {F : Type}

/-- A segment file: frames on the disk, frames only in the operating system, frames only in the buffer
of the process (writer.rs:700-728, 1237-1280). -/
structure Seg (F : Type) where
  seq : Nat
  synced : List (Nat × F)
  flushed : List (Nat × F)
  buffered : List (Nat × F)
deriving Repr, DecidableEq

/-- `open_segment` of a number that was never used (storage.rs:46-64). -/
def Seg.new (seq : Nat) : Seg F := ⟨seq, [], [], []⟩

/-- `file.flush()` (writer.rs:720-725). -/
def Seg.flush (g : Seg F) : Seg F := ⟨g.seq, g.synced, g.flushed ++ g.buffered, []⟩

/-- `perform_sync` (writer.rs:1237-1280): the path is opened anew and synced, which does not reach the
buffer of the first handle. -/
def Seg.fsync (g : Seg F) : Seg F := ⟨g.seq, g.synced ++ g.flushed, [], g.buffered⟩

/-- All frames written to a segment. -/
def Seg.all (g : Seg F) : List (Nat × F) := g.synced ++ g.flushed ++ g.buffered

/-- What a power loss leaves of a segment in the worst case. -/
def Seg.lose (g : Seg F) : Seg F := ⟨g.seq, g.synced, [], []⟩

/-- `WriterContext` (writer.rs:463-489). `completed` are the sealed segments the writer knows of, with the
sizes their descriptors record, oldest first; `commit` is `last_commit_ts` of the state file
(state.rs:46-48). The files of segments below `pruned` were deleted by the database
(storage.rs:154-168, called from wal/manifest_ext.rs:95-110), which does not tell the writer. `dead`: the
task ended with an error (writer.rs:262-268). -/
structure W (F : Type) where
  active : Seg F
  bytes : Nat
  since : Nat
  next : Nat
  nextSeg : Nat
  completed : List (Seg F × Nat)
  commit : Option Nat
  pruned : Nat
  dead : Bool
deriving Repr, DecidableEq

/-- A writer on an empty log (writer.rs:501-606 with no tail; wal/mod.rs:946-999): segment 0 is open, the
first frame will be number 1 (frame.rs `INITIAL_FRAME_SEQ`). -/
def W.new : W F := ⟨Seg.new 0, 0, 0, 1, 1, [], none, 0, false⟩

/-- A command of the queue: its encoded frames, the commit timestamp if it is a commit
(writer.rs:619-622), and whether the flush interval has elapsed when it is handled. -/
structure Cmd (F : Type) where
  frames : List F
  commit : Option Nat
  elapsed : Bool
deriving Repr, DecidableEq

/-- Frames with their sequence numbers (`write_frame`, writer.rs:704-713). -/
def number : Nat → List F → List (Nat × F)
  | _, [] => []
  | n, f :: fs => (n, f) :: number (n + 1) fs

/-- `bytes_written` (writer.rs:629-633). -/
def total (size : F → Nat) (fs : List F) : Nat := (fs.map size).sum

/-- The `write_frame` loop of `handle_enqueue` and the byte counts (writer.rs:629-636, 704-713). -/
def writeFrames (size : F → Nat) (s : W F) (fs : List F) : W F :=
  { s with
    active := { s.active with buffered := s.active.buffered ++ number s.next fs },
    bytes := s.bytes + total size fs,
    since := s.since + total size fs,
    next := s.next + fs.length }

/-- `flush_if_needed` (writer.rs:715-728). -/
def flushIf (due : Bool) (s : W F) : W F := if due then { s with active := s.active.flush } else s

/-- `sync_all` or `sync_data` of the open segment (writer.rs:886-894, 733-735). -/
def syncNow (s : W F) : W F := { s with active := s.active.fsync, since := 0 }

/-- `total_retained_bytes` (writer.rs:938-945) of the sealed segments. -/
def sealedBytes (cs : List (Seg F × Nat)) : Nat := (cs.map Prod.snd).sum

/-- The loop of `enforce_retention_limit` (writer.rs:980-1002): sealed segments are removed, oldest
first, while the log is larger than the limit. Nothing asks whether their rows are in an SSTable.
Removing a file that is not there is an error (storage.rs:67-71). -/
def evict (limit active pruned : Nat) : List (Seg F × Nat) → List (Seg F × Nat) × Bool
  | [] => ([], true)
  | c :: cs =>
    if limit < sealedBytes (c :: cs) + active then
      if c.1.seq < pruned then (cs, false) else evict limit active pruned cs
    else (c :: cs, true)

/-- `enforce_retention_limit` (writer.rs:980-1002). -/
def retain (cfg : Cfg) (s : W F) : W F :=
  match cfg.retention with
  | none => s
  | some limit =>
    { s with
      completed := (evict limit s.bytes s.pruned s.completed).1,
      dead := !(evict limit s.bytes s.pruned s.completed).2 }

/-- The first half of `rotate_active_segment` (writer.rs:794-803): flush, and sync unless disabled. -/
def finishSeg (cfg : Cfg) (s : W F) : W F :=
  if cfg.sync = .disabled then flushIf true s else syncNow (flushIf true s)

/-- The second half (writer.rs:805-860): the next segment becomes the open one. -/
def openNext (s : W F) : W F :=
  { s with
    active := Seg.new s.nextSeg, bytes := 0, nextSeg := s.nextSeg + 1,
    completed := s.completed ++ [(s.active, s.bytes)] }

/-- `rotate_active_segment` (writer.rs:794-860). -/
def rotate (cfg : Cfg) (s : W F) : W F := retain cfg (openNext (finishSeg cfg s))

/-- `maybe_rotate` (writer.rs:777-792). -/
def maybeRotate (cfg : Cfg) (s : W F) : W F :=
  if cfg.maxBytes = 0 ∨ s.bytes < cfg.maxBytes ∨ s.bytes = 0 then s else rotate cfg s

/-- `maybe_sync` (writer.rs:730-775). -/
def maybeSync (cfg : Cfg) (s : W F) : W F :=
  match cfg.sync with
  | .always => syncNow s
  | .bytes t => if t ≤ s.since then syncNow s else s
  | .time => s
  | .disabled => s

/-- `record_frame_progress` (writer.rs:1016-1025) with `set_commit_ts` (state.rs:46-48): the timestamp of
the last commit written, whatever it was before. -/
def recordCommit (c : Option Nat) (s : W F) : W F := if c.isSome then { s with commit := c } else s

/-- The writes of `handle_enqueue` up to the rotation (writer.rs:624-655). -/
def writeOut (cfg : Cfg) (size : F → Nat) (s : W F) (c : Cmd F) : W F :=
  maybeRotate cfg (flushIf (cfg.flushZero || c.elapsed) (writeFrames size s c.frames))

/-- `handle_enqueue` (writer.rs:613-680). The acknowledgement carries the numbers of the first and last
frame; `none` is an error: a command without frames, or a failed rotation. -/
def enqueue (cfg : Cfg) (size : F → Nat) (s : W F) (c : Cmd F) : W F × Option (Nat × Nat) :=
  if c.frames = [] then ({ s with dead := true }, none)
  else if (writeOut cfg size s c).dead then (writeOut cfg size s c, none)
  else
    (recordCommit c.commit (maybeSync cfg (writeOut cfg size s c)),
      some (s.next, s.next + c.frames.length - 1))

/-- `handle_enqueue_batch` (writer.rs:682-702): on an error no command of the batch is acknowledged
(writer.rs:262-268). -/
def enqueueAll (cfg : Cfg) (size : F → Nat) (s : W F) : List (Cmd F) → W F × Option (List (Nat × Nat))
  | [] => (s, some [])
  | c :: cs =>
    match enqueue cfg size s c with
    | (s', none) => (s', none)
    | (s', some a) =>
      match enqueueAll cfg size s' cs with
      | (s'', as) => (s'', as.map (a :: ·))

/-- `handle_rotation_request` (writer.rs:862-873). -/
def rotationRequest (cfg : Cfg) (s : W F) : W F := if s.bytes = 0 then s else rotate cfg s

/-- The second half of `handle_timer_elapsed` (writer.rs:1180-1190). -/
def timedSync (due : Bool) (s : W F) : W F := if due ∧ 0 < s.since ∧ s.dead = false then syncNow s else s

/-- `handle_timer_elapsed` (writer.rs:1162-1193); the flags say which deadline has passed. -/
def tick (cfg : Cfg) (s : W F) (rotateDue syncDue : Bool) : W F :=
  timedSync syncDue (if rotateDue then rotationRequest cfg s else s)

/-- The segments that exist, oldest first. -/
def segments (s : W F) : List (Seg F) :=
  (s.completed.map Prod.fst).filter (fun g => decide (s.pruned ≤ g.seq)) ++ [s.active]

/-- The number after the last frame of the last segment (storage.rs tail_metadata, writer.rs:520-531): a
segment without frames restarts the count (`INITIAL_FRAME_SEQ`). -/
def tailNext (g : Seg F) : Nat := (g.synced.getLast?.map (fun f => f.1 + 1)).getD 1

/-- The power fails and `WriterContext::new` (writer.rs:501-606) opens what is left. The state file is
taken to be up to date and on the disk. Simplified: the code writes it at the end of a command, after the rotation
(writer.rs:655-661), so after a power loss inside a command, or after a rotation that ended with an
error, it is the one of the command before; `WalCut.lean` has that case. A sealed segment that lost all its
frames stays in the list here; the code skips empty files (writer.rs:1104-1106). -/
def reopen (cfg : Cfg) (size : F → Nat) (s : W F) : W F :=
  retain cfg {
    active := s.active.lose,
    bytes := total size (s.active.synced.map Prod.snd),
    since := 0,
    next := if cfg.stateFile then max (tailNext s.active) s.next else tailNext s.active,
    nextSeg := s.active.seq + 1,
    completed := ((s.completed.map Prod.fst).filter (fun g => decide (s.pruned ≤ g.seq))).map
      (fun g => (g.lose, total size (g.synced.map Prod.snd))),
    commit := if cfg.stateFile then s.commit else none,
    pruned := s.pruned,
    dead := false }

/-- What makes the task act (writer.rs:177-461). `drain` is the runtime moving buffered bytes on its own and
`writeback` the operating system writing to the disk on its own: neither is asked for by the code.
`prune` is the database deleting the files below a segment (storage.rs:154-168); `powerLoss` is a crash
followed by a restart. -/
inductive Op (F : Type) where
  | batch (cs : List (Cmd F))
  | rotate
  | tick (rotateDue syncDue : Bool)
  | shutdown
  | drain
  | writeback
  | prune (below : Nat)
  | powerLoss
deriving Repr, DecidableEq

/-- A step of a living task (writer.rs:177-461; shutdown 896-908), with the acknowledgements sent. -/
def live (cfg : Cfg) (size : F → Nat) (s : W F) : Op F → W F × List (Nat × Nat)
  | .batch cs => ((enqueueAll cfg size s cs).1, ((enqueueAll cfg size s cs).2).getD [])
  | .rotate => (rotationRequest cfg s, [])
  | .tick r y => (tick cfg s r y, [])
  | .shutdown => (finishSeg cfg s, [])
  | .drain => ({ s with active := s.active.flush }, [])
  | .writeback => ({ s with active := s.active.fsync }, [])
  | .prune n => ({ s with pruned := max s.pruned (min n s.active.seq) }, [])
  | .powerLoss => (reopen cfg size s, [])

/-- One step: a task that has ended does nothing until the restart. -/
def step (cfg : Cfg) (size : F → Nat) (s : W F) (op : Op F) : W F × List (Nat × Nat) :=
  if s.dead then
    match op with
    | .powerLoss => (reopen cfg size s, [])
    | _ => (s, [])
  else live cfg size s op

/-- A run of the task with all acknowledgements, in order. -/
def run (cfg : Cfg) (size : F → Nat) (s : W F) : List (Op F) → W F × List (Nat × Nat)
  | [] => (s, [])
  | op :: ops =>
    ((run cfg size (step cfg size s op).1 ops).1,
      (step cfg size s op).2 ++ (run cfg size (step cfg size s op).1 ops).2)

/-- The frames that are left when everything not fsynced is lost. -/
def afterPowerLoss (s : W F) : List (Nat × F) := (segments s).flatMap (·.synced)

/-- The frames that are left when the process dies and the operating system lives on. -/
def afterKill (s : W F) : List (Nat × F) := (segments s).flatMap (fun g => g.synced ++ g.flushed)

/-- All frames in segments that still exist. -/
def written (s : W F) : List (Nat × F) := (segments s).flatMap (·.all)

end Tonbo.Model.WalW
