import Verif.Model.WalQueue

/-!
# What the log counts about itself (src/wal/metrics.rs, src/wal/writer.rs, src/wal/mod.rs)

`WalHandle::metrics` shows how deep the queue is, how many bytes were written and how often they were synced. The
channel and the task are those of `Model/WalQueue.lean`; here are the counters beside them.

A call that hands over a command adds one to the atomic `queue_depth`, then tries to send, and takes the one back if the
channel is closed. These are separate steps: callers stand at the door before they send and on the way out after they
were refused. The end of the task is two steps as well: the depth is set to zero, then it is read for the metric.

Simplified: callers that arrive while the task collects a batch are taken to arrive before or after. If a storage call
fails, the `fsync`s of the command or request that fails are left out of `fsyncs`, which counts what the disk has seen.
-/

namespace Tonbo.Model.WalS
open Tonbo.Model.WalW hiding Op run step
open Tonbo.Model.WalQ hiding Op run step

variable {F : Type}

/-- The first three of `WalMetrics` (metrics.rs:4-12); those of pruning are in `Model/WalPrune.lean`. `fsyncs` is not a
metric: it is the number of calls of `perform_sync` (writer.rs:1237-1280). -/
structure Tally where
  depth : Nat
  bytes : Nat
  syncs : Nat
  fsyncs : Nat
deriving Repr, DecidableEq

/-- `u64::saturating_add`. -/
def satAdd (a b : Nat) : Nat := min (a + b) (2 ^ 64 - 1)

/-- `record_bytes_written` (metrics.rs:28-31; writer.rs:655-657). -/
def Tally.wrote (t : Tally) (n : Nat) : Tally := if 0 < n then { t with bytes := satAdd t.bytes n } else t

/-- `if sync_performed { record_sync }` (metrics.rs:33-36; writer.rs:250-252, 915-918). -/
def Tally.synced (t : Tally) (performed : Bool) : Tally := if performed then { t with syncs := satAdd t.syncs 1 } else t

/-- The disk has seen so many more. -/
def Tally.disk (t : Tally) (n : Nat) : Tally := { t with fsyncs := t.fsyncs + n }

/-- `RotationOutcome::sync_performed` of a rotation that takes place (writer.rs:797-803). -/
def rotationSyncs (cfg : Cfg) : Bool := !decide (cfg.sync = .disabled)

/-- The question of `maybe_rotate` (writer.rs:777-789). -/
def rotationDue (cfg : Cfg) (s : W F) : Bool := !decide (cfg.maxBytes = 0 ∨ s.bytes < cfg.maxBytes ∨ s.bytes = 0)

/-- `SyncOutcome::performed` of `maybe_sync` (writer.rs:730-775). -/
def syncDue (cfg : Cfg) (s : W F) : Bool :=
  match cfg.sync with
  | .always => true
  | .bytes t => decide (t ≤ s.since)
  | .time => false
  | .disabled => false

/-- What `handle_enqueue` has written when it asks whether to rotate (writer.rs:624-652). -/
def beforeRotation (cfg : Cfg) (size : F → Nat) (s : W F) (c : Cmd F) : W F :=
  flushIf (cfg.flushZero || c.elapsed) (writeFrames size s c.frames)

/-- The rotation in `handle_enqueue` syncs (writer.rs:653). -/
def rotatesSyncing (cfg : Cfg) (size : F → Nat) (s : W F) (c : Cmd F) : Bool :=
  rotationDue cfg (beforeRotation cfg size s c) && rotationSyncs cfg

/-- `HandleOutcome::sync_performed` (writer.rs:669). -/
def cmdSynced (cfg : Cfg) (size : F → Nat) (s : W F) (c : Cmd F) : Bool :=
  rotatesSyncing cfg size s c || syncDue cfg (writeOut cfg size s c)

/-- The calls of `perform_sync` in `handle_enqueue` (writer.rs:653-654): the rotation has its own. A command without
frames and a failed rotation return before (writer.rs:624-627). -/
def cmdFsyncs (cfg : Cfg) (size : F → Nat) (s : W F) (c : Cmd F) : Nat :=
  if c.frames = [] then 0
  else (rotatesSyncing cfg size s c).toNat +
    (if (writeOut cfg size s c).dead then 0 else (syncDue cfg (writeOut cfg size s c)).toNat)

/-- `sync_performed |= outcome.sync_performed` in `handle_enqueue_batch` (writer.rs:691-693). -/
def batchSynced (cfg : Cfg) (size : F → Nat) (s : W F) : List (Cmd F) → Bool
  | [] => false
  | c :: cs => cmdSynced cfg size s c || batchSynced cfg size (enqueue cfg size s c).1 cs

/-- The calls of `perform_sync` in `handle_enqueue_batch` up to its first error (writer.rs:682-702). -/
def batchFsyncs (cfg : Cfg) (size : F → Nat) (s : W F) : List (Cmd F) → Nat
  | [] => 0
  | c :: cs =>
    match enqueue cfg size s c with
    | (s', some _) => cmdFsyncs cfg size s c + batchFsyncs cfg size s' cs
    | (_, none) => cmdFsyncs cfg size s c

/-- The bytes recorded in `handle_enqueue_batch` up to its first error, command by command (writer.rs:655-657). -/
def batchWrote (cfg : Cfg) (size : F → Nat) (t : Tally) (s : W F) : List (Cmd F) → Tally
  | [] => t
  | c :: cs =>
    match enqueue cfg size s c with
    | (s', some _) => batchWrote cfg size (t.wrote (total size c.frames)) s' cs
    | (_, none) => t

/-- A request to rotate does rotate and sync (writer.rs:862-873). -/
def requestSyncs (cfg : Cfg) (w : W F) : Bool := !decide (w.bytes = 0) && rotationSyncs cfg

/-- A request other than a command (writer.rs:272-300, 384-413, 414-436): after an error nothing is recorded. -/
def otherTally (cfg : Cfg) (t : Tally) (w : W F) (fault : Bool) : Msg F → Tally
  | .rotate =>
    if fault then t
    else if (rotationRequest cfg w).dead then t.disk (requestSyncs cfg w).toNat
    else (t.synced (requestSyncs cfg w)).disk (requestSyncs cfg w).toNat
  | _ => t

/-- A batch without a storage failure and the request behind it (writer.rs:249-300, 359-413). -/
def handledTally (cfg : Cfg) (size : F → Nat) (t : Tally) (w : W F) (fault : Bool) (cs : List (Cmd F))
    (deferred : Option (Nat × Msg F)) : Tally :=
  match enqueueAll cfg size w cs with
  | (_, none) => (batchWrote cfg size t w cs).disk (batchFsyncs cfg size w cs)
  | (w', some _) =>
    match deferred with
    | none => ((batchWrote cfg size t w cs).synced (batchSynced cfg size w cs)).disk (batchFsyncs cfg size w cs)
    | some (_, m) =>
      otherTally cfg (((batchWrote cfg size t w cs).synced (batchSynced cfg size w cs)).disk (batchFsyncs cfg size w cs)) w'
        fault m

/-- The same with the place of a failing storage call as in `WalQ.batch`. `late`: the call that fails is the one that
writes the state file, behind the counting of the bytes (writer.rs:655-661). -/
def batchTally (cfg : Cfg) (size : F → Nat) (t : Tally) (w : W F) (fault : Option (Nat × Nat)) (late : Bool)
    (cs : List (Cmd F)) (deferred : Option (Nat × Msg F)) : Tally :=
  match fault with
  | some (n, _) =>
    if n < cs.length then
      (batchWrote cfg size t w (cs.take (if late then n + 1 else n))).disk (batchFsyncs cfg size w (cs.take n))
    else handledTally cfg size t w true cs deferred
  | none => handledTally cfg size t w false cs deferred

/-- The end of the task up to the metric of the depth (writer.rs:444-448, 896-908). -/
def finishTally (cfg : Cfg) (t : Tally) (fault : Bool) : Tally :=
  if fault then t else (t.synced (rotationSyncs cfg)).disk (rotationSyncs cfg).toNat

/-- What `handle_timer_elapsed` syncs: for the rotation, and on its own (writer.rs:1162-1193). -/
def timerSyncs (cfg : Cfg) (w : W F) (rotateDue syncDue : Bool) : Bool × Bool :=
  (rotateDue && requestSyncs cfg w,
    syncDue && decide (0 < (if rotateDue then rotationRequest cfg w else w).since))

/-- The timer (writer.rs:212-226). -/
def timerTally (cfg : Cfg) (t : Tally) (w : W F) (rotateDue syncDue fault : Bool) : Tally :=
  if fault then t
  else if (tick cfg w rotateDue syncDue).dead then t.disk (timerSyncs cfg w rotateDue syncDue).1.toNat
  else (t.synced ((timerSyncs cfg w rotateDue syncDue).1 || (timerSyncs cfg w rotateDue syncDue).2)).disk
    ((timerSyncs cfg w rotateDue syncDue).1.toNat + (timerSyncs cfg w rotateDue syncDue).2.toNat)

/-- The log with its counters. `depth` is the atomic `queue_depth` (wal/mod.rs:432), which wraps around; `door` are the
callers that have added to it and not sent yet, `away` those that were refused and have not taken theirs back
(wal/mod.rs:543-556); `ending`: the depth was set to zero and not yet read (writer.rs:449-450). -/
structure S (F : Type) where
  q : Q F
  depth : BitVec 64
  door : Nat
  away : Nat
  ending : Bool
  t : Tally
deriving Repr, DecidableEq

/-- `spawn_writer` on an empty log with fresh metrics (writer.rs:123-164). -/
def S.new : S F := ⟨Q.new, 0, 0, 0, false, ⟨0, 0, 0, 0⟩⟩

/-- `fetch_sub(1)` and `update_queue_depth_metric` for the first command of a batch (writer.rs:229-230, 338-339,
932-936). -/
def S.first (s : S F) : S F := { s with depth := s.depth - 1, t := { s.t with depth := (s.depth - 1).toNat } }

/-- One turn of the loop with its counters (writer.rs:177-461). -/
def turn (cfg : Cfg) (size : F → Nat) (s : S F) (limit : Nat) (fault : Option (Nat × Nat)) (late : Bool) : S F :=
  if s.q.over.isSome then s
  else
    match s.q.queue with
    | [] =>
      if s.q.closed then
        { s with
          q := WalQ.turn cfg size s.q limit fault,
          t := finishTally cfg s.t fault.isSome,
          depth := if fault.isSome then s.depth else 0,
          ending := !fault.isSome }
      else s
    | (i, .cmd c) :: rest =>
      { s.first with
        q := WalQ.turn cfg size s.q limit fault,
        depth := s.first.depth - BitVec.ofNat 64 (gather limit 1 rest).1.length,
        t := batchTally cfg size s.first.t s.q.w fault late (((i, c) :: (gather limit 1 rest).1).map (·.2))
          (gather limit 1 rest).2.1 }
    | (_, m) :: _ => { s with q := WalQ.turn cfg size s.q limit fault, t := otherTally cfg s.t s.q.w fault.isSome m }

/-- The timer of the task (writer.rs:212-226). -/
def timer (cfg : Cfg) (s : S F) (rotateDue syncDue fault : Bool) : S F :=
  if s.q.over.isSome then s
  else { s with q := WalQ.timer cfg s.q rotateDue syncDue fault, t := timerTally cfg s.t s.q.w rotateDue syncDue fault }

/-- The channel takes nothing (wal/mod.rs:553). -/
def shut (q : Q F) : Bool := q.closed || q.over.isSome

/-- What happens. `arrive` adds to the depth, `send` hands the request over, `leave` is a refused caller taking its one
back (wal/mod.rs:543-556); a request that is no command does not touch the depth (wal/mod.rs:566-596). `report` is the
last line of the task (writer.rs:450). -/
inductive Op (F : Type) where
  | arrive
  | send (m : Msg F)
  | leave
  | close
  | turn (limit : Nat) (fault : Option (Nat × Nat)) (late : Bool)
  | timer (rotateDue syncDue fault : Bool)
  | drain
  | writeback
  | shutdown
  | report
deriving Repr, DecidableEq

/-- One step (wal/mod.rs:535-617, writer.rs:177-461). -/
def step (cfg : Cfg) (size : F → Nat) (s : S F) : Op F → S F
  | .arrive => { s with depth := s.depth + 1, door := s.door + 1 }
  | .send (.cmd c) =>
    { s with q := submit s.q (.cmd c), door := s.door - 1, away := if shut s.q then s.away + 1 else s.away }
  | .send m => { s with q := submit s.q m }
  | .leave => { s with depth := s.depth - 1, away := s.away - 1 }
  | .close => { s with q := { s.q with closed := true } }
  | .turn l f late => turn cfg size s l f late
  | .timer r y f => timer cfg s r y f
  | .drain => { s with q := { s.q with w := { s.q.w with active := s.q.w.active.flush } } }
  | .writeback => { s with q := { s.q with w := { s.q.w with active := s.q.w.active.fsync } } }
  | .shutdown => { s with q := { s.q with closed := true, taken := true } }
  | .report => if s.ending then { s with t := { s.t with depth := s.depth.toNat }, ending := false } else s

/-- A run. -/
def run (cfg : Cfg) (size : F → Nat) : S F → List (Op F) → S F
  | s, [] => s
  | s, o :: os => run cfg size (step cfg size s o) os

end Tonbo.Model.WalS
