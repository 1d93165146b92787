import Verif.Model.WalWriter

/-!
# The deadlines of the log writer (src/wal/writer.rs)

`Model/WalWriter.lean` leaves to its environment when the flush interval has elapsed and which deadlines
have passed. Here the task keeps the time itself: it remembers when it flushed last, when it has to fsync
and when it has to rotate, and sleeps until the earlier of the two deadlines.

Simplified: time does not pass while a message is handled; the sum of a time and a duration does not
overflow; the queue hands over as many commands at once as the environment likes (the code stops at 64, or
at the size of the queue).
-/

namespace Tonbo.Model.WalT
open Tonbo.Model.WalW

variable {F : Type}

/-- `WalSyncPolicy` (wal/mod.rs:55-64). -/
inductive TSync where
  | always
  | bytes (threshold : Nat)
  | time (interval : Nat)
  | disabled
deriving Repr, DecidableEq

/-- The policy without its interval, as in `Model/WalWriter.lean` (wal/mod.rs:55-64). -/
def TSync.plain : TSync → Sync
  | .always => .always
  | .bytes t => .bytes t
  | .time _ => .time
  | .disabled => .disabled

/-- The parts of `WalConfig` the task uses (wal/mod.rs:98-122). -/
structure TCfg where
  maxBytes : Nat
  maxAge : Option Nat
  flushEvery : Nat
  sync : TSync
  retention : Option Nat
  stateFile : Bool
deriving Repr, DecidableEq

/-- The configuration in the terms of `Model/WalWriter.lean` (wal/mod.rs:98-122). -/
def TCfg.plain (c : TCfg) : Cfg := ⟨c.maxBytes, c.flushEvery == 0, c.sync.plain, c.retention, c.stateFile⟩

/-- `WriterContext` with its clocks (writer.rs:463-489) and the armed sleep of the loop (writer.rs:208-210).
`flushedAt` is `last_flush`, `syncAt` is `next_sync_deadline`, `rotateAt` is `rotation_deadline`. -/
structure T (F : Type) where
  w : W F
  now : Nat
  flushedAt : Nat
  syncAt : Option Nat
  rotateAt : Option Nat
  timer : Option Nat
deriving Repr, DecidableEq

/-- `earliest_deadline` (writer.rs:1153-1160). -/
def earliest : Option Nat → Option Nat → Option Nat
  | some x, some y => some (min x y)
  | some x, none => some x
  | none, some y => some y
  | none, none => none

/-- `recompute_timer` (writer.rs:1064-1080). -/
def recompute (s : T F) : T F := { s with timer := earliest s.syncAt s.rotateAt }

/-- `TimerDirective` (writer.rs:1311-1316). -/
inductive Directive where
  | keep
  | cancel
  | schedule (interval : Nat)
deriving Repr, DecidableEq

/-- `apply_timer_directive` (writer.rs:1046-1062). -/
def direct (s : T F) : Directive → T F
  | .keep => recompute s
  | .cancel => recompute { s with syncAt := none }
  | .schedule i =>
    match s.syncAt with
    | some e => recompute { s with syncAt := some (min e (s.now + i)) }
    | none => recompute { s with syncAt := some (s.now + i) }

/-- `WriterContext::new` (writer.rs:558-606) and the start of the loop (writer.rs:208-210), on a log whose
writer state is `w`: a segment with bytes in it gets a full age again. -/
def T.start (c : TCfg) (w : W F) (now : Nat) : T F :=
  recompute ⟨w, now, now, none, if 0 < w.bytes then c.maxAge.map (now + ·) else none, none⟩

/-- A command of the queue (writer.rs:79-91). -/
structure Msg (F : Type) where
  frames : List F
  commit : Option Nat
deriving Repr, DecidableEq

/-- `flush_if_needed` asks the clock (writer.rs:715-719). -/
def flushDue (c : TCfg) (s : T F) : Bool := decide (c.flushEvery ≤ s.now - s.flushedAt)

/-- The question of `maybe_rotate` (writer.rs:777-789) for a segment of so many bytes. -/
def full (c : TCfg) (bytes : Nat) : Bool := decide (¬ (c.maxBytes = 0 ∨ bytes < c.maxBytes ∨ bytes = 0))

/-- The timer directive of `maybe_sync` (writer.rs:730-775) with so many bytes not synced. -/
def syncDirective (c : TCfg) (since : Nat) : Directive :=
  match c.sync with
  | .always => .cancel
  | .bytes t => if t ≤ since then .cancel else .keep
  | .time i => if 0 < since then .schedule i else .cancel
  | .disabled => .keep

/-- The rotation deadline after a command (writer.rs:638-650, 827-834): the first bytes of a segment start its
age, a rotation ends it. -/
def ageAfter (c : TCfg) (s : T F) (bytes : Nat) : Option Nat :=
  if full c bytes then none
  else if s.w.bytes = 0 ∧ 0 < bytes then
    match c.maxAge with
    | some a => some (s.now + a)
    | none => s.rotateAt
  else s.rotateAt

/-- `handle_enqueue` (writer.rs:613-680): the writer's work is `WalW.enqueue`; beside it the clocks. -/
def handle (c : TCfg) (size : F → Nat) (s : T F) (m : Msg F) : T F × Option (Nat × Nat) × Directive :=
  ({ s with
      w := (WalW.enqueue c.plain size s.w ⟨m.frames, m.commit, flushDue c s⟩).1
      flushedAt := if flushDue c s || full c (s.w.bytes + total size m.frames) then s.now else s.flushedAt
      rotateAt := ageAfter c s (s.w.bytes + total size m.frames) },
    (WalW.enqueue c.plain size s.w ⟨m.frames, m.commit, flushDue c s⟩).2,
    if full c (s.w.bytes + total size m.frames) then .cancel
    else syncDirective c (s.w.since + total size m.frames))

/-- `handle_enqueue_batch` (writer.rs:682-702). The directive is that of the last command. -/
def handleAll (c : TCfg) (size : F → Nat) (s : T F) (d : Directive) :
    List (Msg F) → T F × Option (List (Nat × Nat)) × Directive
  | [] => (s, some [], d)
  | m :: ms =>
    match handle c size s m with
    | (s', none, _) => (s', none, .cancel)
    | (s', some a, d') =>
      match handleAll c size s' d' ms with
      | (s'', as, d'') => (s'', as.map (a :: ·), d'')

/-- A batch taken from the queue (writer.rs:221-270). -/
def batch (c : TCfg) (size : F → Nat) (s : T F) (ms : List (Msg F)) : T F × List (Nat × Nat) :=
  (direct (handleAll c size s .keep ms).1 (handleAll c size s .keep ms).2.2,
    ((handleAll c size s .keep ms).2.1).getD [])

/-- `rotate_active_segment` and its clocks (writer.rs:794-834); the file after the rotation is empty. -/
def turnOver (c : TCfg) (s : T F) : T F :=
  { s with w := WalW.rotate c.plain s.w, flushedAt := s.now, rotateAt := none }

/-- A request to rotate (writer.rs:862-873, 300-318). -/
def rotateNow (c : TCfg) (s : T F) : T F :=
  if s.w.bytes = 0 then recompute s else direct (turnOver c s) .cancel

/-- A deadline has passed (writer.rs:1167, 1180). -/
def passed (now : Nat) : Option Nat → Bool
  | some d => decide (d ≤ now)
  | none => false

/-- The first half of `handle_timer_elapsed` (writer.rs:1167-1178). -/
def fireRotate (c : TCfg) (s : T F) : T F :=
  if passed s.now s.rotateAt then
    if s.w.bytes = 0 then { s with rotateAt := none } else turnOver c s
  else s

/-- The second half of `handle_timer_elapsed` (writer.rs:1180-1190); after an error of the first half the task
has ended. -/
def fireSync (s : T F) : T F :=
  if passed s.now s.syncAt ∧ s.w.dead = false then { s with w := timedSync true s.w, syncAt := none } else s

/-- `handle_timer_elapsed` (writer.rs:1162-1193) and `recompute_timer` (writer.rs:219). -/
def fire (c : TCfg) (s : T F) : T F := recompute (fireSync (fireRotate c s))

/-- The loop is scheduled (writer.rs:212-230): an elapsed sleep is looked at before the queue
(`select_biased!`). -/
def poll (c : TCfg) (s : T F) : T F := if passed s.now s.timer then fire c s else s

/-- What happens to the task (writer.rs:177-461). `wake` is the loop being scheduled without a message; nothing
makes it be scheduled in time. `restart` is the end of the process and a new one on what is left of the
log. -/
inductive TOp (F : Type) where
  | batch (ms : List (Msg F))
  | rotate
  | wake
  | pass (d : Nat)
  | restart
deriving Repr, DecidableEq

/-- The loop with a message (writer.rs:212-330): the elapsed sleep first. -/
def live (c : TCfg) (size : F → Nat) (s : T F) : TOp F → T F × List (Nat × Nat)
  | .batch ms => batch c size s ms
  | .rotate => (rotateNow c s, [])
  | _ => (s, [])

/-- One step; a task that has ended does nothing until the restart (writer.rs:262-268). -/
def step (c : TCfg) (size : F → Nat) (s : T F) : TOp F → T F × List (Nat × Nat)
  | .pass d => ({ s with now := s.now + d }, [])
  | .restart => (T.start c (WalW.reopen c.plain size s.w) s.now, [])
  | op =>
    if s.w.dead then (s, [])
    else if (poll c s).w.dead then (poll c s, [])
    else live c size (poll c s) op

/-- A history, with all acknowledgements, in order (writer.rs:177-461). -/
def run (c : TCfg) (size : F → Nat) (s : T F) : List (TOp F) → T F × List (Nat × Nat)
  | [] => (s, [])
  | op :: ops =>
    ((run c size (step c size s op).1 ops).1, (step c size s op).2 ++ (run c size (step c size s op).1 ops).2)

end Tonbo.Model.WalT
