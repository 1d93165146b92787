import Verif.Model.WalWriter

/-!
# The queue of the log writer (src/wal/mod.rs, src/wal/writer.rs)

Writers hand commands to the writer task over a channel and wait for an answer each. The task takes several
commands at once when they are there, and another request that it meets on the way is done after them.

Simplified: a full channel makes the sender wait, which is not modelled: what is handed over is what the channel has
taken. Handing over while the task collects a batch is the same as handing over before. Whether the task was waiting
for a timer, which decides how many commands it may take at once, is left open. A storage call that fails does so
between frames; what a torn frame does to recovery is a matter of C28.
-/

namespace Tonbo.Model.WalQ
open Tonbo.Model.WalW

variable {F : Type}

/-- `WriterMsg` (writer.rs:48-75). -/
inductive Msg (F : Type) where
  | cmd (c : Cmd F)
  | rotate
  | snapshot
deriving Repr, DecidableEq

/-- What a caller gets back (wal/mod.rs:535-596, 724-729; writer.rs:249-300). `refused`: the channel was closed
(wal/mod.rs:553-556); `failed`: the task sent its error; `dropped`: the task ended without answering, and the
ticket makes an error of that (wal/mod.rs:727). -/
inductive Ans where
  | written (first last : Nat)
  | done
  | refused
  | failed
  | dropped
deriving Repr, DecidableEq

/-- `WalHandleInner` (wal/mod.rs:426-436) and the task. `queue` is what the channel holds, every request with the
number of its call; `over` is how the task ended; `taken`: somebody waits for it or has waited (`take_join`,
wal/mod.rs:466-468). `answers` are those given so far, oldest first. -/
structure Q (F : Type) where
  w : W F
  queue : List (Nat × Msg F)
  closed : Bool
  over : Option Bool
  taken : Bool
  calls : Nat
  answers : List (Nat × Ans)
deriving Repr, DecidableEq

/-- `spawn_writer` on an empty log (writer.rs:123-164). -/
def Q.new : Q F := ⟨W.new, [], false, none, false, 0, []⟩

/-- A request is handed over (`enqueue_command`, `rotate`, `snapshot`, wal/mod.rs:535-596). -/
def submit (q : Q F) (m : Msg F) : Q F :=
  if q.closed || q.over.isSome then
    { q with calls := q.calls + 1, answers := q.answers ++ [(q.calls, .refused)] }
  else { q with calls := q.calls + 1, queue := q.queue ++ [(q.calls, m)] }

/-- The loop that collects a batch (writer.rs:229-247, 338-357): `n` commands are there already. The commands
taken, the request that ended the loop, the rest of the channel. -/
def gather (limit : Nat) : Nat → List (Nat × Msg F) → List (Nat × Cmd F) × Option (Nat × Msg F) × List (Nat × Msg F)
  | _, [] => ([], none, [])
  | n, (i, .cmd c) :: q =>
    if limit ≤ n + 1 then ([(i, c)], none, q)
    else ((i, c) :: (gather limit (n + 1) q).1, (gather limit (n + 1) q).2)
  | _, (i, .rotate) :: q => ([], some (i, .rotate), q)
  | _, (i, .snapshot) :: q => ([], some (i, .snapshot), q)

/-- `let _ = tx.send(Ok(ack))` for the batch (writer.rs:255-257, 369-371). -/
def acks (ids : List Nat) (as : List (Nat × Nat)) : List (Nat × Ans) :=
  List.zipWith (fun i a => (i, Ans.written a.1 a.2)) ids as

/-- The task returns an error: the requests in the channel are dropped with it (writer.rs:262-268, 199-201). -/
def fail (q : Q F) (w : W F) (failed dropped : List Nat) : Q F :=
  { q with
    w := { w with dead := true }, queue := [], over := some false,
    answers := q.answers ++ failed.map (·, .failed) ++ dropped.map (·, .dropped) }

/-- A storage call fails while a batch is handled: `n` commands were handled and `k` frames of the next one
written (writer.rs:613-702). -/
def partly (cfg : Cfg) (size : F → Nat) (w : W F) (cs : List (Cmd F)) (n k : Nat) : W F :=
  match cs.drop n with
  | [] => (enqueueAll cfg size w (cs.take n)).1
  | c :: _ => writeFrames size (enqueueAll cfg size w (cs.take n)).1 (c.frames.take k)

/-- A request other than a command (writer.rs:270-325, 384-436). `fault`: a storage call fails. `rest` are those behind
it. -/
def other (cfg : Cfg) (q : Q F) (fault : Bool) (i : Nat) (rest : List (Nat × Msg F)) : Msg F → Q F
  | .cmd _ => q
  | .snapshot => { q with queue := rest, answers := q.answers ++ [(i, .done)] }
  | .rotate =>
    if fault || (rotationRequest cfg q.w).dead then
      fail q (if fault then q.w else rotationRequest cfg q.w) [i] (rest.map (·.1))
    else { q with w := rotationRequest cfg q.w, queue := rest, answers := q.answers ++ [(i, .done)] }

/-- The batch and, behind it, the request that ended its collection (writer.rs:249-300, 359-413). `fault`: a storage call
fails in that request. -/
def handled (cfg : Cfg) (size : F → Nat) (q : Q F) (fault : Bool) (cs : List (Nat × Cmd F))
    (deferred : Option (Nat × Msg F)) (rest : List (Nat × Msg F)) : Q F :=
  match enqueueAll cfg size q.w (cs.map (·.2)) with
  | (w, none) => fail q w (cs.map (·.1)) ((deferred.toList ++ rest).map (·.1))
  | (w, some as) =>
    match deferred with
    | none => { q with w := w, queue := rest, answers := q.answers ++ acks (cs.map (·.1)) as }
    | some (i, m) => other cfg { q with w := w, answers := q.answers ++ acks (cs.map (·.1)) as } fault i rest m

/-- The same with the place of a failing storage call (writer.rs:249-300, 359-413). -/
def batch (cfg : Cfg) (size : F → Nat) (q : Q F) (fault : Option (Nat × Nat)) (cs : List (Nat × Cmd F))
    (deferred : Option (Nat × Msg F)) (rest : List (Nat × Msg F)) : Q F :=
  match fault with
  | some (n, k) =>
    if n < cs.length then
      fail q (partly cfg size q.w (cs.map (·.2)) n k) (cs.map (·.1)) ((deferred.toList ++ rest).map (·.1))
    else handled cfg size q true cs deferred rest
  | none => handled cfg size q false cs deferred rest

/-- The channel is closed and empty (writer.rs:439-460, 896-908). -/
def finish (cfg : Cfg) (q : Q F) (fault : Bool) : Q F :=
  if fault then { q with w := { q.w with dead := true }, over := some false }
  else { q with w := finishSeg cfg q.w, over := some true }

/-- One turn of the loop (`run_writer_loop`, writer.rs:177-461). `limit` is 64 or the size of the channel. -/
def turn (cfg : Cfg) (size : F → Nat) (q : Q F) (limit : Nat) (fault : Option (Nat × Nat)) : Q F :=
  if q.over.isSome then q
  else
    match q.queue with
    | [] => if q.closed then finish cfg q fault.isSome else q
    | (i, .cmd c) :: rest =>
      batch cfg size q fault ((i, c) :: (gather limit 1 rest).1) (gather limit 1 rest).2.1 (gather limit 1 rest).2.2
    | (i, m) :: rest => other cfg q fault.isSome i rest m

/-- The timer of the task (writer.rs:185-203). -/
def timer (cfg : Cfg) (q : Q F) (rotateDue syncDue fault : Bool) : Q F :=
  if q.over.isSome then q
  else if fault || (tick cfg q.w rotateDue syncDue).dead then
    fail q (if fault then q.w else tick cfg q.w rotateDue syncDue) [] (q.queue.map (·.1))
  else { q with w := tick cfg q.w rotateDue syncDue }

/-- What happens: a call, the last handle is dropped or closes the channel, a turn of the task, its timer, bytes that move
on their own (see `WalW.Op`), and a call of `shutdown`. -/
inductive Op (F : Type) where
  | submit (m : Msg F)
  | close
  | turn (limit : Nat) (fault : Option (Nat × Nat))
  | timer (rotateDue syncDue fault : Bool)
  | drain
  | writeback
  | shutdown
deriving Repr, DecidableEq

/-- One step (writer.rs:177-461, wal/mod.rs:535-617). -/
def step (cfg : Cfg) (size : F → Nat) (q : Q F) : Op F → Q F
  | .submit m => submit q m
  | .close => { q with closed := true }
  | .turn l f => turn cfg size q l f
  | .timer r y f => timer cfg q r y f
  | .drain => { q with w := { q.w with active := q.w.active.flush } }
  | .writeback => { q with w := { q.w with active := q.w.active.fsync } }
  | .shutdown => { q with closed := true, taken := true }

/-- A run. -/
def run (cfg : Cfg) (size : F → Nat) : Q F → List (Op F) → Q F
  | q, [] => q
  | q, o :: os => run cfg size (step cfg size q o) os

/-- What a call of `shutdown` in this state returns once the task has ended, if it waits for that; `some` if it returns
at once (wal/mod.rs:596-617). -/
def shutdownAtOnce (q : Q F) : Option Bool := if q.taken then some true else none

end Tonbo.Model.WalQ
