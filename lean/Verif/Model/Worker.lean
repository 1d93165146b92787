import Verif.Model.Lsm
import Verif.Model.Guards
import Verif.Model.Policy

/-!
# The worker that plans, queues and runs compactions
(src/compaction/scheduler.rs:43-114, src/compaction/driver.rs:640-1262, src/compaction/handle.rs:46-53)

The worker and its jobs take atomic steps over the database of `Model/Lsm.lean`; flushes, strict commits
and triggers come in between in any order. Each entry to the manifest is one step: planning reads a
version, noting the head reads the manifest again. Left out: metrics, logging, lease identifiers (never
checked), the delay before a retry (`Model/Guards.lean`), shutting down.
-/

namespace Tonbo.Model.Worker
open Tonbo.Model Tonbo.Model.Manifest Tonbo.Model.Planner Tonbo.Model.Lsm
open Tonbo.Model.Guards (Control)

variable {K R : Type} [LinearOrder K]

/-- What `spawn_worker` is given (driver.rs:1156-1173), the table and its planner and executor. -/
structure Cfg (K R : Type) [LinearOrder K] where
  ext : R → Option K
  x : Exec K R
  sorter : Sorter K
  planner : PCfg
  table : Nat
  maxJobs : Nat
  capacity : Nat
  followUps : Nat
  cooldown : Nat

/-- `max_concurrent_jobs.max(1)` (driver.rs:1174, scheduler.rs:55). -/
def Cfg.budget (c : Cfg K R) : Nat := max c.maxJobs 1

/-- `queue_capacity.max(budget).max(1)` (driver.rs:1175). The channel gets one slot less and the one
sender has a slot of its own (scheduler.rs:47-51). -/
def Cfg.slots (c : Cfg K R) : Nat := max (max c.capacity c.budget) 1

/-- `ScheduledCompaction` (scheduler.rs:16-20): a task and the head noted after it was planned. -/
structure Job (K : Type) where
  task : PTask K
  head : Option Nat
deriving Repr, DecidableEq

/-- How a job ends: `Ok(None)`, an error, an outcome without edits, an outcome that is published, and
the error after the second refusal (driver.rs:672-874). -/
inductive Fate where
  | skipped | failed | unchanged | published | gaveUp
deriving Repr, DecidableEq

/-- How far a job is (driver.rs:1013-1130): before its `attempt`-th round, before the manifest call of
that round, after `run_scheduled_compaction` has returned an outcome, with a follow-up planned, at its
end. -/
inductive Stage (K : Type) where
  | popped (attempt : Nat)
  | merged (attempt : Nat) (p : Pending K)
  | ended
  | follow (t : PTask K)
  | over
deriving Repr, DecidableEq

/-- Where the loop of the worker is (driver.rs:1193-1252): waiting for a trigger, with `left` rounds of
`plan_and_enqueue` to go, with a task planned in such a round, running jobs. -/
inductive Phase (K : Type) where
  | waiting
  | planning (left : Nat)
  | planned (left : Nat) (t : PTask K)
  | draining (jobs : List (Job K × Stage K))
deriving Repr, DecidableEq

/-- The worker. `kicks` counts the triggers in its channel: each sender is a new clone with a slot of
its own (handle.rs:49, driver.rs:1011), so none is dropped. `applied` is `applied_manifest` of the last
call of `drain_and_execute`; `done` lists the jobs that ended (for the record only). -/
structure W (K R : Type) where
  db : Db K R
  queue : List (Job K)
  phase : Phase K
  control : Control
  kicks : Nat
  applied : Bool
  done : List (Job K × Fate)

/-- `plan_compaction_task`, `plan_compaction_task_from_level` (driver.rs:262-294): a plan for the latest
version. No version, an error and nothing to do look alike to the worker. -/
def planFrom (c : Cfg K R) (db : Db K R) (minLevel : Nat) : Option (PTask K) :=
  match snapshotLatest db.kv c.table with
  | .ok (_, some v) => planVersion c.sorter c.planner v minLevel
  | _ => none

/-- The head a job will carry (driver.rs:917-928, 1080-1092); `none` is an error. -/
def noteHead (c : Cfg K R) (db : Db K R) : Option (Option Nat) :=
  match snapshotLatest db.kv c.table with
  | .ok (h, _) => some h.last
  | .error _ => none

/-- `enqueue` (scheduler.rs:67-91): a full queue refuses. -/
def enqueue (c : Cfg K R) (q : List (Job K)) (j : Job K) : Option (List (Job K)) :=
  if q.length < c.slots then some (q ++ [j]) else none

/-- The start of a cycle (driver.rs:1206-1215). -/
def begin (c : Cfg K R) (w : W K R) : W K R :=
  { w with control := w.control.reset, phase := .planning c.budget }

/-- All jobs of the drain have returned (scheduler.rs:112). -/
def allOver (js : List (Job K × Stage K)) : Bool := js.all (fun r => decide (r.2 = .over))

/-- A step of the loop itself (driver.rs:876-1152, 1193-1252). -/
def turn (c : Cfg K R) (w : W K R) : W K R :=
  match w.phase with
  | .waiting => if w.kicks = 0 then w else begin c { w with kicks := w.kicks - 1 }
  | .planning 0 =>
    { w with
      phase := .draining ((w.queue.take c.budget).map (fun j => (j, .popped 1)))
      queue := w.queue.drop c.budget
      applied := false }
  | .planning (n + 1) =>
    match planFrom c w.db 0 with
    | none => { w with phase := .planning 0 }
    | some t => { w with phase := .planned n t }
  | .planned n t =>
    match noteHead c w.db with
    | none => { w with phase := .planning n }
    | some h =>
      match enqueue c w.queue ⟨t, h⟩ with
      | none => { w with phase := .planning 0 }
      | some q => { w with queue := q, phase := .planning n }
  | .draining js =>
    if allOver js then
      if w.applied ∧ planFrom c w.db 0 ≠ none then begin c w
      else { w with phase := .waiting }
    else w

/-- The job ends. -/
def W.note (w : W K R) (j : Job K) (f : Fate) : W K R := { w with done := w.done ++ [(j, f)] }

/-- A step of a running job (driver.rs:1013-1130). -/
def act (c : Cfg K R) (w : W K R) (j : Job K) (now skip : Nat) : Stage K → W K R × Stage K
  | .popped a =>
    let w' := { w with db := (Lsm.step c.ext c.x c.table w.db (.start j.task j.head skip)).2 }
    match (Lsm.start c.x c.table w.db j.task j.head skip).2 with
    | .skipped => (w'.note j .skipped, .over)
    | .failed _ => (w'.note j .failed, .over)
    | .done => (w'.note j .unchanged, .ended)
    | .ready p => (w', .merged a p)
  | .merged a p =>
    let i := w.db.jobs.idxOf p
    let w' := { w with db := (Lsm.step c.ext c.x c.table w.db (.finish i)).2 }
    match (Lsm.finish c.table { w.db with jobs := w.db.jobs.eraseIdx i } p).2 with
    | .ok _ => ({ w'.note j .published with applied := true }, .ended)
    | .error .casConflict => if 2 ≤ a then (w'.note j .gaveUp, .over) else (w', .popped (a + 1))
    | .error _ => (w'.note j .failed, .over)
  | .ended =>
    if j.task.source = 0 ∧ j.task.target = 1 then
      match w.control.acquire now with
      | (.allowed, k) =>
        match planFrom c w.db 1 with
        | some t => ({ w with control := k }, .follow t)
        | none => ({ w with control := k }, .over)
      | (_, k) => ({ w with control := k }, .over)
    else (w, .over)
  | .follow t =>
    match noteHead c w.db with
    | none => (w, .over)
    | some h =>
      match enqueue c w.queue ⟨t, h⟩ with
      | none => (w, .over)
      | some q => ({ w with queue := q, kicks := w.kicks + 1 }, .over)
  | .over => (w, .over)

/-- The running job `i` takes a step. -/
def jobStep (c : Cfg K R) (w : W K R) (i now skip : Nat) : W K R :=
  match w.phase with
  | .draining js =>
    match js[i]? with
    | none => w
    | some r =>
      let s := act c w r.1 now skip r.2
      { s.1 with phase := .draining (js.set i (r.1, s.2)) }
  | _ => w

/-- Storage fails under the merge of job `i`, which removes what it wrote (merge.rs:660-665). -/
def failStep (w : W K R) (i : Nat) : W K R :=
  match w.phase with
  | .draining js =>
    match js[i]? with
    | some (j, .popped _) => { w.note j .failed with phase := .draining (js.set i (j, .over)) }
    | _ => w
  | _ => w

/-- Steps of the database that are not the worker's. -/
def foreign : Lsm.Op K R → Bool
  | .start .. => false
  | .finish _ => false
  | .reopen _ => false
  | _ => true

/-- What happens. -/
inductive Op (K R : Type) where
  /-- a write, a step of a flush, or a strict commit -/
  | other (op : Lsm.Op K R)
  /-- `kick` (handle.rs:47-53), or the periodic tick while the worker waits (driver.rs:883-885) -/
  | trigger
  | turn
  | job (i now skip : Nat)
  | fail (i : Nat)
  /-- the process ends; the next one opens the table and kicks its new worker
  (db/builder.rs:1177, 1765) -/
  | restart (cap : Nat)

/-- One step. -/
def step (c : Cfg K R) (w : W K R) : Op K R → W K R
  | .other op => if foreign op then { w with db := (Lsm.step c.ext c.x c.table w.db op).2 } else w
  | .trigger => { w with kicks := w.kicks + 1 }
  | .turn => turn c w
  | .job i now skip => jobStep c w i now skip
  | .fail i => failStep w i
  | .restart cap =>
    { db := (Lsm.step c.ext c.x c.table w.db (.reopen cap)).2, queue := [], phase := .waiting,
      control := Control.new c.followUps c.cooldown, kicks := 1, applied := false, done := w.done }

/-- A history. -/
def run (c : Cfg K R) : W K R → List (Op K R) → W K R
  | w, [] => w
  | w, o :: os => run c (step c w o) os

/-- `l0_stats_from_manifest` (db/mod.rs:938-968): what a writer looks at before it waits. -/
def levelZero (c : Cfg K R) (db : Db K R) : Policy.L0Stats :=
  match snapshotLatest db.kv c.table with
  | .ok (_, some v) => Policy.statsOf (v.ssts[0]?.map (fun es => es.map (fun e => e.info.stats.map (·.bytes))))
  | _ => Policy.statsOf none

/-- A new table and its worker. -/
def W.new (c : Cfg K R) (cap schemaVersion : Nat) : W K R :=
  ⟨Db.new cap c.table schemaVersion, [], .waiting, Control.new c.followUps c.cooldown, 1, false, []⟩

end Tonbo.Model.Worker
