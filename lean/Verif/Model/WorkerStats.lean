import Verif.Model.Worker

/-!
# The counters of the compactions (src/compaction/metrics.rs)

The worker of `Model/Worker.lean` together with what it records (driver.rs:420-430, 640-1252). Left out: the
counters for a closed queue, since the queue is never closed while the worker runs (scheduler.rs:67-91), those of the
back pressure, which writers record (`Model/Throttle.lean`), and the log lines. All counters are of 64 bits and stay at the
largest value.
-/

namespace Tonbo.Model.WStats
open Tonbo.Model Tonbo.Model.Manifest Tonbo.Model.Planner Tonbo.Model.Outcome Tonbo.Model.Lsm Tonbo.Model.Worker

variable {K R : Type} [LinearOrder K]

/-- The largest value of a counter. -/
def top : Nat := 2 ^ 64 - 1

/-- `saturating_add`, `add_saturating` (metrics.rs:610-614). -/
def satAdd (a b : Nat) : Nat := min (a + b) top

/-- `CompactionIoStats` (metrics.rs:14-25). -/
structure Io where
  bytes : Nat
  rows : Nat
  tombstones : Nat
  complete : Bool
deriving Repr, DecidableEq

/-- `CompactionIoStats::default` (metrics.rs:27-36). -/
def Io.zero : Io := ⟨0, 0, 0, true⟩

/-- One table (metrics.rs:47-54). -/
def Io.add (s : Io) (d : Desc K) : Io :=
  match d.stats with
  | none => { s with complete := false }
  | some t => ⟨satAdd s.bytes t.bytes, satAdd s.rows t.rows, satAdd s.tombstones t.tombstones, s.complete⟩

/-- `from_descriptors` (metrics.rs:40-56). -/
def Io.of (ds : List (Desc K)) : Io := ds.foldl Io.add Io.zero

/-- `CompactionJobSnapshot` (metrics.rs:80-101). -/
structure Summary where
  source : Nat
  target : Nat
  inputs : Nat
  outputs : Nat
  input : Io
  output : Io
  ms : Nat
  retries : Nat
  aborted : Bool
deriving Repr, DecidableEq

/-- `CompactionMetrics` (metrics.rs:249-292), as a snapshot shows it (356-408). -/
structure Counters where
  jobs : Nat := 0
  failures : Nat := 0
  retries : Nat := 0
  aborts : Nat := 0
  plannerFull : Nat := 0
  cascadeFull : Nat := 0
  scheduled : Nat := 0
  blockedCooldown : Nat := 0
  blockedBudget : Nat := 0
  kick : Nat := 0
  periodic : Nat := 0
  bytesIn : Nat := 0
  bytesOut : Nat := 0
  rowsIn : Nat := 0
  rowsOut : Nat := 0
  tombstonesIn : Nat := 0
  tombstonesOut : Nat := 0
  ms : Nat := 0
  last : Option Summary := none
deriving Repr, DecidableEq

/-- `record_trigger` (metrics.rs:411-427). -/
def Counters.trigger (k : Counters) (periodic : Bool) : Counters :=
  if periodic then { k with periodic := satAdd k.periodic 1 } else { k with kick := satAdd k.kick 1 }

/-- `record_job_success` (metrics.rs:519-537): the sums leave out a side some of whose tables have no statistics. -/
def Counters.success (k : Counters) (s : Summary) : Counters :=
  { k with
    jobs := satAdd k.jobs 1
    retries := satAdd k.retries s.retries
    ms := satAdd k.ms s.ms
    bytesIn := if s.input.complete then satAdd k.bytesIn s.input.bytes else k.bytesIn
    rowsIn := if s.input.complete then satAdd k.rowsIn s.input.rows else k.rowsIn
    tombstonesIn := if s.input.complete then satAdd k.tombstonesIn s.input.tombstones else k.tombstonesIn
    bytesOut := if s.output.complete then satAdd k.bytesOut s.output.bytes else k.bytesOut
    rowsOut := if s.output.complete then satAdd k.rowsOut s.output.rows else k.rowsOut
    tombstonesOut := if s.output.complete then satAdd k.tombstonesOut s.output.tombstones else k.tombstonesOut
    last := some s }

/-- `record_job_abort` (metrics.rs:540-550). -/
def Counters.abort (k : Counters) (s : Summary) : Counters :=
  { k with
    failures := satAdd k.failures 1
    retries := satAdd k.retries s.retries
    aborts := if s.aborted then satAdd k.aborts 1 else k.aborts
    last := some s }

/-- The summary of a job (driver.rs:725-736, 762-773, 798-809, 825-837, 859-870). -/
def summary (j : Job K) (ins outs : List (Desc K)) (ms retries : Nat) (aborted : Bool) : Summary :=
  ⟨j.task.source, j.task.target, ins.length, outs.length, Io.of ins, Io.of outs, ms, retries, aborted⟩

/-- What the merge of a job records (driver.rs:676-775); the round is the `a`-th. An error before the merge or after
it is not recorded. -/
def noteStart (c : Cfg K R) (w : W K R) (j : Job K) (skip a ms : Nat) (k : Counters) : Counters :=
  match snapshotLatest w.db.kv c.table with
  | .ok (h, some v) =>
    if j.head ≠ none ∧ h.last ≠ j.head then k
    else
      match resolve v j.task.input with
      | .error _ => k
      | .ok ins =>
        match (execute c.x w.db j.task.target ins skip).2 with
        | .error _ => k.abort (summary j ins [] ms (a - 1) false)
        | .ok outs =>
          match outcomeOf v ((walFloor w.db.kv c.table).toOption.join) j.task.target ins outs with
          | none => k.abort (summary j ins [] ms (a - 1) false)
          | some o =>
            match gcPlan o with
            | none => k
            | some _ => if toEdits c.x.order o = [] then k.success (summary j ins outs ms (a - 1) false) else k
  | _ => k

/-- What the manifest call of a job records (driver.rs:784-871). -/
def noteFinish (c : Cfg K R) (w : W K R) (j : Job K) (a ms : Nat) (p : Pending K) (k : Counters) : Counters :=
  match (Lsm.finish c.table { w.db with jobs := w.db.jobs.eraseIdx (w.db.jobs.idxOf p) } p).2 with
  | .ok _ => k.success (summary j p.inputs p.outputs ms (a - 1) false)
  | .error .casConflict => if 2 ≤ a then k.abort (summary j p.inputs p.outputs ms a true) else k
  | .error _ => k.abort (summary j p.inputs p.outputs ms (a - 1) false)

/-- What a step of a running job records (driver.rs:1013-1130). -/
def noteAct (c : Cfg K R) (w : W K R) (j : Job K) (now skip ms : Nat) (k : Counters) : Stage K → Counters
  | .popped a => noteStart c w j skip a ms k
  | .merged a p => noteFinish c w j a ms p k
  | .ended =>
    if j.task.source = 0 ∧ j.task.target = 1 then
      match (w.control.acquire now).1 with
      | .allowed => k
      | .budget => { k with blockedBudget := satAdd k.blockedBudget 1 }
      | .cooldown => { k with blockedCooldown := satAdd k.blockedCooldown 1 }
    else k
  | .follow t =>
    match noteHead c w.db with
    | none => k
    | some h =>
      match enqueue c w.queue ⟨t, h⟩ with
      | none => { k with cascadeFull := satAdd k.cascadeFull 1 }
      | some _ => { k with scheduled := satAdd k.scheduled 1 }
  | .over => k

/-- What a step of the loop records (driver.rs:908-968, 1206-1210, 1247-1249). The tick and the kick are told apart by
`periodic`; the worker's own next turn counts as a kick. -/
def noteTurn (c : Cfg K R) (w : W K R) (periodic : Bool) (k : Counters) : Counters :=
  match w.phase with
  | .waiting => if w.kicks = 0 then k else k.trigger periodic
  | .planned _ t =>
    match noteHead c w.db with
    | none => k
    | some h =>
      match enqueue c w.queue ⟨t, h⟩ with
      | none => { k with plannerFull := satAdd k.plannerFull 1 }
      | some _ => k
  | .draining js => if allOver js ∧ w.applied ∧ planFrom c w.db 0 ≠ none then k.trigger false else k
  | _ => k

/-- What the failure of a job's storage records (driver.rs:676-738): the job is counted if it was merging; a failure
before that is not recorded. -/
def noteFail (c : Cfg K R) (w : W K R) (i ms : Nat) (k : Counters) : Counters :=
  match w.phase with
  | .draining js =>
    match js[i]? with
    | some (j, .popped a) =>
      match snapshotLatest w.db.kv c.table with
      | .ok (h, some v) =>
        if j.head ≠ none ∧ h.last ≠ j.head then k
        else
          match resolve v j.task.input with
          | .error _ => k
          | .ok ins => k.abort (summary j ins [] ms (a - 1) false)
      | _ => k
    | _ => k
  | _ => k

/-- The worker and its counters. -/
structure O (K R : Type) where
  w : W K R
  k : Counters

/-- A step with what it records. `ms` is the time a job took, `periodic` tells whether the timer woke the worker. A new
process starts with new counters (builder.rs:1205-1220). -/
def obs (c : Cfg K R) (o : O K R) (s : Worker.Op K R × Nat × Bool) : O K R :=
  ⟨Worker.step c o.w s.1,
    match s.1 with
    | .turn => noteTurn c o.w s.2.2 o.k
    | .job i now skip =>
      match o.w.phase with
      | .draining js =>
        match js[i]? with
        | none => o.k
        | some r => noteAct c o.w r.1 now skip s.2.1 o.k r.2
      | _ => o.k
    | .fail i => noteFail c o.w i s.2.1 o.k
    | .restart _ => {}
    | _ => o.k⟩

/-- A history. -/
def watch (c : Cfg K R) : O K R → List (Worker.Op K R × Nat × Bool) → O K R
  | o, [] => o
  | o, s :: ss => watch c (obs c o s) ss

/-- A new table, its worker, new counters. -/
def O.new (c : Cfg K R) (cap schemaVersion : Nat) : O K R := ⟨W.new c cap schemaVersion, {}⟩

end Tonbo.Model.WStats
