import Verif.Model.WorkerStats
import Verif.Spec.WorkerView

/-!
# What the counters of the compactions should say
-/

namespace Tonbo.Spec
open Tonbo.Model Tonbo.Model.Manifest Tonbo.Model.Planner Tonbo.Model.Lsm Tonbo.Model.Worker Tonbo.Model.WStats

variable {K R : Type} [LinearOrder K]

/-- The tables the latest version lists. -/
def listedNow (c : Cfg K R) (db : Db K R) : List (Entry (Info K)) :=
  match snapshotLatest db.kv c.table with
  | .ok (_, some v) => v.ssts.flatten
  | _ => []

/-- A number that the statistics of a table give. -/
def statOf (f : SStats K → Nat) (s : Option (SStats K)) : Nat := (s.map f).getD 0

/-- That number over all tables the latest version lists. -/
def listedTotal (f : SStats K → Nat) (c : Cfg K R) (db : Db K R) : Nat :=
  ((listedNow c db).map (fun e => statOf f e.info.stats)).sum

/-- That number over the tables a step adds by publishing a flush. -/
def flushGain (f : SStats K → Nat) (c : Cfg K R) (w : W K R) (op : Worker.Op K R) : Nat :=
  match op, w.db.flushing, (Worker.step c w op).db.flushing with
  | .other .flushPublish, .written p _, .published _ => (p.outputs.map (fun d => statOf f d.stats)).sum
  | _, _, _ => 0

/-- That number over all tables a history adds by flushes. -/
def flushGains (f : SStats K → Nat) (c : Cfg K R) : W K R → List (Worker.Op K R) → Nat
  | _, [] => 0
  | w, o :: os => flushGain f c w o + flushGains f c (Worker.step c w o) os

/-- A step begins a new cycle of the worker. -/
def begins (before after : Phase K) : Bool :=
  match before, after with
  | .waiting, .planning _ => true
  | .draining _, .planning _ => true
  | _, _ => false

/-- How many cycles a history begins. -/
def cycles (c : Cfg K R) : W K R → List (Worker.Op K R) → Nat
  | _, [] => 0
  | w, o :: os => (if begins w.phase (Worker.step c w o).phase then 1 else 0) + cycles c (Worker.step c w o) os

/-- The three things the counters add up. -/
inductive Measure where
  | bytes | rows | tombstones
deriving Repr, DecidableEq

/-- What the statistics of a table say of it. -/
def Measure.stat : Measure → SStats K → Nat
  | .bytes, s => s.bytes
  | .rows, s => s.rows
  | .tombstones, s => s.tombstones

/-- The counter for the tables that jobs have read. -/
def Measure.taken : Measure → Counters → Nat
  | .bytes, k => k.bytesIn
  | .rows, k => k.rowsIn
  | .tombstones, k => k.tombstonesIn

/-- The counter for the tables that jobs have written. -/
def Measure.written : Measure → Counters → Nat
  | .bytes, k => k.bytesOut
  | .rows, k => k.rowsOut
  | .tombstones, k => k.tombstonesOut

/-- What the last job's summary says of one side. -/
def Measure.side : Measure → Io → Nat
  | .bytes, s => s.bytes
  | .rows, s => s.rows
  | .tombstones, s => s.tombstones

/-- No new process starts. -/
def OneProcess (ss : List (Worker.Op K R × Nat × Bool)) : Prop := ∀ s ∈ ss, ∀ cap, s.1 ≠ .restart cap

/-- What the worker and its counters have come to, from a table with the history `pre` and new counters. -/
def counted (c : Cfg K R) (cap sv : Nat) (pre : List (Worker.Op K R)) (ss : List (Worker.Op K R × Nat × Bool)) : O K R :=
  watch c ⟨lived c cap sv pre, {}⟩ ss

/-- What may happen to a task: a follow-up gets into the queue, or finds it full, a planned task finds it full, a
follow-up is not looked for because of the cooldown, or because the cycle has had all its follow-ups. -/
inductive Happening where
  | queued | followFull | planFull | cooling | spent
deriving Repr, DecidableEq

/-- The counter for it. -/
def Happening.told : Happening → Counters → Nat
  | .queued, k => k.scheduled
  | .followFull, k => k.cascadeFull
  | .planFull, k => k.plannerFull
  | .cooling, k => k.blockedCooldown
  | .spent, k => k.blockedBudget

/-- The job that takes a step, how far it is, and the time. -/
def runner (w : W K R) : Worker.Op K R → Option (Worker.Job K × Stage K × Nat)
  | .job i now _ =>
    match w.phase with
    | .draining js => js[i]?.map (fun r => (r.1, r.2, now))
    | _ => none
  | _ => none

/-- A job from level 0 to level 1 has ended. -/
def Deepens (w : W K R) (op : Worker.Op K R) (now : Nat) : Prop :=
  ∃ j : Worker.Job K, runner w op = some (j, .ended, now) ∧ j.task.source = 0 ∧ j.task.target = 1

/-- The queue has no place left. -/
def QueueFull (c : Cfg K R) (w : W K R) : Prop := c.slots ≤ w.queue.length

/-- It happens in this step. -/
def Happening.In (c : Cfg K R) (w : W K R) (op : Worker.Op K R) : Happening → Prop
  | .queued => op ≠ .turn ∧ w.queue.length < (Worker.step c w op).queue.length
  | .followFull => (∃ j t now, runner w op = some (j, .follow t, now)) ∧ QueueFull c w
  | .planFull => op = .turn ∧ (∃ n t, w.phase = .planned n t) ∧ QueueFull c w
  | .cooling => ∃ now l, Deepens w op now ∧ w.control.remaining ≠ 0 ∧ w.control.last = some l ∧ now - l < c.cooldown
  | .spent => ∃ now, Deepens w op now ∧ w.control.remaining = 0

open Classical in
/-- How often it happens in a history. -/
noncomputable def Happening.times (h : Happening) (c : Cfg K R) : W K R → List (Worker.Op K R) → Nat
  | _, [] => 0
  | w, o :: os => (if h.In c w o then 1 else 0) + h.times c (Worker.step c w o) os

/-- The time the published jobs of a history took. -/
def jobTime (c : Cfg K R) : W K R → List (Worker.Op K R × Nat × Bool) → Nat
  | _, [] => 0
  | w, s :: ss =>
    (if (endedAs .published w).length < (endedAs .published (Worker.step c w s.1)).length then s.2.1 else 0) +
      jobTime c (Worker.step c w s.1) ss

end Tonbo.Spec
