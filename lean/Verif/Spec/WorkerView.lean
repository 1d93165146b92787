import Verif.Spec.LsmView
import Verif.Spec.PlanView
import Verif.Spec.PolicyView
import Verif.Model.Worker

/-!
# What the compaction worker is expected to do
-/

namespace Tonbo.Spec
open Tonbo.Model Tonbo.Model.Manifest Tonbo.Model.Planner Tonbo.Model.Lsm Tonbo.Model.Worker

variable {K R : Type} [LinearOrder K]

/-- The worker after a history that starts with a new table. -/
def lived (c : Cfg K R) (cap schemaVersion : Nat) (ops : List (Worker.Op K R)) : W K R :=
  Worker.run c (W.new c cap schemaVersion) ops

/-- The worker waits and nobody has asked for anything. -/
def Idle (w : W K R) : Prop := w.phase = .waiting ∧ w.kicks = 0

/-- Some level of the latest version is over its limits. -/
def WorkLeft (c : Cfg K R) (w : W K R) : Prop :=
  ∃ v, Latest w.db c.table v ∧ ∃ l, v.ssts.getD l [] ≠ [] ∧ OverLimit c.planner v l

/-- The jobs that ended this way. -/
def endedAs (f : Fate) (w : W K R) : List (Worker.Job K) := (w.done.filter (fun e => decide (e.2 = f))).map (·.1)

/-- A step of the worker, of its jobs, of storage, or of a client that publishes nothing. -/
def Unpublished : Worker.Op K R → Prop
  | .other .flushPublish => False
  | .other (.setWal _) => False
  | _ => True

/-- Nobody asks the worker for anything. -/
def Unasked : Worker.Op K R → Prop
  | .trigger => False
  | .restart _ => False
  | _ => True

/-- The worker stays in the round it is in. -/
def SameRound : Worker.Op K R → Prop
  | .turn => False
  | .restart _ => False
  | _ => True

/-- A writer that looks at level 0 is told to wait. -/
def Stalled (b : Policy.Config) (c : Cfg K R) (w : W K R) : Prop :=
  ∃ d, b.decision (levelZero c w.db) = .stall d

/-- Something happens, the worker is asked to look, and goes through one cycle of a worker that runs one
job at a time. -/
def oneRound (ops : List (Lsm.Op K R)) : List (Worker.Op K R) :=
  ops.map .other ++ [.trigger, .turn, .turn, .turn, .turn, .job 0 0 0, .turn]

/-- Each time a version is published, and there is work to do. -/
def KeepsBusy (c : Cfg K R) : W K R → List (List (Lsm.Op K R)) → Prop
  | _, [] => True
  | w, ops :: rest =>
    (∀ o ∈ ops, foreign o = true) ∧ noteHead c (Worker.run c w (ops.map .other)).db ≠ noteHead c w.db ∧
      WorkLeft c (Worker.run c w (ops.map .other)) ∧ KeepsBusy c (Worker.run c w (oneRound ops)) rest

end Tonbo.Spec
