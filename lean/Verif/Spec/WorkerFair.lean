import Verif.Spec.WorkerView

/-!
# Endless schedules of the compaction worker
-/

namespace Tonbo.Spec
open Tonbo.Model Tonbo.Model.Lsm Tonbo.Model.Worker

variable {K R : Type} [LinearOrder K]

/-- The first `n` steps of an endless schedule. -/
def firstSteps (f : Nat → Worker.Op K R) (n : Nat) : List (Worker.Op K R) := (List.range n).map f

/-- The loop of the worker takes a step again and again, and so does each of the jobs it may run. -/
def Fair (c : Cfg K R) (f : Nat → Worker.Op K R) : Prop :=
  (∀ n, ∃ i, n ≤ i ∧ f i = .turn) ∧
  ∀ k, k < max c.maxJobs 1 → ∀ n, ∃ i, n ≤ i ∧ ∃ now skip, f i = .job k now skip

/-- The worker is asked again and again, as by a periodic tick. -/
def KeepsAsking (f : Nat → Worker.Op K R) : Prop := ∀ n, ∃ i, n ≤ i ∧ f i = .trigger

/-- From some step on no job fails. -/
def FailuresEnd (c : Cfg K R) (cap sv : Nat) (pre : List (Worker.Op K R)) (f : Nat → Worker.Op K R) : Prop :=
  ∃ n, ∀ i, n ≤ i → endedAs .failed (lived c cap sv (pre ++ firstSteps f i)) =
    endedAs .failed (lived c cap sv (pre ++ firstSteps f n))

end Tonbo.Spec
