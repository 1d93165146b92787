import Verif.Spec.LsmView
import Verif.Model.LsmFail

/-!
# Histories with failures
-/

namespace Tonbo.Spec
open Tonbo.Model Tonbo.Model.Manifest Tonbo.Model.Planner Tonbo.Model.Outcome Tonbo.Model.Lsm

variable {K R : Type} [LinearOrder K]

/-- The database after a history with failures that starts with a new table. -/
def reachedF (ext : R → Option K) (x : Exec K R) (cap table schemaVersion : Nat)
    (ops : List (LsmFail.Op K R)) : Db K R :=
  (LsmFail.run ext x table (Db.new cap table schemaVersion) ops).2

/-- The versions written by a history with failures, in order of the calls. -/
def logOfF (ext : R → Option K) (ops : List (LsmFail.Op K R)) : List (Ver K R) :=
  ops.flatMap (fun | .fine (.write op) => batchWrites ext op | _ => [])

/-- No compaction job is told of an error after its publication took place. Flushes may be. -/
def JobsHeard (ops : List (LsmFail.Op K R)) : Prop := ∀ i keep g, LsmFail.Op.finish i .lost keep g ∉ ops

/-- No step of the history is a restart. -/
def NoRestartF (ops : List (LsmFail.Op K R)) : Prop := ∀ cap, LsmFail.Op.fine (.reopen cap) ∉ ops

/-- No compaction of the history calls the manifest. -/
def NoCompactionF (ops : List (LsmFail.Op K R)) : Prop :=
  ∀ i, LsmFail.Op.fine (.finish i) ∉ ops ∧ ∀ a keep g, LsmFail.Op.finish i a keep g ∉ ops

end Tonbo.Spec
