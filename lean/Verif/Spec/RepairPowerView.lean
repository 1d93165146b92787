import Verif.Model.RepairPower
import Verif.Spec.RepairView

/-!
# Histories of a log with power losses

Written for C89.
-/

namespace Tonbo.Spec.RepairPower
open Tonbo.Model.Wal Tonbo.Model.Repair Tonbo.Model.RepairPower Tonbo.Spec.Repair

/-- The frames handed over during a history, in order. -/
def writtenP (ops : List POp) : List RawFrame := ops.flatMap (fun | .op (.write f) => [f] | _ => [])

/-- Only frames as the database writes them. -/
def WritesP (ops : List POp) : Prop := ∀ f, POp.op (.write f) ∈ ops → Writable f

/-- No look at the tail meets a frame on its way into the file, a repair, once begun, is finished before anything else
happens, and the power does not fail between a repair and the next sync. -/
def Steady : P → List POp → Prop
  | _, [] => True
  | s, o :: os =>
    (Repairing s.st → ∃ i, o = .op (.go i)) ∧ (o = .op .scan → s.st.up = true → ¬ Torn s.st.file) ∧
    (∀ n, o = .power n → s.rewritten = false) ∧ Steady (pstep s o) os

/-- As `Steady`, but crashes and power losses may fall anywhere, also within a repair. -/
def Shaken : P → List POp → Prop
  | _, [] => True
  | s, o :: os =>
    (Repairing s.st → (∃ i, o = .op (.go i)) ∨ o = .op .crash ∨ o = .sync ∨ ∃ n, o = .power n) ∧
    (o = .op .scan → s.st.up = true → ¬ Torn s.st.file) ∧ Shaken (pstep s o) os

end Tonbo.Spec.RepairPower
