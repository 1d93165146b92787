import Verif.Model.Repair
import Verif.Spec.WalView

/-!
# A log that is looked at while it is in use
-/

namespace Tonbo.Spec.Repair
open Tonbo.Model.Wal Tonbo.Model.Repair

/-- A frame as the database writes it: numbered from one, below 4 GiB, and with room for its transaction id. -/
def Writable (f : RawFrame) : Prop :=
  f.2.1 ≠ 0 ∧ f.2.2.length < 4294967296 ∧ (f.1 = .txnAppend ∨ f.1 = .txnCommit → 8 ≤ f.2.2.length)

/-- The frames handed over during a history, in order. -/
def written (ops : List Op) : List RawFrame := ops.flatMap (fun | .write f => [f] | _ => [])

/-- Only such frames are written. -/
def Writes (ops : List Op) : Prop := ∀ f, Op.write f ∈ ops → Writable f

/-- The file ends within a frame. -/
def Torn (file : Bytes) : Prop := ∃ fs e, readLog file = .ok (fs, some e)

/-- A look at the tail is about to change the file. -/
def Repairing (s : St) : Prop := ∃ c ∈ s.scans, c.busy = true

/-- No look at the tail meets a frame on its way into the file, and a repair, once begun, is finished before anything
else happens. -/
def Undisturbed : St → List Op → Prop
  | _, [] => True
  | s, o :: os =>
    (Repairing s → ∃ i, o = .go i) ∧ (o = .scan → s.up = true → ¬ Torn s.file) ∧ Undisturbed (step s o) os

end Tonbo.Spec.Repair
