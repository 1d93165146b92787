import Verif.Model.LsmFail

/-! # Histories in which writes fail: which of their writes count -/

namespace Tonbo.Spec
open Tonbo.Model Tonbo.Model.Lsm

variable {K R : Type} [LinearOrder K]

/-- The steps of a history that returned `Ok`. -/
def acknowledged (ext : R → Option K) (x : Exec K R) (t : Nat) : Db K R → List (LsmFail.Op K R) → List (LsmFail.Op K R)
  | _, [] => []
  | s, o :: os =>
    (if (LsmFail.step ext x t s o).1 then [o] else []) ++ acknowledged ext x t (LsmFail.step ext x t s o).2 os

/-- The slots of the memory table that the call needs are used up. -/
def SlotsUsedUp (m : Mem.Inner K R) : Mem.Op K R → Prop
  | .put _ => m.cap ≤ m.batches.length
  | .del _ => m.cap ≤ m.dels.length
  | .freeze => False

/-- Every write that fails finds a free slot, or a table without rows. -/
def FailsWithRoom (ext : R → Option K) (x : Exec K R) (t : Nat) : Db K R → List (LsmFail.Op K R) → Prop
  | _, [] => True
  | s, o :: os =>
    ((LsmFail.step ext x t s o).1 = false → ∀ op, o = .fine (.write op) → SlotsUsedUp s.runs.mem op →
      s.runs.mem.index = []) ∧
    FailsWithRoom ext x t (LsmFail.step ext x t s o).2 os

end Tonbo.Spec
