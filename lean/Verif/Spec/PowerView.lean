import Verif.Model.Power
import Verif.Spec.CalmView

/-!
# Histories with power losses
-/

namespace Tonbo.Spec.Power
open Tonbo.Model Tonbo.Model.Lsm Tonbo.Model.Power Tonbo.Spec Tonbo.Spec.Durable

variable {A K R : Type} [LinearOrder K]

/-- Every table that a version of the manifest lists is on the device as it was written. -/
def WrittenBack (c : Durable.Ctx A K R) (s : St A K R) : Prop :=
  ∀ l e, EverListed s.sys.db c.table l e → s.device ⟨l, e.id⟩ = s.sys.db.files ⟨l, e.id⟩

/-- Every step is one of the quiet histories of C29 and C32, a power loss taken as a crash, and the power never fails
before the listed tables are written back. -/
def Lucky (c : Durable.Ctx A K R) : St A K R → List (Power.Op K R) → Prop
  | _, [] => True
  | s, o :: os =>
    (match o with
      | .live o => Calm c s.sys o ∧ Fresh c s.sys o
      | .writeback _ => True
      | .power cap pol st => WrittenBack c s ∧ Calm c s.sys (.crash cap pol st) ∧ Fresh c s.sys (.crash cap pol st)) ∧
    Lucky c (Power.step c s o) os

/-- The latest version lists a table that is not on the device. -/
def Missing (c : Durable.Ctx A K R) (s : St A K R) : Prop :=
  ∃ h v, Manifest.snapshotLatest s.sys.db.kv c.table = .ok (h, some v) ∧ ∃ e ∈ v.ssts.flatten, s.device e.info.data = none

end Tonbo.Spec.Power
