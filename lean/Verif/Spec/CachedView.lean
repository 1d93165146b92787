import Verif.Model.Cached
import Verif.Spec.FleetView

/-!
# Reading through caches
-/

namespace Tonbo.Spec
open Tonbo.Model Tonbo.Model.Planner Tonbo.Model.Cached

variable {K R X V : Type}

/-- The steps of the processes in a history. -/
def acts : List (Cached.Op K R X) → List (Nat × Fleet.Act K R)
  | [] => []
  | .act p a :: os => (p, a) :: acts os
  | _ :: os => acts os

/-- Parts are asked for of tables that some version lists when they are asked for: scans get their paths from versions. -/
def AskedOfVersions [LinearOrder K] [DecidableEq X] (ext : R → Option K) (x : Lsm.Exec K R) (table max : Nat)
    (part : X → Sst.File K R → Option V) (s : Sys K R X V) (ops : List (Cached.Op K R X)) : Prop :=
  ∀ (before after : List (Cached.Op K R X)) (p task : Nat) (k : Path × X), ops = before ++ .ask p task k :: after →
    ∀ s', Cached.run ext x table max part s before = some s' →
      ∃ l e, EverListed (s'.fleet.db p) table l e ∧ k.1 = e.info.data

end Tonbo.Spec
