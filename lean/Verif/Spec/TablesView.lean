import Verif.Model.Store

/-!
# Tables that do not get in each other's way

The steps of one table alone, and what it means that no other table meddles with its files.
-/

namespace Tonbo.Spec.TablesView
open Tonbo.Model Tonbo.Model.Manifest Tonbo.Model.Planner Tonbo.Model.Lsm Tonbo.Model.Store

variable {K R : Type} [LinearOrder K]

/-- The steps of a history that work on table `t`. -/
def only (t : Nat) (ops : List (Store.Op K R)) : List (Store.Op K R) := ops.filter (fun o => decide (o.table = t))

/-- The latest version of table `t` names the file `p`. -/
def Names (s : Store K R) (t : Nat) (p : Path) : Prop :=
  ∃ h v, snapshotLatest s.kv t = .ok (h, some v) ∧ ∃ e ∈ v.ssts.flatten, e.info.data = p

/-- The file `p` was last changed by a step of another table than `t`. -/
def Foreign (ext : R → Option K) (x : Exec K R) (t : Nat) (ops : List (Store.Op K R)) (p : Path) : Prop :=
  ∃ l o r, ops = l ++ o :: r ∧ o.table ≠ t ∧
    (Store.run ext x (l ++ [o])).files p ≠ (Store.run ext x l).files p ∧
    ∀ l' o' r', r = l' ++ o' :: r' → o'.table = t →
      (Store.run ext x (l ++ o :: l' ++ [o'])).files p = (Store.run ext x (l ++ o :: l')).files p

/-- At no time does the latest version of table `t` name a file last changed by another table. -/
def Undisturbed (ext : R → Option K) (x : Exec K R) (t : Nat) (ops : List (Store.Op K R)) : Prop :=
  ∀ l r, ops = l ++ r → ∀ p, Names (Store.run ext x l) t p → ¬ Foreign ext x t l p

end Tonbo.Spec.TablesView
