import Verif.Model.Catalog

/-!
# What table registration means

Independent of the catalog's maps: the first registration of a name decides.
-/

namespace Tonbo.Spec.CatalogView
open Tonbo.Model.Catalog

variable {P : Type}

/-- The definition and the identifier an attempt to register this name brings along. -/
def attempt (name : String) : Op P → Option (Def × Nat)
  | .register d id => if d.name = name then some (d, id) else none
  | .half d id => if d.name = name then some (d, id) else none
  | _ => none

/-- The first attempt to register a name. -/
def first (ops : List (Op P)) (name : String) : Option (Def × Nat) := ops.findSome? (attempt name)

/-- The identifiers drawn by the registrations of a history. -/
def idsOf : List (Op P) → List Nat
  | [] => []
  | .register _ id :: r => id :: idsOf r
  | .half _ id :: r => id :: idsOf r
  | _ :: r => idsOf r

/-- What is known about a table: its definition under its identifier. -/
def tableOf (d : Def) (id : Nat) : Meta :=
  { id := id, name := d.name, fingerprint := d.fingerprint, pk := d.pk, retention := d.retention, version := d.version }

end Tonbo.Spec.CatalogView
