import Verif.Spec.Pred

/-!
# Columns by name

A row has one cell per column of its schema.
-/

namespace Tonbo.Spec
open Tonbo.Model.Pred Tonbo.Model.Keys

/-- What a row has in the column of that name. -/
def cellOf (schema : Schema) (r : Row) (name : String) : Option Cell :=
  ((schema.zip r).find? (fun q => q.1.1 == name)).bind (·.2)

/-- A row cut down to the columns of these names, in this order. -/
def columns (schema : Schema) (names : List String) (r : Row) : Row := names.map (cellOf schema r)

/-- The column a leaf of a predicate is about. -/
def leafColumn : Expr → Option String
  | .cmp col _ _ => some col
  | .between col _ _ _ => some col
  | .inList col _ => some col
  | .startsWith col _ => some col
  | .isNull col _ => some col
  | .bloomEq col _ => some col
  | .bloomIn col _ => some col
  | _ => none

/-- A predicate is about this column, among others. -/
def Mentions (p : Expr) (name : String) : Prop := ∃ e ∈ leaves p, leafColumn e = some name

end Tonbo.Spec
