import Verif.Model.Sidecar

/-!
# Deletions in files: what a user sees
-/

namespace Tonbo.Spec.Sidecar
open Tonbo.Model Tonbo.Model.Accept Tonbo.Model.Sidecar

variable {X V : Type}

/-- A deletion: the cells of the key, in the order of the key columns, and the time. -/
abbrev Deletion (V : Type) := List (Cell V) × Nat

/-- The names of the key columns. -/
def keyNames (t : Table X) : List (List Char) := (t.cols.filterMap (fun i => t.schema.fields[i]?)).map (·.core.name)

/-- No two key columns have the same name, and none is called `_commit_ts`. -/
def Distinct (t : Table X) : Prop := (keyNames t).Nodup ∧ "_commit_ts".toList ∉ keyNames t

/-- The deletion has a value for every key column. -/
def Whole (t : Table X) (e : Deletion V) : Prop := e.1.length = t.cols.length ∧ Cell.null ∉ e.1

/-- The key of a row of the table. -/
def rowKey (t : Table X) (r : List (Cell V)) : List (Option (Cell V)) := t.cols.map (fun i => r[i]?)

/-- What memory hands to a flush: the deletions as a batch of keys and a list of times. -/
def held (fields : List (Fld X)) (es : List (Deletion V)) : Del X V := ⟨fields, es.map (·.1), es.map (·.2)⟩

end Tonbo.Spec.Sidecar
