import Verif.Model.Accept

/-!
# Which batches a table takes: what a user sees
-/

namespace Tonbo.Spec.Accept
open Tonbo.Model Tonbo.Model.Accept

variable {X : Type}

/-- A name the library keeps for itself. -/
def Reserved (n : List Char) : Prop := n = "_commit_ts".toList ∨ n = "_tombstone".toList

/-- No column of the table has such a name. -/
def Unreserved (s : Sch X) : Prop := ∀ f ∈ s.fields, ¬ Reserved f.core.name

/-- The columns that hold a value have one of the types a transaction can hold. -/
def Plain (s : Sch X) (has : Nat → Bool) : Prop :=
  ∀ i f, s.fields[i]? = some f → has i = true →
    f.core.type ∈ [KeyDecl.DataType.boolean, .int32, .int64, .uint32, .uint64, .float32, .float64, .utf8, .binary]

/-- The two schemas agree in everything but the entry `tonbo.keys` of the metadata. -/
def SameButKeys (a b : Sch X) : Prop := a.fields = b.fields ∧ a.rest = b.rest

/-- The declaration writes to the schema. -/
def Writes : Decl → Prop
  | .builder _ w => w = true
  | _ => False

end Tonbo.Spec.Accept
