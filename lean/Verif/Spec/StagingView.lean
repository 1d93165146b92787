import Verif.Model.Staging

/-!
# What the calls of a transaction say

A row can be staged when it fits the table and has a key. A call that is given several rows says the rows up to the
first one that cannot be staged. A transaction says what its calls say, in their order; for a key, the last word counts.
-/

namespace Tonbo.Spec.Staging
open Tonbo.Model.Keys Tonbo.Model.Pred Tonbo.Model.Staging

/-- The values of a column of a type. -/
inductive OfType : DType → Cell → Prop
  | bool (b) : OfType .bool (.bool b)
  | int (t v) : OfType (.int t) (.int t v)
  | f32 (v) : OfType .f32 (.f32 v)
  | f64 (v) : OfType .f64 (.f64 v)
  | str (s) : OfType (.str .plain) (.str s)
  | largeStr (s) : OfType (.str .large) (.str s)
  | bin (b) : OfType (.bin .plain) (.bin b)
  | largeBin (b) : OfType (.bin .large) (.bin b)
  | fixedBin (b : List Nat) : OfType (.bin (.fixed b.length)) (.bin b)

/-- The types of the columns whose values are read from a batch. -/
def readTypes : List DType :=
  [.bool, .int .i32, .int .i64, .int .u32, .int .u64, .f32, .f64, .str .plain, .bin .plain]

/-- A row has a cell for every column, of its type, and nulls in nullable columns only. -/
def Conforms (fs : List Field) (r : Row) : Prop :=
  List.Forall₂ (fun f c => (c = none ∧ f.nullable = true) ∨ ∃ v, c = some v ∧ typeFits f.type v = true) fs r

/-- The cells of the key columns are these, none is null. -/
def HasKey (t : Table) (r : Row) (k : List Cell) : Prop := List.Forall₂ (fun i c => r[i]? = some (some c)) t.keys k

/-- The row can be staged, under this key. -/
def Stages (t : Table) (r : Row) (k : List Cell) : Prop := Conforms t.fields r ∧ HasKey t r k

/-- What rows say, up to the first that cannot be staged; `P` is a further condition on a row. The flag: all of them. -/
inductive RowsSaid (t : Table) (P : Row → Prop) : List Row → List (List Cell × Mutation) → Bool → Prop
  | nil : RowsSaid t P [] [] true
  | cons {r k rs l b} : P r → Stages t r k → RowsSaid t P rs l b → RowsSaid t P (r :: rs) ((k, .up r) :: l) b
  | stop {r rs} : (¬ P r ∨ ∀ k, ¬ Stages t r k) → RowsSaid t P (r :: rs) [] false

/-- The rows of a batch can be read one by one: no column has a name of the store, and every value is of one of the
types that are read. -/
def Readable (t : Table) (r : Row) : Prop :=
  (∀ f ∈ t.fields, f.name ≠ "_commit_ts" ∧ f.name ≠ "_tombstone") ∧
    ∀ (i : Nat) (f : Field) (c : Cell), t.fields[i]? = some f → r[i]? = some (some c) → readable f.type = true

/-- What a call says, and whether it is accepted. -/
inductive Said (t : Table) : Call → List (List Cell × Mutation) → Bool → Prop
  | upsert {r l b} : RowsSaid t (fun _ => True) [r] l b → Said t (.upsert r) l b
  | upsertRows {rs l b} : RowsSaid t (fun _ => True) rs l b → Said t (.upsertRows rs) l b
  | upsertBatch {rows l b} : RowsSaid t (Readable t) rows l b → Said t (.upsertBatch t.fields rows) l b
  | otherBatch {fs rows} : fs ≠ t.fields → Said t (.upsertBatch fs rows) [] false
  | delete {k : List Cell} : k.length = t.keys.length → Said t (.delete (k.map some)) [(k, .del)] true
  | noDelete {key : Row} : (key.length ≠ t.keys.length ∨ none ∈ key) → Said t (.delete key) [] false

/-- The rows of a batch have as many cells as the batch has columns (Arrow). -/
def Rect : Call → Prop
  | .upsertBatch fs rows => ∀ r ∈ rows, r.length = fs.length
  | _ => True

/-- What several calls say. -/
inductive AllSaid (t : Table) : List Call → List (List Cell × Mutation) → Prop
  | nil : AllSaid t [] []
  | cons {c cs l m b} : Said t c l b → AllSaid t cs m → AllSaid t (c :: cs) (l ++ m)

/-- The last word on a key. -/
def lastWord (k : List Cell) (said : List (List Cell × Mutation)) : Option Mutation :=
  (said.reverse.find? (fun p => decide (rowCmp k p.1 = .eq))).map (·.2)

/-- A key has the types of the key columns. -/
def KeyFits (t : Table) (k : List Cell) : Prop :=
  List.Forall₂ (fun i c => ∃ f : Field, t.fields[i]? = some f ∧ typeFits f.type c = true) t.keys k

end Tonbo.Spec.Staging
