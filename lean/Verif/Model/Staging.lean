import Verif.Model.Predicate

/-!
# What a transaction accepts
(src/transaction/mod.rs:120-210, 421-530, 683-724; src/extractor/extractors.rs:212-270; src/key/owned.rs;
src/mode/mod.rs:84-92)

Rows and keys are given to a transaction as cells. They are checked when they are staged, and put into
Arrow batches at commit. `Model/Txn.lean` has rows and keys as opaque values, all of them well-formed.

`DynBuilders` (typed-arrow-dyn) is taken to accept a row when it has a cell for every column, every cell has the
type of its column (`typeFits`) and a null is in a nullable column only. Struct, list, map and union cells are
not modelled; a column of another type (`DType.other`) takes nulls only. The texts of the errors are dropped.
-/

namespace Tonbo.Model.Staging
open Tonbo.Model.Keys Tonbo.Model.Pred

/-- `arrow_schema::Field`. -/
structure Field where
  name : String
  type : DType
  nullable : Bool
deriving DecidableEq, Repr

/-- What a transaction knows of its table (transaction/mod.rs:346-360): the schema and the key columns. -/
structure Table where
  fields : List Field
  keys : List Nat
deriving DecidableEq, Repr

/-- `TransactionError`, as far as staging raises it (transaction/mod.rs:421-530). -/
inductive Err where
  | rowArity (expected got : Nat)
  | rowEncoding
  | keyNull (index : Nat)
  | noColumn (col : Nat)
  | unsupported (col : Nat)
  | schemaMismatch
  | keyComponents (expected actual : Nat)
  | keyComponentNull (index : Nat)
deriving DecidableEq, Repr

/-- `TransactionCommitError`, as far as the batches raise it (transaction/mod.rs:683-724). -/
inductive CommitErr where
  | rowEncoding
  | deleteArity (expected actual : Nat)
deriving DecidableEq, Repr

/-- The names of the columns of the store itself (mvcc/mod.rs:8, immutable/memtable.rs:14). -/
def reserved (n : String) : Bool := n == "_commit_ts" || n == "_tombstone"

/-- Which cells the builder of a column takes (typed-arrow-dyn). -/
def typeFits : DType → Cell → Bool
  | .bool, .bool _ => true
  | .int t, .int u _ => decide (t = u)
  | .f32, .f32 _ => true
  | .f64, .f64 _ => true
  | .str .plain, .str _ => true
  | .str .large, .str _ => true
  | .bin .plain, .bin _ => true
  | .bin .large, .bin _ => true
  | .bin (.fixed n), .bin b => decide (b.length = n)
  | _, _ => false

/-- A cell and a column. -/
def cellFits (f : Field) : Option Cell → Bool
  | none => f.nullable
  | some c => typeFits f.type c

/-- `DynBuilders::append_option_row` and `try_finish_into_batch`. -/
def rowFits : List Field → Row → Bool
  | [], [] => true
  | f :: fs, c :: cs => cellFits f c && rowFits fs cs
  | _, _ => false

/-- `DynProjection::project_row_raw` and `KeyRow::from_dyn` (extractors.rs:114-137, key/row.rs:38-45). `i` is the number
of the component. -/
def keyCells (r : Row) : Nat → List Nat → Except Err (List Cell)
  | _, [] => .ok []
  | i, col :: cols =>
    match r[col]? with
    | none => .error (.noColumn col)
    | some none => .error (.keyNull i)
    | some (some c) =>
      match keyCells r (i + 1) cols with
      | .error e => .error e
      | .ok cs => .ok (c :: cs)

/-- `project_key` (transaction/mod.rs:483-499). -/
def projectKey (t : Table) (r : Row) : Except Err (List Cell) :=
  if r.length ≠ t.fields.length then .error (.rowArity t.fields.length r.length)
  else if rowFits t.fields r then keyCells r 0 t.keys
  else .error .rowEncoding

/-- `DynMutation` (transaction/mod.rs:168-176). -/
inductive Mutation where
  | up (r : Row)
  | del
deriving DecidableEq, Repr

/-- `BTreeMap<KeyOwned, DynMutation>`, in the order of the keys. -/
abbrev Staged := List (List Cell × Mutation)

/-- `BTreeMap::insert` (std): an equal key stays, its value is replaced. Keys with a NaN, for which the order is none
(C45), are put where this search ends. -/
def sput (k : List Cell) (m : Mutation) : Staged → Staged
  | [] => [(k, m)]
  | (k', m') :: st =>
    match rowCmp k k' with
    | .lt => (k, m) :: (k', m') :: st
    | .eq => (k', m) :: st
    | .gt => (k', m') :: sput k m st

/-- `BTreeMap::get` (std). -/
def sget (k : List Cell) : Staged → Option Mutation
  | [] => none
  | (k', m) :: st => if rowCmp k k' = .eq then some m else sget k st

/-- `Transaction::upsert` (transaction/mod.rs:421-425). A call that is refused gives the error and leaves what was staged
before. -/
def upsert (t : Table) (st : Staged) (r : Row) : Staged × Except Err Unit :=
  match projectKey t r with
  | .error e => (st, .error e)
  | .ok k => (sput k (.up r) st, .ok ())

/-- `upsert_rows` (transaction/mod.rs:428-436). -/
def upsertRows (t : Table) : Staged → List Row → Staged × Except Err Unit
  | st, [] => (st, .ok ())
  | st, r :: rs =>
    match upsert t st r with
    | (st', .error e) => (st', .error e)
    | (st', .ok ()) => upsertRows t st' rs

/-- The types `row_from_batch` reads (extractors.rs:228-260). -/
def readable : DType → Bool
  | .bool => true
  | .int .i32 => true
  | .int .i64 => true
  | .int .u32 => true
  | .int .u64 => true
  | .f32 => true
  | .f64 => true
  | .str .plain => true
  | .bin .plain => true
  | _ => false

/-- `row_from_batch` (extractors.rs:212-270), from column `i` on. -/
def rowFromBatch : Nat → List Field → Row → Except Err Row
  | i, f :: fs, c :: cs =>
    if reserved f.name then rowFromBatch (i + 1) fs cs
    else if c.isSome && !readable f.type then .error (.unsupported i)
    else
      match rowFromBatch (i + 1) fs cs with
      | .error e => .error e
      | .ok r => .ok (c :: r)
  | _, _, _ => .ok []

/-- The loop of `upsert_batch` (transaction/mod.rs:441-445). -/
def upsertBatchRows (t : Table) : Staged → List Row → Staged × Except Err Unit
  | st, [] => (st, .ok ())
  | st, r :: rs =>
    match rowFromBatch 0 t.fields r with
    | .error e => (st, .error e)
    | .ok r' =>
      match upsert t st r' with
      | (st', .error e) => (st', .error e)
      | (st', .ok ()) => upsertBatchRows t st' rs

/-- `upsert_batch` (transaction/mod.rs:439-446) of a batch with these columns and rows. -/
def upsertBatch (t : Table) (st : Staged) (fields : List Field) (rows : List Row) : Staged × Except Err Unit :=
  if fields ≠ t.fields then (st, .error .schemaMismatch) else upsertBatchRows t st rows

/-- The loop of `validate_key` (transaction/mod.rs:520-528). -/
def nonNull : Nat → Row → Except Err (List Cell)
  | _, [] => .ok []
  | i, none :: _ => .error (.keyComponentNull i)
  | i, some c :: cs =>
    match nonNull (i + 1) cs with
    | .error e => .error e
    | .ok k => .ok (c :: k)

/-- `validate_key` (transaction/mod.rs:511-530). -/
def validateKey (t : Table) (key : Row) : Except Err (List Cell) :=
  if key.length ≠ t.keys.length then .error (.keyComponents t.keys.length key.length) else nonNull 0 key

/-- `Transaction::delete` (transaction/mod.rs:449-457). -/
def delete (t : Table) (st : Staged) (key : Row) : Staged × Except Err Unit :=
  match validateKey t key with
  | .error e => (st, .error e)
  | .ok k => (sput k .del st, .ok ())

/-- A call that stages. -/
inductive Call where
  | upsert (r : Row)
  | upsertRows (rs : List Row)
  | upsertBatch (fields : List Field) (rows : List Row)
  | delete (key : Row)
deriving DecidableEq, Repr

/-- One call. -/
def call (t : Table) (st : Staged) : Call → Staged × Except Err Unit
  | .upsert r => upsert t st r
  | .upsertRows rs => upsertRows t st rs
  | .upsertBatch fs rows => upsertBatch t st fs rows
  | .delete k => delete t st k

/-- A transaction that goes on after an error. -/
def calls (t : Table) (st : Staged) (cs : List Call) : Staged := cs.foldl (fun st c => (call t st c).1) st

/-- `into_mutations` (transaction/mod.rs:186-197). -/
def mutations : Staged → List Row × List (List Cell)
  | [] => ([], [])
  | (_, .up r) :: st => (r :: (mutations st).1, (mutations st).2)
  | (k, .del) :: st => ((mutations st).1, k :: (mutations st).2)

/-- `build_delete_schema` (mode/mod.rs:84-92). -/
def deleteFields (t : Table) : List Field :=
  t.keys.filterMap (fun i => t.fields[i]?) ++ [⟨"_commit_ts", .int .u64, false⟩]

/-- `build_record_batch` (transaction/mod.rs:683-689). -/
def buildBatch (fs : List Field) (rows : List Row) : Except CommitErr (List Row) :=
  if rows.all (rowFits fs) then .ok rows else .error .rowEncoding

/-- `build_delete_batch` (transaction/mod.rs:691-724). Its check for nulls cannot fail here: staged keys have none. -/
def buildDeletes (t : Table) (ts : Nat) : List (List Cell) → Except CommitErr (List Row)
  | [] => .ok []
  | k :: ks =>
    if k.length ≠ t.keys.length then .error (.deleteArity t.keys.length k.length)
    else if rowFits (deleteFields t) (k.map some ++ [some (.int .u64 (ts : Int))]) then
      match buildDeletes t ts ks with
      | .error e => .error e
      | .ok rs => .ok ((k.map some ++ [some (.int .u64 (ts : Int))]) :: rs)
    else .error .rowEncoding

/-- The batches of a commit (transaction/mod.rs:596-614). -/
def payloads (t : Table) (ts : Nat) (st : Staged) : Except CommitErr (Option (List Row) × Option (List Row)) :=
  match (if (mutations st).1 = [] then .ok none else (buildBatch t.fields (mutations st).1).map some),
    (if (mutations st).2 = [] then .ok none else (buildDeletes t ts (mutations st).2).map some) with
  | .error e, _ => .error e
  | _, .error e => .error e
  | .ok u, .ok d => .ok (u, d)

end Tonbo.Model.Staging
