import Verif.Model.KeyDecl

/-!
# Which batches a table takes
(src/schema.rs, src/mode/mod.rs, src/extractor/extractors.rs:13-31, src/db/mod.rs:766-800, src/db/wal.rs:133-180,
425-505, 521-674, src/transaction/mod.rs:438-446, 503-511, 598-613, src/wal/mod.rs:310-424, src/ondisk/sstable.rs:945-965,
src/db/scan.rs:615-640, 1158-1164)

A batch is its Arrow schema and its number of rows: here only the checks of the schema on the way of a batch are
modelled, from the call to the memory, the log, the files and back. Of the values only the commit column is looked at
(C47). `X` is the metadata but `tonbo.key` and `tonbo.keys`; `default` is no metadata. Encoding and decoding of a batch
in the log (Arrow IPC) keep the schema; batches read from Parquet files have the fields of the file and no metadata
of the schema (arrow-rs).
-/

namespace Tonbo.Model.Accept
open Tonbo.Model

/-- `arrow_schema::Field`. -/
structure Fld (X : Type) where
  core : KeyDecl.Field
  nullable : Bool
  rest : X
deriving Repr, DecidableEq

/-- `arrow_schema::Schema`: compared as a whole, metadata and order of fields included (arrow-schema). -/
structure Sch (X : Type) where
  fields : List (Fld X)
  keys : Option (List Char)
  rest : X
deriving Repr, DecidableEq

/-- What the declaration of a key looks at. -/
def Sch.core {X : Type} (s : Sch X) : KeyDecl.Schema := ⟨s.fields.map (·.core), s.keys⟩

/-- A table: `schema` and the key columns of `extractor` (db/mod.rs, mode/mod.rs:25-32). -/
structure Table (X : Type) where
  schema : Sch X
  cols : List Nat
deriving Repr, DecidableEq

/-- How the key is declared (db/builder.rs:883-938, schema.rs). -/
inductive Decl where
  | col (n : Nat)
  | name (n : List Char)
  | indices (l : List Nat)
  | metadata
  | builder (parts : List (List Char)) (write : Bool)
deriving Repr, DecidableEq

variable {X : Type} [DecidableEq X] [Inhabited X]

/-- The configuration: `DynModeConfig` holds the schema given, or the one `SchemaBuilder` writes `tonbo.keys` to
(schema.rs:86-97, dyn_config.rs:8-114). -/
def configure (s : Sch X) : Decl → Except KeyDecl.Err KeyDecl.Config
  | .col n => KeyDecl.fromKeyCol s.core n
  | .name n => KeyDecl.fromKeyName s.core n
  | .indices l => KeyDecl.fromKeyIndices s.core l
  | .metadata => KeyDecl.fromMetadata s.core
  | .builder ps w => (⟨s.core, ps, w⟩ : KeyDecl.Builder).build

/-- The table: of the schema only `tonbo.keys` can have changed (schema.rs:86-93). -/
def declare (s : Sch X) (d : Decl) : Except KeyDecl.Err (Table X) :=
  match configure s d with
  | .error e => .error e
  | .ok c => .ok ⟨{ s with keys := c.schema.keys }, c.cols⟩

/-! ## Checks -/

/-- `MVCC_COMMIT_COL` (mvcc/mod.rs:8). -/
def commitName : List Char := "_commit_ts".toList

/-- `MVCC_TOMBSTONE_COL` (inmem/immutable/memtable.rs:14). -/
def tombName : List Char := "_tombstone".toList

/-- `Field::new(MVCC_COMMIT_COL, DataType::UInt64, false)`. -/
def commitFld : Fld X := ⟨⟨commitName, .uint64, none⟩, false, default⟩

/-- The column is called so. -/
def called (n : List Char) (f : Fld X) : Bool := decide (f.core.name = n)

/-- `schemas_compatible` (extractors.rs:13-31). -/
def compatible (expected actual : Sch X) : Bool :=
  if expected = actual then true
  else if actual.fields.length = expected.fields.length + 1 then
    if actual.fields.take expected.fields.length = expected.fields then
      match (actual.fields.drop expected.fields.length).head? with
      | some l => called commitName l && decide (l.core.type = .uint64) && !l.nullable
      | none => false
    else false
  else false

/-- `append_commit_column` (wal/mod.rs:343-366): `none` is an error. -/
def appendCommit (s : Sch X) : Option (Sch X) :=
  if s.fields.any (called commitName) then none
  else if s.fields.any (called tombName) then none
  else some { s with fields := s.fields ++ [commitFld] }

/-- `split_commit_column` (wal/mod.rs:371-424): the first column called so is taken out. -/
def splitCommit (s : Sch X) : Option (Sch X) :=
  match s.fields.findIdx? (called commitName) with
  | none => none
  | some i =>
    match s.fields[i]? with
    | some f => if f.core.type = .uint64 then some { s with fields := s.fields.eraseIdx i } else none
    | none => none

/-- `key_schema` (extractors.rs:71-75) and `build_delete_schema` (mode/mod.rs:83-92). -/
def deleteSchema (t : Table X) : Sch X :=
  ⟨t.cols.filterMap (fun i => t.schema.fields[i]?) ++ [commitFld], none, default⟩

/-! ## Writing -/

/-- What becomes of a call. -/
inductive Answer where
  | taken
  /-- `SchemaMismatch`, before anything happened -/
  | mismatch
  /-- `TombstoneLengthMismatch`, before anything happened -/
  | length
  /-- the rows cannot be staged, before anything happened -/
  | staging
  /-- the log refuses; nothing is in memory -/
  | log
  /-- the memory refuses, after the log -/
  | mem
deriving Repr, DecidableEq

/-- The rows on their way: `txn_append` (wal/frame.rs:331-339) if there is a log, then `insert_batch`
(memtable.rs:647-656). -/
def putRows (t : Table X) (log : Bool) (s : Sch X) : Answer :=
  if log && (appendCommit s).isNone then .log
  else if compatible t.schema s then .taken else .mem

/-- The keys on their way: the log takes any delete batch (wal/frame.rs:341-344); `insert_delete_batch`
(memtable.rs:716-720). -/
def putKeys (t : Table X) (s : Sch X) : Answer := if compatible (deleteSchema t) s then .taken else .mem

/-- `ingest` (db/mod.rs:766-800). -/
def ingest (t : Table X) (log : Bool) (s : Sch X) : Answer :=
  if t.schema ≠ s then .mismatch else putRows t log s

/-- Both parts of a batch: the log has both before the memory has one (db/wal.rs:449-505). -/
def both (t : Table X) (log : Bool) (s : Sch X) : Answer :=
  match putRows t log s with
  | .taken => putKeys t (deleteSchema t)
  | a => a

/-- `ingest_with_tombstones` (db/wal.rs:203-209, 426-513) with `partition_batch_for_mutations` (676-724): the part of the rows
has the schema of the batch, the part of the keys the delete schema. -/
def ingestTomb (t : Table X) (log : Bool) (s : Sch X) (rows : Nat) (flags : List Bool) : Answer :=
  if t.schema ≠ s then .mismatch
  else if rows ≠ flags.length then .length
  else if rows = 0 then .taken
  else if flags.all (fun b => !b) then putRows t log s
  else if flags.all id then putKeys t (deleteSchema t)
  else both t log s

/-- The types `row_from_batch` reads (extractors.rs:228-266). -/
def stageable : KeyDecl.DataType → Bool
  | .boolean | .int32 | .int64 | .uint32 | .uint64 | .float32 | .float64 | .utf8 | .binary => true
  | _ => false

/-- `row_from_batch` for all rows (extractors.rs:212-270): columns with a reserved name are left out, so that the row
has too few cells (transaction/mod.rs:487-493); a value of another type is an error. `has i`: column `i` has a value
that is not null. -/
def staged (s : Sch X) (has : Nat → Bool) : Bool :=
  !s.fields.any (fun f => called commitName f || called tombName f) &&
    s.fields.zipIdx.all (fun p => !has p.2 || stageable p.1.core.type)

/-- `upsert_batch` (transaction/mod.rs:438-446) and `commit` (598-613, 726-746): the rows are staged one by one and
written in a batch of the schema of the table. -/
def upsertBatch (t : Table X) (log : Bool) (s : Sch X) (rows : Nat) (has : Nat → Bool) : Answer :=
  if s ≠ t.schema then .mismatch
  else if rows = 0 then .taken
  else if staged s has then putRows t log t.schema else .staging

/-! ## Reading it again -/

/-- Replay of a record of rows: `split_commit_column` when it is decoded (wal/frame.rs:455-505), `apply_dyn_wal_batch`
(db/wal.rs:521-572). -/
def replayRows (t : Table X) (s : Sch X) : Bool :=
  match splitCommit s with
  | none => false
  | some p =>
    if p.fields.any (called tombName) && !t.schema.fields.any (called tombName) then false
    else decide (t.schema = p)

/-- Replay of a record of keys: `apply_dyn_delete_wal_batch` (db/wal.rs:574-640) with the check of the commit column
(642-660). -/
def replayKeys (t : Table X) (s : Sch X) : Bool :=
  if deleteSchema t ≠ s then false
  else
    match s.fields.find? (called commitName) with
    | none => false
    | some f => decide (f.core.type = .uint64) && compatible (deleteSchema t) s

/-- The batches a data file gives: `append_commit_column` (ondisk/sstable.rs:945-965) when it is written; without the
metadata of the schema when it is read. -/
def fileSchema (t : Table X) : Sch X := ⟨t.schema.fields ++ [commitFld], none, default⟩

/-- The key of a row of a data file, for a compaction: `extract_key_at` (ondisk/merge.rs:815-832) checks the
schema. -/
def keyReadable (t : Table X) (s : Sch X) : Bool := compatible t.schema s

/-- The schema of the batches a scan returns: the projection, or the schema of the table (db/scan.rs:615-640,
1158-1164, query/stream/package.rs:68-104). -/
def resultSchema (t : Table X) (projection : Option (Sch X)) : Sch X := projection.getD t.schema

end Tonbo.Model.Accept
