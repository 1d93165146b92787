import Verif.Model.Accept

/-!
# The columns of deletions
(src/db/wal.rs:676-750, src/inmem/mutable/memtable.rs:193-280, src/inmem/immutable/memtable.rs:32-87, src/mode/mod.rs:83-92,
src/ondisk/sstable.rs:1198-1260, 1495-1543, src/db/scan.rs:559-602, 770-790, src/ondisk/scan.rs:666-730,
src/ondisk/merge.rs:834-940)

Deletions are kept in batches of their own: the key columns and the commit timestamp. Here they are followed as columns
with names and types, from the batch a user gives to memory, to the sidecar file and to its two readers: queries and
compactions. Elsewhere in the model a deletion is a pair of a key and a timestamp (`Model/Flush.lean`,
`Model/SstScan.lean`, `Model/Compact.lean`); this module says when that is what the columns mean.

Trusted: a Parquet file gives back the columns it was written with (names, types, order, values), `ProjectionMask::roots`
selects whole columns and keeps the order of the file, `take` selects rows. A batch is here its fields and its rows; the
metadata of a schema of deletions is empty everywhere (`Schema::new`). The name in an error is dropped.
-/

namespace Tonbo.Model.Sidecar
open Tonbo.Model Tonbo.Model.Accept

/-- A cell of a column: null, an unsigned 64-bit integer, a value of another type. -/
inductive Cell (V : Type) where
  | null
  | u64 (n : Nat)
  | val (v : V)
deriving Repr, DecidableEq

/-- `arrow_array::RecordBatch` without metadata. -/
structure Batch (X V : Type) where
  fields : List (Fld X)
  rows : List (List (Cell V))
deriving Repr, DecidableEq

/-- What goes wrong. `panic`: an index out of range. -/
inductive Err where
  | noSuchField | mismatch | noCommit | null | unsupported | arrow | bounds | panic
deriving Repr, DecidableEq

variable {X V : Type} [DecidableEq X] [Inhabited X]

/-- `MVCC_SEQUENCE_COL` (ondisk/merge.rs:34, ondisk/sstable.rs:66). -/
def seqName : List Char := "_sequence".toList

/-- `KeyProjection::key_schema` (extractors.rs:71-75, 106-108). -/
def keyFields (t : Table X) : List (Fld X) := t.cols.filterMap (fun i => t.schema.fields[i]?)

/-- `build_delete_schema` (mode/mod.rs:83-92). -/
def delFields (t : Table X) : List (Fld X) := keyFields t ++ [commitFld]

/-- `RecordBatch::column_by_name`, `fields().iter().position(..)`: the first column called so. -/
def column (n : List Char) (fs : List (Fld X)) : Option Nat := fs.findIdx? (called n)

/-- The cell in a column of a row. -/
def cellAt (r : List (Cell V)) (i : Nat) : Except Err (Cell V) :=
  match r[i]? with
  | some c => .ok c
  | none => .error .bounds

/-- `UInt64Array::value`: what a null slot holds is not used (commit columns are not nullable). -/
def asU64 : Cell V → Nat
  | .u64 n => n
  | _ => 0

/-- The number of the column `_commit_ts`, which must be of type `UInt64` (merge.rs:868-873, scan.rs:681-690,
memtable.rs:202-228). -/
def commitColumn (fs : List (Fld X)) : Except Err Nat :=
  match column commitName fs with
  | none => .error .noCommit
  | some i =>
    match fs[i]? with
    | some f => if f.core.type = .uint64 then .ok i else .error .noCommit
    | none => .error .noCommit

/-- The cells of a key: a null is an error (`KeyRow::from_dyn`, extractors.rs:128-136). -/
def keyCells (r : List (Cell V)) : List Nat → Except Err (List (Cell V))
  | [] => .ok []
  | i :: is =>
    match r[i]? with
    | none => .error .bounds
    | some .null => .error .null
    | some c =>
      match keyCells r is with
      | .error e => .error e
      | .ok cs => .ok (c :: cs)

/-- A function on all rows, the first error stops. -/
def each {A B : Type} (f : A → Except Err B) : List A → Except Err (List B)
  | [] => .ok []
  | a :: as =>
    match f a with
    | .error e => .error e
    | .ok b =>
      match each f as with
      | .error e => .error e
      | .ok bs => .ok (b :: bs)

/-! ## From a batch of the user to memory -/

/-- `take` on the key columns (db/wal.rs:738-742). -/
def keyOf (t : Table X) (r : List (Cell V)) : List (Cell V) := t.cols.map (fun i => (r[i]?).getD .null)

/-- `build_delete_batch` (db/wal.rs:719-750) for the rows with these numbers, all with one timestamp. -/
def buildDelete (t : Table X) (rows : List (List (Cell V))) (idxs : List Nat) (ts : Nat) : Batch X V :=
  ⟨delFields t, idxs.map (fun i => keyOf t ((rows[i]?).getD []) ++ [.u64 ts])⟩

/-- `DeleteSidecar`, `DeleteAttachment`: a batch of keys and the timestamps (immutable/memtable.rs:32-35). -/
structure Del (X V : Type) where
  fields : List (Fld X)
  keys : List (List (Cell V))
  ts : List Nat
deriving Repr, DecidableEq

/-- `project_view` of the key projection of the deletions (extractors.rs:114-137, mode/mod.rs:74-77): the first columns of
a batch whose schema is the one of the deletions. -/
def delKey (t : Table X) (fs : List (Fld X)) (r : List (Cell V)) : Except Err (List (Cell V)) :=
  if compatible ⟨delFields t, none, default⟩ ⟨fs, none, default⟩ then keyCells r (List.range (keyFields t).length)
  else .error .mismatch

/-- A row without the column of the timestamp (memtable.rs:253-256). -/
def without (i : Nat) {A : Type} (l : List A) : List A := l.eraseIdx i

/-- `try_insert_delete_batch` (memtable.rs:193-280): the keys of the index with their timestamps, and what is kept for
the sidecar. `RecordBatch::try_new` needs as many columns as the key schema has fields. -/
def insertDelete (t : Table X) (b : Batch X V) : Except Err (List (List (Cell V) × Nat) × Del X V) :=
  match commitColumn b.fields with
  | .error e => .error e
  | .ok ci =>
    match each (delKey t b.fields) b.rows with
    | .error e => .error e
    | .ok ks =>
      if (without ci b.fields).length = (keyFields t).length then
        .ok (ks.zip (b.rows.map (fun r => asU64 ((r[ci]?).getD .null))),
          ⟨keyFields t, b.rows.map (without ci), b.rows.map (fun r => asU64 ((r[ci]?).getD .null))⟩)
      else .error .arrow

/-! ## The file -/

/-- `DeleteSidecar::to_record_batch` (immutable/memtable.rs:67-87). -/
def toBatch (d : Del X V) : Except Err (Batch X V) :=
  if d.keys.length = d.ts.length then
    .ok ⟨d.fields ++ [commitFld], List.zipWith (fun k n => k ++ [.u64 n]) d.keys d.ts⟩
  else .error .arrow

/-- The loop over the fields of a file that takes every required name once (db/scan.rs:582-588, sstable.rs:1529-1534):
the numbers taken, and the names left. -/
def pick : Nat → List (Fld X) → List (List Char) → List Nat × List (List Char)
  | _, [], needed => ([], needed)
  | i, f :: fs, needed =>
    if f.core.name ∈ needed then
      (i :: (pick (i + 1) fs (needed.filter (fun n => decide (n ≠ f.core.name)))).1,
        (pick (i + 1) fs (needed.filter (fun n => decide (n ≠ f.core.name)))).2)
    else pick (i + 1) fs needed

/-- The names a reader of deletions needs (db/scan.rs:576-580, sstable.rs:1225-1229). -/
def required (t : Table X) : List (List Char) := (keyFields t).map (·.core.name) ++ [commitName]

/-- `plan_delete_sidecar_selection` (db/scan.rs:576-602). -/
def queryRoots (t : Table X) (fs : List (Fld X)) : Except Err (List Nat) :=
  if (pick 0 fs (required t)).2 = [] then .ok (pick 0 fs (required t)).1 else .error .noSuchField

/-- `build_projection_mask_for_names` (sstable.rs:1520-1542) with the names of sstable.rs:1225-1229. -/
def compactRoots (t : Table X) (fs : List (Fld X)) : Except Err (List Nat) :=
  let names := if fs.any (called seqName) then required t ++ [seqName] else required t
  if (pick 0 fs names).2 = [] then .ok (pick 0 fs names).1 else .error .noSuchField

/-- A stream with a projection (db/scan.rs:765-781, sstable.rs:1243-1256). -/
def select (roots : List Nat) (b : Batch X V) : Batch X V :=
  ⟨roots.filterMap (fun i => b.fields[i]?), b.rows.map (fun r => roots.filterMap (fun i => r[i]?))⟩

/-! ## The readers -/

/-- One entry, for a query (`DeleteBatchIterator::next`, ondisk/scan.rs:700-730). -/
def queryEntry (t : Table X) (fs : List (Fld X)) (ci : Nat) (r : List (Cell V)) : Except Err (List (Cell V) × Nat) :=
  match delKey t fs r with
  | .error e => .error e
  | .ok k =>
    match cellAt r ci with
    | .error e => .error e
    | .ok c => .ok (k, asU64 c)

/-- The deletions of a batch, for a query (`DeleteBatchIterator`, ondisk/scan.rs:666-730), when the columns are
selected. -/
def queryBatch (t : Table X) (b : Batch X V) : Except Err (List (List (Cell V) × Nat)) :=
  match commitColumn b.fields with
  | .error e => .error e
  | .ok ci => each (queryEntry t b.fields ci) b.rows

/-- The deletions of a file, for a query. -/
def queryRead (t : Table X) (b : Batch X V) : Except Err (List (List (Cell V) × Nat)) :=
  match queryRoots t b.fields with
  | .error e => .error e
  | .ok roots => queryBatch t (select roots b)

/-- `projection_for_columns(batch.schema(), 0..key_len)` (merge.rs:839-841, extractors.rs:58-84). -/
def firstColumns (fs : List (Fld X)) (n : Nat) : Except Err Unit :=
  if n = 0 then .error .arrow
  else if fs.length < n then .error .panic
  else if (fs.take n).all (fun f => KeyDecl.supported f.core.type) then .ok ()
  else .error .unsupported

/-- `sequence_at`, `sequence_at_delete` (merge.rs:883-913): the column `_sequence`, if there is one of type `UInt64`;
otherwise the number of the row. -/
def sequenceAt (fs : List (Fld X)) (r : List (Cell V)) (i : Nat) : Nat :=
  match column seqName fs with
  | none => i
  | some c =>
    match fs[c]? with
    | some f => if f.core.type = .uint64 then asU64 ((r[c]?).getD .null) else i
    | none => i

/-- What a compaction reads of a deletion. -/
structure Read (V : Type) where
  key : List (Cell V)
  ts : Nat
  seq : Nat
deriving Repr, DecidableEq

/-- One entry, for a compaction: `extract_delete_key_at`, `commit_ts_at_delete`, `sequence_at_delete`
(merge.rs:834-847, 864-881, 899-913). -/
def compactEntry (n : Nat) (fs : List (Fld X)) (p : List (Cell V) × Nat) : Except Err (Read V) :=
  match firstColumns fs n with
  | .error e => .error e
  | .ok _ =>
    match keyCells p.1 (List.range n) with
    | .error e => .error e
    | .ok k =>
      match commitColumn fs with
      | .error e => .error e
      | .ok ci =>
        match cellAt p.1 ci with
        | .error e => .error e
        | .ok c => .ok ⟨k, asU64 c, sequenceAt fs p.1 p.2⟩

/-- The deletions of a file, for a compaction (sstable.rs:1222-1256, merge.rs:210-242). -/
def compactRead (t : Table X) (b : Batch X V) : Except Err (List (Read V)) :=
  match compactRoots t b.fields with
  | .error e => .error e
  | .ok roots => each (compactEntry t.cols.length (select roots b).fields) (select roots b).rows.zipIdx

/-- `decode_delete_sidecar` (merge.rs:915-940): the first columns and the timestamps. A slice out of range is a panic. -/
def decode (n : Nat) (b : Batch X V) : Except Err (Del X V) :=
  if b.fields.length < n then .error .panic
  else
    match commitColumn b.fields with
    | .error e => .error e
    | .ok ci =>
      .ok ⟨b.fields.take n, b.rows.map (·.take n), b.rows.map (fun r => asU64 ((r[ci]?).getD .null))⟩

/-- A compaction that copies the deletions of one file to the next (merge.rs:277-289, 915-940, sstable.rs:1058-1066). -/
def copy (t : Table X) (b : Batch X V) : Except Err (Batch X V) :=
  match compactRoots t b.fields with
  | .error e => .error e
  | .ok roots =>
    match decode t.cols.length (select roots b) with
    | .error e => .error e
    | .ok d => toBatch d

end Tonbo.Model.Sidecar
