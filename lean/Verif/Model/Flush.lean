import Verif.Model.SstScan
import Mathlib.Data.List.Sort

/-!
# Writing frozen runs into one table file  (src/ondisk/sstable.rs)

Parquet encoding is trusted: a written file is the list of its rows with their commit timestamps and
the list of its delete sidecar, in the order they were written. Row offsets are not limited to `u32`
(sstable.rs:784, 861), the schemas of all runs are taken to be equal (sstable.rs:768-772), and I/O
errors are not modelled. The WAL identifiers of the descriptor are in `Model/Durable.lean`.
-/

namespace Tonbo.Model.Flush
open Tonbo.Model Tonbo.Model.Mem

/-- Why writing a table fails: no staged segment (sstable.rs:659), columns of different length
(sstable.rs:949), a row without key (sstable.rs:777), an index out of range. -/
inductive Err where
  | noSegments | length | key | panic
deriving Repr, DecidableEq

/-- `StagedTableStats` (sstable.rs:419-427). -/
structure Stats (K : Type) where
  segments : Nat
  rows : Nat
  tombstones : Nat
  minKey : Option K
  maxKey : Option K
  minTs : Option Nat
  maxTs : Option Nat
deriving Repr, DecidableEq

/-- `StagedSegment` (sstable.rs:497-500): rows with their commit timestamps, and deleted keys with
theirs. -/
structure Staged (K R : Type) where
  data : List (R × Nat)
  dels : List (K × Nat)
deriving Repr, DecidableEq

/-- `ParquetTableWriter` (sstable.rs:502-509). -/
structure Writer (K R : Type) where
  stats : Stats K
  segments : List (Staged K R)
  immutables : Nat
deriving Repr, DecidableEq

/-- What was written: the data file, the sidecar and the statistics (sstable.rs:676-688). -/
structure Table (K R : Type) where
  data : List (R × Nat)
  dels : List (K × Nat)
  stats : Stats K
deriving Repr, DecidableEq

variable {K R : Type} [LinearOrder K]

/-- `StagedTableStats::new` (sstable.rs:430-440). -/
def Stats.new : Stats K := ⟨0, 0, 0, none, none, none, none⟩

/-- Lower a least value kept so far (sstable.rs:443-446, 456-459). -/
def lower {α : Type} [LinearOrder α] (cur : Option α) (x : α) : Option α :=
  match cur with
  | some c => if c ≤ x then some c else some x
  | none => some x

/-- Raise a greatest value kept so far (sstable.rs:447-450, 460-463). -/
def raise {α : Type} [LinearOrder α] (cur : Option α) (x : α) : Option α :=
  match cur with
  | some c => if x ≤ c then some c else some x
  | none => some x

/-- `update_key_bounds` (sstable.rs:442-451). -/
def Stats.updateKeys (s : Stats K) (lo hi : K) : Stats K :=
  { s with minKey := lower s.minKey lo, maxKey := raise s.maxKey hi }

/-- `update_commit_bounds` (sstable.rs:455-464). -/
def Stats.updateTs (s : Stats K) (lo hi : Nat) : Stats K :=
  { s with minTs := lower s.minTs lo, maxTs := raise s.maxTs hi }

/-- The key bounds of a segment are applied when it has any (sstable.rs:557-559). -/
def Stats.maybeKeys (s : Stats K) : Option K × Option K → Stats K
  | (some lo, some hi) => s.updateKeys lo hi
  | _ => s

/-- The commit bounds of a segment are applied when it has any (sstable.rs:561-563, 628-630). -/
def Stats.maybeTs (s : Stats K) : Option Nat × Option Nat → Stats K
  | (some lo, some hi) => s.updateTs lo hi
  | _ => s

/-- `seg_min_ts`, `seg_max_ts` over all entries (sstable.rs:535-551, 595-605, 621-625). -/
def tsRange (ts : List Nat) : Option Nat × Option Nat := (ts.foldl lower none, ts.foldl raise none)

/-- `ParquetTableWriter::new` (sstable.rs:512-521). -/
def Writer.new : Writer K R := ⟨Stats.new, [], 0⟩

/-- `append_commit_column` (sstable.rs:945-965). -/
def appendCommit (rows : List R) (ts : List Nat) : Option (List (R × Nat)) :=
  if ts.length ≠ rows.length then none else some (rows.zip ts)

/-- `stage_immutable` (sstable.rs:527-579). `row_iter` yields every index entry, deletions included
(src/inmem/immutable/memtable.rs:463-490). -/
def Writer.stage (w : Writer K R) (m : Imm K R) : Except Err (Writer K R) :=
  if m.rows.length = 0 ∧ m.dkeys.length = 0 then .ok w
  else
    match appendCommit m.rows m.ts with
    | none => .error .length
    | some data =>
      let st := (w.stats.maybeKeys m.keyBounds).maybeTs (tsRange (m.index.map (·.1.ts)))
      .ok {
        stats := { st with
          segments := st.segments + 1
          rows := st.rows + m.rows.length
          tombstones := st.tombstones + (m.index.filter (fun e => e.2.isNone)).length }
        segments := w.segments ++ [⟨data, m.dkeys.zip m.dts⟩]
        immutables := w.immutables + 1 }

/-- `SortKey` (sstable.rs:698-703), with key and timestamp as one component. -/
structure SortKey (K : Type) where
  kt : KT K
  seq : Nat
  row : Nat
deriving Repr, DecidableEq

/-- The comparison of sstable.rs:805-811 and 889-895: key, newer first, larger sequence first, row. -/
def SortKey.le (a b : SortKey K) : Prop :=
  a.kt < b.kt ∨ (a.kt = b.kt ∧ (b.seq < a.seq ∨ (a.seq = b.seq ∧ a.row ≤ b.row)))

instance (a b : SortKey K) : Decidable (SortKey.le a b) := by unfold SortKey.le; infer_instance

/-- The keys of one batch (sstable.rs:778-797, 857-880): there is no sequence column, so the sequence
is the row number in its batch. -/
def batchKeys {α : Type} (keyOf : α → Option K) (off : Nat) : Nat → List (α × Nat) →
    Option (List (SortKey K))
  | _, [] => some []
  | i, (a, t) :: rest =>
    match keyOf a with
    | none => none
    | some k => (batchKeys keyOf off (i + 1) rest).map (⟨⟨k, t⟩, i, off + i⟩ :: ·)

/-- The loop over all segments (sstable.rs:765-797, 847-881). -/
def allKeys {α : Type} (keyOf : α → Option K) : Nat → List (List (α × Nat)) →
    Option (List (SortKey K))
  | _, [] => some []
  | off, b :: bs =>
    match batchKeys keyOf off 0 b with
    | none => none
    | some ks => (allKeys keyOf (off + b.length) bs).map (ks ++ ·)

/-- `sort_data_rows` and `sort_delete_rows` (sstable.rs:750-816, 818-899). `sort_by` is stable, as
insertion sort is. -/
def sortRows {α : Type} (keyOf : α → Option K) (bs : List (List (α × Nat))) :
    Except Err (List (α × Nat)) :=
  match allKeys keyOf 0 bs with
  | none => .error .key
  | some ks =>
    match ((ks.insertionSort SortKey.le).map (·.row)).mapM (bs.flatten[·]?) with
    | none => .error .panic
    | some rows => .ok rows

/-- `normalize_immutable_flush_segments` (sstable.rs:705-720). -/
def normalize (ext : R → Option K) (segs : List (Staged K R)) : Except Err (List (Staged K R)) :=
  if segs.length ≤ 1 then .ok segs
  else
    match sortRows ext (segs.map (·.data)) with
    | .error e => .error e
    | .ok data =>
      match sortRows some (segs.map (·.dels)) with
      | .error e => .error e
      | .ok dels => .ok [⟨data, dels⟩]

/-- Writing the segments one after the other (sstable.rs:673-676, 1054-1068). -/
def writeSegments (stats : Stats K) (segs : List (Staged K R)) : Table K R :=
  { data := segs.flatMap (·.data), dels := segs.flatMap (·.dels), stats := stats }

/-- `ParquetTableWriter::finish` (sstable.rs:653-689). -/
def Writer.finish (ext : R → Option K) (w : Writer K R) : Except Err (Table K R) :=
  if w.stats.segments = 0 then .error .noSegments
  else if 1 < w.immutables then
    match normalize ext w.segments with
    | .error e => .error e
    | .ok segs => .ok (writeSegments w.stats segs)
  else .ok (writeSegments w.stats w.segments)

/-- `SsTableBuilder::add_immutable` for each run, in order (src/db/mod.rs:1117-1120). -/
def stageAll : Writer K R → List (Imm K R) → Except Err (Writer K R)
  | w, [] => .ok w
  | w, m :: ms =>
    match w.stage m with
    | .error e => .error e
    | .ok w' => stageAll w' ms

/-- Flushing runs into one table (src/db/mod.rs:1113-1146). -/
def flush (ext : R → Option K) (ms : List (Imm K R)) : Except Err (Table K R) :=
  match stageAll Writer.new ms with
  | .error e => .error e
  | .ok w => w.finish ext

/-- The rows of the data file with the keys a reader extracts (src/ondisk/scan.rs:557-640). -/
def keyed (ext : R → Option K) (rows : List (R × Nat)) : Option (List (KT K × R)) :=
  rows.mapM (fun p => (ext p.1).map (fun k => (⟨k, p.2⟩, p.1)))

/-- What a reader of the table sees. -/
def Table.file (ext : R → Option K) (t : Table K R) : Option (Sst.File K R) :=
  (keyed ext t.data).map (fun d => { data := d, dels := t.dels.map (fun p => ⟨p.1, p.2⟩) })

end Tonbo.Model.Flush
