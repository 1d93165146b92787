import Verif.Model.Package
import Verif.Model.SstScan
import Verif.Model.KeyBounds

/-!
# Planning a scan and opening its sources
(src/db/scan.rs:185-373, 376-485, 612-809; src/inmem/immutable/mod.rs:11-39)

Rows carry all columns of the table; the projection of the scan is applied at the end only. Files are
taken to exist and to decode. The scan of a snapshot outside a transaction is modelled; the overlay of
a transaction is in `Model/Txn.lean`.
-/

namespace Tonbo.Model.Plan
open Tonbo.Model Tonbo.Model.Mem Tonbo.Model.Pred Tonbo.Model.Keys Tonbo.Model.Bounds
open Tonbo.Model.Sst (File)

/-- How keys of the memtables and files read as lists of cells, and back. The real code has one key
type; here keys are elements of a linear order and key bounds are lists of cells. -/
structure Codec (K : Type) where
  cells : K → Key
  ofCells : Key → K

/-- `SstEntry` with its statistics (src/manifest/domain.rs; src/ondisk/sstable.rs `SsTableStats`). A
missing statistic is `none`. A sidecar exists if it has entries. -/
structure Sst (K : Type) where
  file : File K Row
  minKey : Option K
  maxKey : Option K
  minTs : Option Nat
  schema : Schema

/-- The state a scan reads: `mem`, `seal_state.immutables` and the levels of the version in the
snapshot (src/db/scan.rs:273-280). -/
structure Store (K : Type) where
  mem : Inner K Row
  imms : List (Imm K Row)
  levels : List (List (Sst K))

/-- What other crates compute: comparison of scalars of one type (datafusion), the Parquet row filter
(src/db/scan.rs:742-748, aisle and parquet) and the selection of row groups and pages
(`prune_sst_selection`, src/db/scan.rs:376-485, aisle), which yields the rows that are read. -/
structure Ext (K : Type) where
  pc : Scalar → Scalar → Option Ordering
  rowFilter : Expr → Row → Bool
  select : Expr → Nat → Sst K → List (KT K × Row)

variable {K : Type} [LinearOrder K]

/-- The key bounds overlap a source with these extreme keys (db/scan.rs:239-244, 287-293;
immutable/mod.rs:25-32). -/
def mayOverlap (c : Codec K) (b : Option KeyBounds) : Option K → Option K → Bool
  | some mn, some mx =>
    match b with
    | none => true
    | some b => overlaps b (c.cells mn) (c.cells mx)
  | _, _ => true

/-- Some commit may be visible (db/scan.rs:246-250, 295-299; immutable/mod.rs:33-37). -/
def mayBeVisible (minTs : Option Nat) (rts : Nat) : Bool :=
  match minTs with
  | none => true
  | some t => !decide (rts < t)

/-- One segment of `prune_segments` is kept (src/inmem/immutable/mod.rs:21-37). Without a least key
the segment is kept before its commits are looked at. -/
def keepSegment (c : Codec K) (b : Option KeyBounds) (rts : Nat) (m : Imm K Row) : Bool :=
  if m.index.length = 0 then false
  else if b.isSome && !(m.keyBounds.1.isSome && m.keyBounds.2.isSome) then true
  else mayOverlap c b m.keyBounds.1 m.keyBounds.2 &&
    mayBeVisible (m.commitTsBounds.map (·.1)) rts

/-- `prune_segments` (src/inmem/immutable/mod.rs:11-39): the indexes of the segments kept. -/
def pruneSegments (c : Codec K) (b : Option KeyBounds) (rts : Nat) (ms : List (Imm K Row)) : List Nat :=
  (List.range ms.length).filter (fun i =>
    match ms[i]? with
    | none => false
    | some m => keepSegment c b rts m)

/-- The mutable table is read (db/scan.rs:227-258): `mutable_row_set` is not empty. -/
def keepMutable (c : Codec K) (b : Option KeyBounds) (rts : Nat) (s : Inner K Row) : Bool :=
  if s.index.length = 0 then false
  else mayOverlap c b (keyBounds s).1 (keyBounds s).2 &&
    mayBeVisible ((commitTsBounds s).map (·.1)) rts

/-- A file passes the checks on its statistics (db/scan.rs:281-299). -/
def statsAllow (c : Codec K) (b : Option KeyBounds) (rts : Nat) (t : Sst K) : Bool :=
  (match b with
   | none => true
   | some b' => !b'.empty) &&
  mayOverlap c b t.minKey t.maxKey && mayBeVisible t.minTs rts

/-- A file is read (db/scan.rs:281-312): it is left out if no rows are selected and it has no
sidecar. -/
def keepSst (x : Ext K) (c : Codec K) (b : Option KeyBounds) (p : Expr) (rts : Nat) (t : Sst K) : Bool :=
  statsAllow c b rts t && !((x.select p rts t).isEmpty && t.file.dels.isEmpty)

/-- `ScanPlan` (src/query/scan.rs:443-458), without the schemas. -/
structure ScanPlan (K : Type) where
  immIndexes : List Nat
  readMem : Bool
  range : Option (Bnd K × Bnd K)
  ssts : List (Sst K)
  pushdown : Option Expr
  residual : Option Expr

/-- Bounds with their keys translated. -/
def bndMap (c : Codec K) : Bnd Key → Bnd K
  | .incl k => .incl (c.ofCells k)
  | .excl k => .excl (c.ofCells k)
  | .unb => .unb

/-- `matches!(predicate, Expr::True)`. -/
def isTrue : Expr → Bool
  | .tt => true
  | _ => false

/-- The residual predicate (db/scan.rs:207-208, 268-275, 337-342). `force` is
`force_predicate_columns`, set by scans of a transaction; `sstNeedsAll` says that the predicate cannot
be split for the schema of some file. -/
def residualFor (schema keySchema : Schema) (p : Expr) (force hasNonSst sstNeedsAll : Bool) :
    Option Expr :=
  let nonSst :=
    if force && !isTrue p then some p
    else if hasNonSst then (splitNonSst keySchema p).residual
    else none
  if sstNeedsAll && !isTrue p then some p
  else combineWithAnd (splitRowFilter schema p).residual nonSst

/-- `plan_scan_with_context` (db/scan.rs:185-373). -/
def plan (x : Ext K) (c : Codec K) (schema keySchema : Schema) (force : Bool) (st : Store K)
    (p : Expr) (rts : Nat) : Except String (ScanPlan K) :=
  match findBloom p with
  | some col => .error col
  | none =>
    let b := keyBoundsFor keySchema p
    let imm := pruneSegments c b rts st.imms
    let readMem := keepMutable c b rts st.mem
    let ssts := st.levels.flatten.filter (keepSst x c b p rts)
    let needsAll := ssts.any (fun t => (splitRowFilter t.schema p).residual.isSome)
    .ok {
      immIndexes := imm
      readMem := readMem
      range := (keyRangeFor keySchema p).map (fun q => (bndMap c q.1, bndMap c q.2))
      ssts := ssts
      pushdown := if ssts.isEmpty then none else (splitRowFilter schema p).pushdown
      residual := residualFor schema keySchema p force (readMem || !imm.isEmpty) needsAll }

/-- The row filter handed to the Parquet reader (db/scan.rs:742-748). -/
def keepRow (x : Ext K) (pushdown : Option Expr) (r : Row) : Bool :=
  match pushdown with
  | none => true
  | some q => x.rowFilter q r

/-- The data rows a file scan reads, and the filter applied to them (db/scan.rs:742-756). -/
def sstScan (x : Ext K) (p : Expr) (pushdown : Option Expr) (rts : Nat) (t : Sst K) :
    Option (List (Entry K Row)) :=
  Model.Sst.scan { data := x.select p rts t, dels := t.file.dels } (keepRow x pushdown) rts

/-- The stream over the mutable table (db/scan.rs:688-702). -/
def memStream (st : Store K) (pl : ScanPlan K) (rts : Nat) :
    Option (List (Merge.Prio × List (Entry K Row))) :=
  if pl.readMem then (scan st.mem pl.range rts).map (fun o => [(Merge.Prio.mutable, o)])
  else some []

/-- The streams over the frozen runs (db/scan.rs:704-720): an index without a run is skipped. -/
def immStreams (st : Store K) (pl : ScanPlan K) (rts : Nat) :
    Option (List (Merge.Prio × List (Entry K Row))) :=
  (pl.immIndexes.filterMap (fun i => st.imms[i]?)).mapM
    (fun m => (m.scan pl.range rts).map (fun o => (Merge.Prio.immutable, o)))

/-- The streams over the files (db/scan.rs:722-806). -/
def sstStreams (x : Ext K) (pl : ScanPlan K) (p : Expr) (rts : Nat) :
    Option (List (Merge.Prio × List (Entry K Row))) :=
  pl.ssts.mapM (fun t => (sstScan x p pl.pushdown rts t).map (fun o => (Merge.Prio.sstable, o)))

/-- `build_scan_streams` without a transaction (db/scan.rs:660-809). `none` is a panic. -/
def streams (x : Ext K) (st : Store K) (pl : ScanPlan K) (p : Expr) (rts : Nat) :
    Option (List (Merge.Prio × List (Entry K Row))) :=
  (memStream st pl rts).bind fun a =>
    (immStreams st pl rts).bind fun b =>
      (sstStreams x pl p rts).map fun c => a ++ b ++ c

/-- A scan from start to end (db/scan.rs:612-658, 1160-1210). Sources answer at once; that their
readiness does not matter is `Props.C05.readiness_irrelevant`. -/
def scanStore {Q : Type} (x : Ext K) (c : Codec K) (schema keySchema : Schema) (st : Store K)
    (p : Expr) (rts : Nat) (proj : Row → Q) (batchSize : Nat) (limit : Option Nat) :
    Except String (Option (List (List Q) × Option EvalErr)) :=
  match plan x c schema keySchema false st p rts with
  | .error e => .error e
  | .ok pl => .ok ((streams x st pl p rts).bind (fun ss =>
      Package.scanStreams (pl.residual.map (fun q => matchesOwned x.pc schema q)) proj batchSize limit
        (ss.map (fun s => (s.1, s.2.map some)))))

end Tonbo.Model.Plan
