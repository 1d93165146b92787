import Verif.Model.ScanPlan

/-!
# The columns of a scan
(src/query/scan.rs:460-470, 640-702; src/db/scan.rs:185-373, 487-556, 660-809, 1062-1210;
src/query/stream/package.rs:68-103; src/inmem/mutable/memtable.rs:861-877; src/transaction/mod.rs:228-287)

A scan may ask for some columns only (`ScanBuilder::projection`). Columns are found by name at four places:
when a plan is made, in memory, in a file (which has one column more than the table) and when a row is put
into a batch. `Model/ScanPlan.lean` leaves this out: its rows have all columns up to the end.

`DynProjection::from_schema` and `from_indices` (typed-arrow-dyn) are taken to select cells by position, where
`from_schema` finds a position as `schema_projection_indices` does; a projection that names a column with
another type than the table's is not considered. A missing cell reads as null. The name in an error
message is dropped.
-/

namespace Tonbo.Model.Proj
open Tonbo.Model Tonbo.Model.Mem Tonbo.Model.Pred Tonbo.Model.Plan Tonbo.Model.Bounds

/-- The errors of a scan that concern columns: `DBError::UnsupportedPredicate`, `KeyExtractError::NoSuchField`,
and "projection requires at least one column". -/
inductive Err where
  | bloom (col : String) | noSuchField | noColumns
deriving DecidableEq, Repr

/-- The column of the commit timestamps in files (mvcc/mod.rs:8, sstable.rs:1026-1032). -/
def commitField : String × DType := ("_commit_ts", .int .u64)

mutual

/-- `collect_predicate_columns` (query/scan.rs:682-702). -/
def predCols : Expr → List String
  | .cmp col _ _ => [col]
  | .between col _ _ _ => [col]
  | .inList col _ => [col]
  | .bloomEq col _ => [col]
  | .bloomIn col _ => [col]
  | .startsWith col _ => [col]
  | .isNull col _ => [col]
  | .not e => predCols e
  | .and cs => predColsList cs
  | .or cs => predColsList cs
  | .tt => []
  | .ff => []
  | .other _ => []

/-- The loop over the children (query/scan.rs:695-699). -/
def predColsList : List Expr → List String
  | [] => []
  | c :: cs => predCols c ++ predColsList cs

end

/-- The loops that take from a schema the fields whose names are in a set, every name once
(query/scan.rs:663-668, db/scan.rs:501-509, 582-588): the fields with their numbers, and the names left. -/
def pickNeeded : Nat → Schema → List String → List (Nat × (String × DType)) × List String
  | _, [], needed => ([], needed)
  | i, f :: fs, needed =>
    if f.1 ∈ needed then
      ((i, f) :: (pickNeeded (i + 1) fs (needed.filter (fun n => decide (n ≠ f.1)))).1,
        (pickNeeded (i + 1) fs (needed.filter (fun n => decide (n ≠ f.1)))).2)
    else pickNeeded (i + 1) fs needed

/-- `extend_projection_schema` (query/scan.rs:640-680). -/
def extend (base proj : Schema) (required : List String) : Except Err Schema :=
  if required.all (fun n => proj.any (fun f => f.1 == n)) then .ok proj
  else if (pickNeeded 0 base (proj.map (·.1) ++ required)).2 = [] then
    .ok ((pickNeeded 0 base (proj.map (·.1) ++ required)).1.map (·.2))
  else .error .noSuchField

/-- `schema_projection_indices` (db/scan.rs:537-556). -/
def indices (base target : Schema) : Except Err (List Nat) :=
  match target.mapM (fun f => base.findIdx? (fun g => g.1 == f.1)) with
  | some is => .ok is
  | none => .error .noSuchField

/-- The cells at these positions. -/
def project (is : List Nat) (r : Row) : Row := is.map (fun i => (r[i]?).join)

/-- `build_projection` of the mutable and of a frozen table (memtable.rs:861-877,
immutable/memtable.rs:418-433). -/
def memMap (base scan : Schema) : Except Err (Row → Row) :=
  if scan = [] then .error .noColumns
  else
    match indices base scan with
    | .error e => .error e
    | .ok is => .ok (project is)

/-- The projection of staged rows (transaction/mod.rs:237-250, 263-286). -/
def txnMap (base scan : Schema) : Except Err (Row → Row) :=
  if scan = base then .ok id
  else
    match indices base scan with
    | .error e => .error e
    | .ok is => .ok (project is)

/-- The projection of the packaging step (package.rs:83-90). -/
def packMap (scan result : Schema) : Except Err (Row → Row) :=
  if scan = result then .ok id
  else
    match indices scan result with
    | .error e => .error e
    | .ok is => .ok (project is)

/-- `sst_projection_from_metadata` (db/scan.rs:487-521): the fields that are read from a file, and their
positions. -/
def sstProjection (file scan keys : Schema) : Except Err (Schema × List Nat) :=
  let q := pickNeeded 0 file (scan.map (·.1) ++ keys.map (·.1) ++ [commitField.1])
  if q.2 = [] then .ok (q.1.map (·.2), q.1.map (·.1)) else .error .noSuchField

/-- A row as it is stored in a file (sstable.rs:944-965). -/
def stored (ts : Nat) (r : Row) : Row := r ++ [some (.int .u64 (ts : Int))]

/-- How the scan of a file treats a stored row (db/scan.rs:736-741, ondisk/scan.rs:587-591, 645-655): the
columns of the scan and the key columns. -/
def sstMap (file scan keys : Schema) : Except Err ((Row → Row) × (Row → Row)) :=
  match sstProjection file scan keys with
  | .error e => .error e
  | .ok (fields, roots) =>
    match indices fields scan, indices fields keys with
    | .ok is, .ok ks => .ok (fun r => project is (project roots r), fun r => project ks (project roots r))
    | _, _ => .error .noSuchField

/-- `decode_mvcc_from_data` (ondisk/scan.rs:732-754) on one row that is read from a file: the first column of
that name. `none` is an error: the column is not an unsigned 64-bit integer, or null. -/
def readCommit (fields : Schema) (r : Row) : Option Nat :=
  match fields.findIdx? (fun g => g.1 == commitField.1) with
  | none => none
  | some i =>
    match fields[i]?, (r[i]?).join with
    | some f, some (.int .u64 v) => if f.2 = .int .u64 then some v.toNat else none
    | _, _ => none

/-- An entry with its row changed. -/
def mapRow {K R S : Type} (f : KT K → R → S) : Entry K R → Entry K S
  | .row kt r => .row kt (f kt r)
  | .tomb kt => .tomb kt

variable {K : Type} [LinearOrder K]

/-- A plan with its schemas (query/scan.rs:443-458). -/
structure Planned (K : Type) where
  plan : ScanPlan K
  scan : Schema
  result : Schema

/-- Every file can be read (db/scan.rs:300-312, 343-352). -/
def filesOk (keys scan : Schema) (ts : List (Sst K)) : Bool :=
  ts.all (fun t => match sstProjection t.schema scan keys with
    | .ok _ => true
    | .error _ => false)

/-- `plan_scan_with_context` (db/scan.rs:185-373), with columns. `force` is `force_predicate_columns`. -/
def plan (x : Ext K) (c : Codec K) (base keys : Schema) (force : Bool) (st : Store K) (p : Expr) (rts : Nat)
    (proj : Option Schema) : Except Err (Planned K) :=
  match findBloom p with
  | some col => .error (.bloom col)
  | none =>
    match extend base (proj.getD base) (predCols p) with
    | .error e => .error e
    | .ok wide =>
      match Plan.plan x c wide keys force st p rts with
      | .error col => .error (.bloom col)
      | .ok pl =>
        let scan := if force || pl.residual.isSome then wide else proj.getD base
        if filesOk keys wide (st.levels.flatten.filter (statsAllow c (keyBoundsFor keys p) rts)) &&
            filesOk keys scan pl.ssts then
          .ok ⟨pl, scan, proj.getD base⟩
        else .error .noSuchField

/-- Streams with every row changed. -/
def mapStreams {K R S : Type} (f : KT K → R → S) (ss : List (Merge.Prio × List (Entry K R))) :
    List (Merge.Prio × List (Entry K S)) :=
  ss.map (fun s => (s.1, s.2.map (mapRow f)))

/-- Sources of one kind: opening one fails if its columns cannot be found (db/scan.rs:673-720, 1103-1116).
`need` says that there is a source of this kind. -/
def openWith (need : Bool) (m : Except Err (Row → Row)) (ss : Option (List (Merge.Prio × List (Entry K Row)))) :
    Except Err (Option (List (Merge.Prio × List (Entry K Row)))) :=
  if need then
    match m with
    | .error e => .error e
    | .ok f => .ok (ss.map (mapStreams (fun _ => f)))
  else .ok ss

/-- The files (db/scan.rs:722-806). -/
def openFiles (x : Ext K) (keys scan : Schema) (pl : ScanPlan K) (p : Expr) (rts : Nat) :
    List (Sst K) → Except Err (Option (List (Merge.Prio × List (Entry K Row))))
  | [] => .ok (some [])
  | t :: ts =>
    match sstMap t.schema scan keys, openFiles x keys scan pl p rts ts with
    | .ok f, .ok rest =>
      .ok ((sstScan x p pl.pushdown rts t).bind (fun o =>
        rest.map (fun r => (Merge.Prio.sstable, o.map (mapRow (fun kt r => f.1 (stored kt.ts r)))) :: r)))
    | .error e, _ => .error e
    | _, .error e => .error e

/-- `build_scan_streams` (db/scan.rs:660-809). `overlay` are the staged entries of a transaction, if there are
any. -/
def openAll (x : Ext K) (base keys : Schema) (overlay : Option (List (Entry K Row))) (st : Store K) (q : Planned K)
    (p : Expr) (rts : Nat) : Except Err (Option (List (Merge.Prio × List (Entry K Row)))) :=
  match openWith overlay.isSome (txnMap base q.scan) (some (overlay.toList.map (fun o => (Merge.Prio.txn, o)))),
    openWith q.plan.readMem (memMap base q.scan) (memStream st q.plan rts),
    openWith (!(q.plan.immIndexes.filterMap (fun i => st.imms[i]?)).isEmpty) (memMap base q.scan) (immStreams st q.plan rts),
    openFiles x keys q.scan q.plan p rts q.plan.ssts with
  | .ok a, .ok b, .ok c, .ok d => .ok (a.bind fun a => b.bind fun b => c.bind fun c => d.map fun d => a ++ b ++ c ++ d)
  | .error e, _, _, _ => .error e
  | _, .error e, _, _ => .error e
  | _, _, .error e, _ => .error e
  | _, _, _, .error e => .error e

/-- `ScanBuilder::collect` (db/scan.rs:1062-1210): `proj` is the projection asked for, if any. The inner option is a
panic. -/
def scan (x : Ext K) (c : Codec K) (base keys : Schema) (overlay : Option (List (Entry K Row))) (st : Store K)
    (p : Expr) (rts : Nat) (proj : Option Schema) (batchSize : Nat) (limit : Option Nat) :
    Except Err (Option (List (List Row) × Option EvalErr)) :=
  match plan x c base keys overlay.isSome st p rts proj with
  | .error e => .error e
  | .ok q =>
    match openAll x base keys overlay st q p rts with
    | .error e => .error e
    | .ok none => .ok none
    | .ok (some []) => .ok (some ([], none))
    | .ok (some (s :: ss)) =>
      match packMap q.scan q.result with
      | .error e => .error e
      | .ok g => .ok (Package.scanStreams (q.plan.residual.map (fun e => matchesOwned x.pc q.scan e)) g batchSize limit
          ((s :: ss).map (fun s => (s.1, s.2.map some))))

end Tonbo.Model.Proj
