import Verif.Model.Lsm
import Verif.Model.Projection

/-!
# A query of a database at rest (src/db/scan.rs:185-373, 1062-1210)

The sources are the mutable table, the frozen runs and the tables of the latest version; what the plan
decides about a table it decides from the statistics recorded in the manifest. Taking the snapshot,
planning and reading are one step here.
-/

namespace Tonbo.Model.Lsm
open Tonbo.Model Tonbo.Model.Manifest Tonbo.Model.Planner
open Tonbo.Model.Keys Tonbo.Model.Pred
open Tonbo.Model.Sst (File)

variable {K : Type} [LinearOrder K]

/-- A listed table as a scan sees it: the recorded statistics (db/scan.rs:287-299) and the content of its
files (sstable.rs:1186-1260). The columns of a data file are those of the table and the commit timestamp
(sstable.rs:1026-1032). `none`: a file is missing. -/
def sstOf (base : Schema) (files : Path → Option (File K Row)) (e : Entry (Info K)) : Option (Plan.Sst K) :=
  (readFile files (some e.info.data) e.info.del).map (fun f =>
    { file := f
      minKey := e.info.stats.bind (·.minKey)
      maxKey := e.info.stats.bind (·.maxKey)
      minTs := e.info.stats.bind (·.minTs)
      schema := base ++ [Proj.commitField] })

/-- The levels of a version (db/scan.rs:274-281). -/
def levelsOf (base : Schema) (files : Path → Option (File K Row)) (v : Version (Info K)) :
    Option (List (List (Plan.Sst K))) :=
  v.ssts.mapM (fun es => es.mapM (sstOf base files))

/-- What a scan of the database reads (db/scan.rs:227-281). -/
def storeOf (base : Schema) (table : Nat) (s : Db K Row) : Option (Plan.Store K) :=
  match snapshotLatest s.kv table with
  | .error _ => none
  | .ok (_, none) => some ⟨s.runs.mem, s.runs.runs, []⟩
  | .ok (_, some v) => (levelsOf base s.files v).map (fun ls => ⟨s.runs.mem, s.runs.runs, ls⟩)

/-- `db.scan().filter(p).projection(proj).limit(limit).collect()` (db/scan.rs:1062-1210) at a given read
timestamp. The outer `none`: the snapshot cannot be taken, or a file is missing. -/
def query (x : Plan.Ext K) (c : Plan.Codec K) (base keys : Schema) (table : Nat) (s : Db K Row) (p : Expr)
    (rts : Nat) (proj : Option Schema) (batchSize : Nat) (limit : Option Nat) :
    Option (Except Proj.Err (Option (List (List Row) × Option EvalErr))) :=
  (storeOf base table s).map (fun st => Proj.scan x c base keys none st p rts proj batchSize limit)

end Tonbo.Model.Lsm
