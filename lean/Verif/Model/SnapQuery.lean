import Verif.Model.TxnQuery

/-!
# A query through a snapshot that is held (src/transaction/mod.rs:60-122; src/db/scan.rs:955-1141)

A snapshot holds a read timestamp and the version of the manifest that was the latest when it was opened. The
query finds the tables of that version; memory it reads as it is at the time of the query.
-/

namespace Tonbo.Model.Lsm
open Tonbo.Model Tonbo.Model.Manifest Tonbo.Model.Planner Tonbo.Model.Keys Tonbo.Model.Pred
open Tonbo.Model.Txn (Stage)

variable {K : Type} [LinearOrder K]

/-- `Snapshot` (transaction/mod.rs:60-75): of the manifest the parts a scan uses. -/
structure Snap (K : Type) where
  rts : Nat
  version : Option (Version (Info K))

/-- `begin_snapshot` (db/mod.rs:821-833), with the read timestamp given; the fallback for a missing catalog entry
(bootstrap.rs:154-173) changes no version. `none`: the manifest cannot be read. -/
def openSnap (table : Nat) (s : Db K Row) (rts : Nat) : Option (Snap K) :=
  match snapshotLatest s.kv table with
  | .error _ => none
  | .ok (_, v) => some ⟨rts, v⟩

/-- What a scan through a snapshot reads (db/scan.rs:227-281). `none`: a file is missing. -/
def storeAt (base : Schema) (snap : Snap K) (s : Db K Row) : Option (Plan.Store K) :=
  match snap.version with
  | none => some ⟨s.runs.mem, s.runs.runs, []⟩
  | some v => (levelsOf base s.files v).map (fun ls => ⟨s.runs.mem, s.runs.runs, ls⟩)

/-- `snapshot.scan(&db)` and `tx.scan()` with what is staged (transaction/mod.rs:107-120, 476-483;
db/scan.rs:1096-1141), with predicate, projection and limit. -/
def querySnap (x : Plan.Ext K) (c : Plan.Codec K) (base keys : Schema) (snap : Snap K) (s : Db K Row)
    (staged : List (K × Stage Row)) (p : Expr) (proj : Option Schema) (batchSize : Nat) (limit : Option Nat) :
    Option (Except Proj.Err (Option (List (List Row) × Option EvalErr))) :=
  (storeAt base snap s).map (fun st =>
    Proj.scan x c base keys (if staged.isEmpty then none else some (staged.map (stagedEntry snap.rts))) st p snap.rts proj
      batchSize limit)

end Tonbo.Model.Lsm
