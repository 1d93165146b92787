import Verif.Model.Txn

/-!
# Snapshots of the past  (src/db/mod.rs:855-927)
-/

namespace Tonbo.Model.TimeTravel
open Tonbo.Model Tonbo.Model.Manifest Tonbo.Model.Planner Tonbo.Model.Lsm Tonbo.Model.Txn

variable {K R : Type} [LinearOrder K]

/-- `snapshot_at` (db/mod.rs:855-886): the version, as `list_versions` and `find` select it. The two reads of
the manifest are one step here. The fallback for a missing catalog entry is not modelled. -/
def versionAt (kv : Kv (Info K)) (table ts : Nat) : Except Manifest.Err (Head × Option (Version (Info K))) :=
  match listVersions kv table 0 with
  | .error e => .error e
  | .ok vs =>
    match vs.find? (fun v => decide (v.ts ≤ ts)) with
    | some v => Manifest.snapshotAt kv table v.ts
    | none => snapshotLatest kv table

/-- `snapshot_at` (db/mod.rs:855-886): the snapshot. -/
def openAt (kv : Kv (Info K)) (table ts : Nat) : Except Manifest.Err (Snap K) :=
  match versionAt kv table ts with
  | .error e => .error e
  | .ok (_, v) => .ok ⟨ts, v⟩

/-- `db.snapshot_at(ts).scan(..).collect()`, with nothing happening in between. -/
def scanAt (table : Nat) (s : Db K R) (ts : Nat) : Option (List (Mem.Entry K R)) :=
  match openAt s.kv table ts with
  | .error _ => none
  | .ok sn => scanSnap s sn

/-- `Version` (db/mod.rs:86-95). -/
structure Listed where
  ts : Nat
  ssts : Nat
  bytes : Nat
  levels : Nat
deriving Repr, DecidableEq

/-- The `fold` with `saturating_add` (db/mod.rs:915-917). -/
def satSum (bytes : List Nat) : Nat := bytes.foldl (fun acc b => min (acc + b) (2 ^ 64 - 1)) 0

/-- One element of the answer of `list_versions` (db/mod.rs:907-925). -/
def listed (v : Version (Info K)) : Listed :=
  ⟨v.ts, (v.ssts.map List.length).sum,
   satSum (v.ssts.flatten.filterMap (fun e => e.info.stats.map (fun s => s.bytes))),
   (v.ssts.filter (fun l => !l.isEmpty)).length⟩

/-- `Db::list_versions` (db/mod.rs:901-927). -/
def listVersions (kv : Kv (Info K)) (table limit : Nat) : Except Manifest.Err (List Listed) :=
  match Manifest.listVersions kv table limit with
  | .error e => .error e
  | .ok vs => .ok (vs.map listed)

end Tonbo.Model.TimeTravel
