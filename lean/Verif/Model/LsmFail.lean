import Verif.Model.Lsm

/-!
# Flushes and compactions whose reads and writes fail
(src/db/mod.rs:1093-1204, src/ondisk/sstable.rs:651-688, 1001-1123, src/ondisk/merge.rs:653-795, 950-963,
src/compaction/executor.rs:295-380, src/compaction/driver.rs:675-872, src/manifest/driver.rs:176-283)

The state is that of `Model/Lsm.lean`; to its steps come those in which the storage refuses something.
A file that was not written to its end cannot be opened and is not there for this model. Retries of a job
whose head was overtaken are not steps of their own: the second attempt never merges (C65).
-/

namespace Tonbo.Model.LsmFail
open Tonbo.Model Tonbo.Model.Manifest Tonbo.Model.Planner Tonbo.Model.Outcome Tonbo.Model.Lsm
open Tonbo.Model.Sst (File)
open Tonbo.Model.Compact (OTable fileBatches)

/-- What the caller of the manifest learns (`session.commit()`, manifest/driver.rs:275): how the call
ended; an error, and nothing was committed; an error, although the call had its effect, as when the answer
of the storage does not arrive. -/
inductive Answer where
  | told | refused | lost
deriving Repr, DecidableEq

variable {K R : Type} [LinearOrder K]

/-- `apply_version_edits_inner` (manifest/driver.rs:176-283) on a storage that answers like this. The flag
says that the caller is told of success. -/
def call (kv : Kv (Info K)) (table : Nat) (edits : List (Edit (Info K))) (expected : Option (Option Nat)) :
    Answer → Kv (Info K) × Bool
  | .told =>
    match apply kv table edits expected with
    | (kv', .ok _) => (kv', true)
    | (kv', .error _) => (kv', false)
  | .refused => (kv, false)
  | .lost => ((apply kv table edits expected).1, false)

/-- `cleanup_descriptors` (merge.rs:950-963): errors are ignored, `keep` tells which files stay. Data file
and sidecar are one here. -/
def cleanupBut (keep : Nat → Bool) (files : Path → Option (File K R)) (ds : List (Desc K)) :
    Path → Option (File K R) :=
  cleanup files (ds.filter (fun d => !keep d.id))

/-- A flush whose writer fails (db/mod.rs:1141, sstable.rs:674-679, 1001-1123), and `left` of its file
stays: nothing removes it. -/
def flushTorn (s : Db K R) (count : Nat) (left : Option (File K R)) : Db K R :=
  match s.flushing with
  | .idle =>
    if s.runs.runs.take count = [] then s
    else { s with files := setFile s.files ⟨0, s.next⟩ left, next := s.next + 1 }
  | _ => s

/-- The manifest call of a flush (db/mod.rs:1174-1176). On an error the flush ends; its file stays and so
do the runs. -/
def flushPublish (table : Nat) (s : Db K R) (a : Answer) : Db K R :=
  match s.flushing with
  | .written p count =>
    match call s.kv table p.edits p.expected a with
    | (kv, true) => { s with kv := kv, flushing := .published count }
    | (kv, false) => { s with kv := kv, flushing := .idle }
  | _ => s

/-- A merge that fails after `done` tables (merge.rs:653-795): the files of these are removed
(`written_desc`, merge.rs:660-665), what is `left` of the one being written is not. Inputs are read while
outputs are written, so a read can fail at any of these points. -/
def executeTorn (x : Exec K R) (s : Db K R) (level : Nat) (inputs : List (Desc K)) (skip done : Nat)
    (left : Option (File K R)) (keep : Nat → Bool) : Db K R :=
  if inputs = [] then s
  else
    match readAll s.files inputs with
    | none => { s with next := allocated s.next [] skip }
    | some fs =>
      match Compact.execute (mergeCfg x level s.next inputs) x.heap (some (s.next + 1))
          (fs.map (fileBatches x.readRows)) with
      | .error _ => { s with next := allocated s.next [] skip }
      | .ok tables =>
        let written := writeAll s.files level (tables.take done)
        let torn :=
          match tables[done]? with
          | none => written
          | some t => setFile written ⟨level, t.id⟩ left
        { s with
          files := cleanupBut keep torn
            ((tables.take done).map (fun t => descOf x level t.id t.file t.stats t.wal))
          next := allocated s.next (tables.map (·.id)) skip }

/-- `run_scheduled_compaction` (driver.rs:676-745) with a merge that fails. -/
def startTorn (x : Exec K R) (table : Nat) (s : Db K R) (t : PTask K) (head : Option Nat) (skip done : Nat)
    (left : Option (File K R)) (keep : Nat → Bool) : Db K R :=
  match snapshotLatest s.kv table with
  | .error _ => s
  | .ok (_, none) => s
  | .ok (h, some v) =>
    if head ≠ none ∧ h.last ≠ head then s
    else
      match resolve v t.input with
      | .error _ => s
      | .ok inputs => executeTorn x s t.target inputs skip done left keep

/-- The manifest call of a job and what follows (driver.rs:783-872). Any error makes the job remove its
outputs; recording the garbage is a call of its own, and may fail (driver.rs:791-796). -/
def finish (table : Nat) (s : Db K R) (p : Pending K) (a : Answer) (keep : Nat → Bool) (gcFails : Bool) : Db K R :=
  match call s.kv table p.edits p.expected a with
  | (kv, true) => { s with kv := kv, gc := if gcFails then s.gc else p.gc.or s.gc }
  | (kv, false) => { s with kv := kv, files := cleanupBut keep s.files p.outputs }

/-- The steps. -/
inductive Op (K R : Type) where
  /-- a step in which nothing fails -/
  | fine (o : Lsm.Op K R)
  /-- a flush of `count` runs cannot write its file -/
  | flushTorn (count : Nat) (left : Option (File K R))
  /-- a flush calls the manifest -/
  | flushPublish (a : Answer)
  /-- a merge fails -/
  | startTorn (t : PTask K) (head : Option Nat) (skip done : Nat) (left : Option (File K R)) (keep : Nat → Bool)
  /-- a waiting job calls the manifest -/
  | finish (i : Nat) (a : Answer) (keep : Nat → Bool) (gcFails : Bool)

/-- One step; a write that fails is `false`. -/
def step (ext : R → Option K) (x : Exec K R) (table : Nat) (s : Db K R) : Op K R → Bool × Db K R
  | .fine o => Lsm.step ext x table s o
  | .flushTorn count left => (true, flushTorn s count left)
  | .flushPublish a => (true, flushPublish table s a)
  | .startTorn t head skip done left keep => (true, startTorn x table s t head skip done left keep)
  | .finish i a keep gcFails =>
    match s.jobs[i]? with
    | none => (true, s)
    | some p => (true, finish table { s with jobs := s.jobs.eraseIdx i } p a keep gcFails)

/-- A history. The flag says that no write failed. -/
def run (ext : R → Option K) (x : Exec K R) (table : Nat) : Db K R → List (Op K R) → Bool × Db K R
  | s, [] => (true, s)
  | s, o :: os =>
    let r := step ext x table s o
    let r' := run ext x table r.2 os
    (r.1 && r'.1, r'.2)

end Tonbo.Model.LsmFail
