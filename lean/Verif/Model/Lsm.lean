import Verif.Model.Outcome
import Verif.Model.Compact
import Verif.Model.SstScan

/-!
# Flushes and compactions on one table: memory, files, manifest
(src/db/mod.rs:1093-1204, src/compaction/{minor,executor,driver,orchestrator,scheduler}.rs, src/db/builder.rs:1621-1647)

A state and the atomic steps of the threads that work on it; every interleaving of steps is a list of
operations. Left out: I/O errors (see `Model/LsmFail.lean`), the WAL (its segment lists are operands of the steps; see
`Model/Durable.lean`), leases (never checked: driver.rs:678-683), metrics and logging.
-/

namespace Tonbo.Model.Lsm
open Tonbo.Model Tonbo.Model.Manifest Tonbo.Model.Planner Tonbo.Model.Outcome
open Tonbo.Model.Mem (Imm Runs)
open Tonbo.Model.Sst (File)
open Tonbo.Model.Compact (OTable Heap fileBatches)

/-- `LocalCompactionExecutor` and the settings of its merges (executor.rs:216-223). `readRows` is the
batch size of the Parquet reader, `bytesOf` the size of a data file once written, `order` the order in
which a `HashMap` yields its entries. -/
structure Exec (K R : Type) [LinearOrder K] where
  maxRows : Option Nat
  maxBytes : Option Nat
  chunkRows : Nat
  readRows : Nat
  sizeData : KT K × R → Nat
  sizeDel : KT K → Nat
  bytesOf : File K R → Nat
  heap : Heap K
  order : List (Nat × List Nat) → List (Nat × List Nat)
  orderPerm : ∀ l, (order l).Perm l

/-- A write that waits for its entry in the manifest: the edits and the head they expect (`none` for
the unconditional edits of a flush), the tables it replaces, the files written for it and the garbage
it leaves. -/
structure Pending (K : Type) where
  expected : Option (Option Nat)
  edits : List (Edit (Info K))
  inputs : List (Desc K)
  outputs : List (Desc K)
  gc : Option GcPlan
deriving Repr, DecidableEq

/-- Progress of the flush that holds `flush_lock` (db/mod.rs:1099); the number counts the runs it
took. -/
inductive Flushing (K : Type) where
  | idle
  | written (p : Pending K) (count : Nat)
  | published (count : Nat)
deriving Repr, DecidableEq

/-- One table of a database: its memory (`mem`, `seal_state.immutables`), the version manifest, the
table files, the identifier allocator, the recorded GC plan and the unfinished work. -/
structure Db (K R : Type) where
  runs : Runs K R
  kv : Kv (Info K)
  files : Path → Option (File K R)
  next : Nat
  gc : Option GcPlan
  flushing : Flushing K
  jobs : List (Pending K)

variable {K R : Type} [LinearOrder K]

/-- `default_output_bytes_for_level` (executor.rs:268-277), with the size reached so far. Sizes are
unbounded: the saturated product is above the hard cap anyway. -/
def levelBytes : Nat → Nat → Nat
  | 0, size => min size (512 * 1024 * 1024)
  | l + 1, size =>
    if 512 * 1024 * 1024 ≤ size * 10 then 512 * 1024 * 1024 else levelBytes l (size * 10)

/-- `default_output_bytes_for_level` (executor.rs:268-277, 225-227). -/
def defaultBytes (level : Nat) : Nat := levelBytes level (128 * 1024 * 1024)

/-- `output_caps_for_level` (executor.rs:279-286). -/
def caps (x : Exec K R) (level : Nat) : Option Nat × Option Nat :=
  (x.maxRows, x.maxBytes.or (some (defaultBytes level)))

/-- `SsTableStats::from_staged` (sstable.rs:482-492). -/
def statsOf (s : Flush.Stats K) (bytes : Nat) : SStats K :=
  ⟨s.rows, bytes, s.tombstones, s.minKey, s.maxKey, s.minTs, s.maxTs⟩

/-- The descriptor of a written table (sstable.rs:680-688, 1109-1113): the sidecar is named only if it
has entries. -/
def descOf (x : Exec K R) (level id : Nat) (f : File K R) (s : Flush.Stats K) (wal : Option (List Nat)) :
    Desc K :=
  ⟨id, level, some (statsOf s (x.bytesOf f)), wal, some ⟨level, id⟩,
    if f.dels = [] then none else some ⟨level, id⟩⟩

/-- Opening a table for reading (sstable.rs:1186-1260): without sidecar path there are no deletions.
`none`: a missing path or file. -/
def readFile (files : Path → Option (File K R)) (data : Option Path) (del : Option Path) : Option (File K R) :=
  match data with
  | none => none
  | some p =>
    match files p with
    | none => none
    | some f => some (if del = none then { f with dels := [] } else f)

/-- Opening all inputs of a merge (merge.rs:667-685). -/
def readAll (files : Path → Option (File K R)) : List (Desc K) → Option (List (File K R))
  | [] => some []
  | d :: ds =>
    match readFile files d.data d.del with
    | none => none
    | some f =>
      match readAll files ds with
      | none => none
      | some fs => some (f :: fs)

/-- Writing a file. -/
def setFile (files : Path → Option (File K R)) (p : Path) (f : Option (File K R)) : Path → Option (File K R) :=
  fun q => if q = p then f else files q

/-- The files of the output tables of a merge, written below the directory of the level
(sstable.rs:1016, 1131-1150). -/
def writeAll (files : Path → Option (File K R)) (level : Nat) : List (OTable K R) → Path → Option (File K R)
  | [] => files
  | t :: ts => writeAll (setFile files ⟨level, t.id⟩ (some t.file)) level ts

/-- `cleanup_descriptors` (merge.rs:950-963). -/
def cleanup (files : Path → Option (File K R)) : List (Desc K) → Path → Option (File K R)
  | [] => files
  | d :: ds =>
    match d.data with
    | none => cleanup files ds
    | some p => cleanup (setFile files p none) ds

/-- The WAL identifiers of all inputs (merge.rs:680-685). -/
def inputWal (ds : List (Desc K)) : List Nat := (ds.filterMap (·.wal)).flatten

/-- The settings of the merge of a job (executor.rs:318-323, merge.rs:467-520). -/
def mergeCfg (x : Exec K R) (level target : Nat) (ds : List (Desc K)) : Compact.Cfg K R :=
  ⟨target, (caps x level).1, (caps x level).2, x.chunkRows, none, Compact.walIds (inputWal ds), x.sizeData, x.sizeDel⟩

/-- `CompactionError` (executor.rs:180-196) and the errors of planning. -/
inductive Err where
  | noInputs | io | merge (e : Compact.Err) | missingPath | plan (e : Planner.Err) | manifest (e : Manifest.Err)
deriving Repr, DecidableEq

/-- The allocator after a merge that took the identifiers `ids`; `skip` counts those taken by others
or thrown away. -/
def allocated (next : Nat) (ids : List Nat) (skip : Nat) : Nat := ids.foldl max next + 1 + skip

/-- `LocalCompactionExecutor::execute` (executor.rs:295-370): identifiers, files and descriptors of
the outputs. A failing merge removes what it wrote (merge.rs:660-665). -/
def execute (x : Exec K R) (s : Db K R) (level : Nat) (inputs : List (Desc K)) (skip : Nat) :
    Db K R × Except Err (List (Desc K)) :=
  if inputs = [] then (s, .error .noInputs)
  else
    match readAll s.files inputs with
    | none => ({ s with next := allocated s.next [] skip }, .error .io)
    | some fs =>
      match Compact.execute (mergeCfg x level s.next inputs) x.heap (some (s.next + 1))
          (fs.map (fileBatches x.readRows)) with
      | .error e => ({ s with next := allocated s.next [] skip }, .error (.merge e))
      | .ok tables =>
        ({ s with files := writeAll s.files level tables, next := allocated s.next (tables.map (·.id)) skip },
          .ok (tables.map (fun t => descOf x level t.id t.file t.stats t.wal)))

/-- How the first half of a job ends. -/
inductive Started (K : Type) where
  /-- `Ok(None)`: nothing to do any more -/
  | skipped
  | failed (e : Err)
  /-- `Ok(Some(_))` without edits -/
  | done
  /-- ready to publish -/
  | ready (p : Pending K)

/-- The inputs merged into an outcome (driver.rs:739-760): WAL segments, GC plan, edits. -/
def outcomeOf (v : Version (Info K)) (floor : Option WalRef) (level : Nat) (inputs outs : List (Desc K)) :
    Option (Outcome K) :=
  match fromOutputs outs inputs level with
  | none => none
  | some o => some (reconcile v floor { o with obsolete := inputs.map (·.id) })

/-- `run_scheduled_compaction` up to the manifest call (driver.rs:676-781): the version is read, the
inputs are resolved and merged. `head` is the head noted when the job was scheduled. -/
def start (x : Exec K R) (table : Nat) (s : Db K R) (t : PTask K) (head : Option Nat) (skip : Nat) :
    Db K R × Started K :=
  match snapshotLatest s.kv table with
  | .error e => (s, .failed (.manifest e))
  | .ok (_, none) => (s, .skipped)
  | .ok (h, some v) =>
    if head ≠ none ∧ h.last ≠ head then (s, .skipped)
    else
      match resolve v t.input with
      | .error e => (s, .failed (.plan e))
      | .ok inputs =>
        match execute x s t.target inputs skip with
        | (s', .error e) => (s', .failed e)
        | (s', .ok outs) =>
          match outcomeOf v ((walFloor s.kv table).toOption.join) t.target inputs outs with
          | none => ({ s' with files := cleanup s'.files outs }, .failed .missingPath)
          | some o =>
            match gcPlan o with
            | none => (s', .failed .missingPath)
            | some plan =>
              if toEdits x.order o = [] then (s', .done)
              else (s', .ready ⟨some (head.or h.last), toEdits x.order o, inputs, outs, plan⟩)

/-- The manifest call of a job and what follows (driver.rs:789-868): the GC plan replaces the recorded
one (manifest/driver.rs:493-505), a refused job removes its files. -/
def finish (table : Nat) (s : Db K R) (p : Pending K) : Db K R × Except Manifest.Err Nat :=
  match apply s.kv table p.edits p.expected with
  | (kv, .ok n) => ({ s with kv := kv, gc := p.gc.or s.gc }, .ok n)
  | (kv, .error e) => ({ s with kv := kv, files := cleanup s.files p.outputs }, .error e)

/-- The edits of a flush (db/mod.rs:1155-1173). -/
def flushEdits (d : Desc K) (refs : Option (List WalRef)) : List (Edit (Info K)) :=
  [.addSsts d.level [⟨d.id, d.wal, ⟨d.stats, d.data.getD ⟨d.level, d.id⟩, d.del⟩⟩]]
    ++ (match d.stats.bind (·.maxTs) with
        | some ts => [.setWatermark ts]
        | none => [])
    ++ (match refs with
        | some r => [.setWal r]
        | none => [])

/-- The WAL identifiers of a flush (db/mod.rs:1121-1131). -/
def flushWal (refs : Option (List WalRef)) : Option (List Nat) :=
  match refs with
  | none => none
  | some [] => none
  | some (r :: rs) => some ((r :: rs).map (·.file))

/-- The first part of a flush (minor.rs:52-93, db/mod.rs:1099-1154): the frozen runs are written to a
new file of level 0. The flush works on the list of runs it copied when it began (db/mod.rs:1099-1112):
the oldest `count` runs, since later runs are added at the end and only the drain of the same flush
removes any. `refs` is what `collect_wal_segment_refs` found, `none` without a WAL. A failing writer
leaves no file; the identifier is spent. -/
def flushWrite (ext : R → Option K) (x : Exec K R) (s : Db K R) (count : Nat) (refs : Option (List WalRef)) :
    Db K R :=
  match s.flushing with
  | .idle =>
    if s.runs.runs.take count = [] then s
    else
      match Flush.flush ext (s.runs.runs.take count) with
      | .error _ => { s with next := s.next + 1 }
      | .ok tab =>
        match tab.file ext with
        | none => { s with next := s.next + 1 }
        | some f =>
          let d := descOf x 0 s.next f tab.stats (flushWal refs)
          { s with
            files := setFile s.files ⟨0, s.next⟩ (some f)
            next := s.next + 1
            flushing := .written ⟨none, flushEdits d refs, [], [d], none⟩ (s.runs.runs.take count).length }
  | _ => s

/-- `finalize_manifest` of a strict commit (transaction/mod.rs:1327-1373): the segments found are recorded
in a version of their own, whatever the head is. An error goes to the caller of a strict commit and is
printed otherwise (`Model/Durable.lean`). With no segments nothing is recorded. -/
def setWal (table : Nat) (s : Db K R) (refs : List WalRef) : Db K R :=
  if refs = [] then s
  else { s with kv := (apply s.kv table [.setWal refs] none).1 }

/-- The manifest call of a flush (db/mod.rs:1174-1176). On an error the flush ends; its file stays. -/
def flushPublish (table : Nat) (s : Db K R) : Db K R :=
  match s.flushing with
  | .written p count =>
    match apply s.kv table p.edits p.expected with
    | (kv, .ok _) => { s with kv := kv, flushing := .published count }
    | (kv, .error _) => { s with kv := kv, flushing := .idle }
  | _ => s

/-- The flushed runs leave the memory (db/mod.rs:1180-1190). -/
def flushDrain (s : Db K R) : Db K R :=
  match s.flushing with
  | .published count =>
    { s with
      runs := { s.runs with
        runs := if count ≤ s.runs.runs.length then s.runs.runs.drop count else [] }
      flushing := .idle }
  | _ => s

/-- The identifiers a version lists. -/
def versionIds (v : Version (Info K)) : List Nat := v.ssts.flatten.map (·.id)

/-- `next_sstable_id` (db/builder.rs:1781-1793). -/
def nextId (vs : List (Version (Info K))) : Nat :=
  match (vs.flatMap versionIds).max? with
  | none => 1
  | some m => m + 1

/-- `sstable_id_allocator_for_table` (db/builder.rs:1621-1647). -/
def allocator (kv : Kv (Info K)) (table : Nat) : Except Manifest.Err Nat :=
  match snapshotLatest kv table with
  | .error e => .error e
  | .ok (_, latest) =>
    let all :=
      match listVersions kv table 0 with
      | .error e => .error e
      | .ok vs => .ok (nextId vs)
    match latest with
    | some v => if v.ssts = [] then all else .ok (nextId [v])
    | none => all

/-- Reopening after a crash: unfinished work and the memory are gone, files and manifest stay. What the
WAL brings back is not part of this model. -/
def reopen (cap table : Nat) (s : Db K R) : Except Manifest.Err (Db K R) :=
  match allocator s.kv table with
  | .error e => .error e
  | .ok n => .ok { s with runs := Runs.new cap, next := n, flushing := .idle, jobs := [] }

/-- The steps. -/
inductive Op (K R : Type) where
  /-- a call on the mutable table -/
  | write (op : Mem.Op K R)
  /-- a flush of all frozen runs writes its file -/
  | flushWrite (refs : Option (List WalRef))
  /-- a flush that began when there were `count` frozen runs writes its file -/
  | flushSome (count : Nat) (refs : Option (List WalRef))
  | flushPublish
  | flushDrain
  /-- a job reads, merges and writes its outputs -/
  | start (t : PTask K) (head : Option Nat) (skip : Nat)
  /-- a waiting job calls the manifest -/
  | finish (i : Nat)
  /-- a strict commit records WAL segments -/
  | setWal (refs : List WalRef)
  /-- a crash, and opening again with a mutable table of this capacity -/
  | reopen (cap : Nat)

/-- One step; a write that fails is `false`. -/
def step (ext : R → Option K) (x : Exec K R) (table : Nat) (s : Db K R) : Op K R → Bool × Db K R
  | .write op => let r := s.runs.call ext op; (r.1, { s with runs := r.2 })
  | .flushWrite refs => (true, flushWrite ext x s s.runs.runs.length refs)
  | .flushSome count refs => (true, flushWrite ext x s count refs)
  | .flushPublish => (true, flushPublish table s)
  | .flushDrain => (true, flushDrain s)
  | .start t head skip =>
    match start x table s t head skip with
    | (s', .ready p) => (true, { s' with jobs := s'.jobs ++ [p] })
    | (s', _) => (true, s')
  | .finish i =>
    match s.jobs[i]? with
    | none => (true, s)
    | some p => (true, (finish table { s with jobs := s.jobs.eraseIdx i } p).1)
  | .setWal refs => (true, setWal table s refs)
  | .reopen cap =>
    match reopen cap table s with
    | .ok s' => (true, s')
    | .error _ => (true, s)

/-- A history. The flag says that no write failed. -/
def run (ext : R → Option K) (x : Exec K R) (table : Nat) : Db K R → List (Op K R) → Bool × Db K R
  | s, [] => (true, s)
  | s, o :: os =>
    let r := step ext x table s o
    let r' := run ext x table r.2 os
    (r.1 && r'.1, r'.2)

/-- A new table: registered in an empty manifest (manifest/bootstrap.rs:192-215), the first identifier
is 1 (db/builder.rs:1781-1793). -/
def Db.new (cap table schemaVersion : Nat) : Db K R :=
  ⟨Runs.new cap, initHead [] table (newHead table schemaVersion), fun _ => none, 1, none, .idle, []⟩

/-- The files of the latest version, level by level (db/scan.rs:660-809 without pruning). `none`: a
file is missing. -/
def tableFiles (s : Db K R) (v : Version (Info K)) : Option (List (File K R)) :=
  v.ssts.flatten.mapM (fun e => readFile s.files (some e.info.data) e.info.del)

/-- The files a reader of the latest version opens. -/
def latestFiles (table : Nat) (s : Db K R) : Option (List (File K R)) :=
  match snapshotLatest s.kv table with
  | .error _ => none
  | .ok (_, none) => some []
  | .ok (_, some v) => tableFiles s v

end Tonbo.Model.Lsm
