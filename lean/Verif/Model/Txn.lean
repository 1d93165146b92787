import Verif.Model.LsmScan

/-!
# Transactions and ingests on one table, step by step
(src/transaction/mod.rs, src/db/mod.rs:766-836, src/db/wal.rs:133-209)

Any number of threads work on a database. A thread runs one transaction or one ingest at a time; each of
its steps below is atomic: it takes one lock or one turn of an atomic counter. Every interleaving of
threads, freezes, flushes and compactions is a list of operations. Counters are unbounded; errors of the
WAL writer, of row encoding and of the manifest are left out. The log is the sequence of records in the
order the WAL writer receives them; what of it is durable is not part of this model, and `commit` is the
same in strict and fast mode up to the moment it waits for durability. The WAL segments a strict commit
publishes in the manifest (transaction/mod.rs:1327-1374) are left out.
-/

namespace Tonbo.Model.Txn
open Tonbo.Model Tonbo.Model.Manifest Tonbo.Model.Planner Tonbo.Model.Outcome Tonbo.Model.Lsm Tonbo.Model.Mem Tonbo.Model.Merge
open Tonbo.Model.Sst (File)

/-- `DynMutation<DynRow, ()>` (transaction/mod.rs:144-146). -/
inductive Stage (R : Type) where
  | up (r : R)
  | del
deriving Repr, DecidableEq

/-- `Snapshot` (transaction/mod.rs:53-80): the read timestamp and the version of the table. -/
structure Snap (K : Type) where
  rts : Nat
  version : Option (Version (Info K))

/-- `Transaction` with `StagedMutations` (transaction/mod.rs:141-206, 335-350): the staged entries are a
`BTreeMap`. `began` is for stating properties only: how many writes had returned `Ok` when the snapshot
was opened. -/
structure Txn (K R : Type) where
  snap : Snap K
  staged : List (K × Stage R)
  began : Nat

/-- The records sent to the WAL (transaction/mod.rs:1195-1229, db/mod.rs:780-789, db/wal.rs:449-481). -/
inductive Rec (K R : Type) where
  | begin (id : Nat)
  | up (id : Nat) (rows : List R) (ts : Nat)
  | del (id : Nat) (keys : List K) (ts : Nat)
  | commit (id ts : Nat)
deriving Repr, DecidableEq

/-- A write that has its commit timestamp: the upserts and deletes it applies, and for a transaction
its read timestamp and the keys it has locked. `began` as in `Txn`. -/
structure Work (K R : Type) where
  snap : Option Nat
  began : Nat
  ts : Nat
  ups : Option (List R)
  dels : Option (List K)
  held : List K
deriving Repr, DecidableEq

/-- Where a thread is in its call. -/
inductive Proc (K R : Type) where
  | idle
  /-- `begin_snapshot` has read the manifest (db/mod.rs:822-825) -/
  | opening (v : Option (Version (Info K)))
  /-- an open transaction (or a snapshot) -/
  | opened (t : Txn K R)
  /-- `commit` takes its locks (transaction/mod.rs:580-586) -/
  | locking (t : Txn K R) (todo : List K)
  /-- `commit` looks for conflicts (transaction/mod.rs:588-594) -/
  | checking (t : Txn K R) (todo : List K)
  /-- the timestamp is taken, no WAL id yet (transaction/mod.rs:596-616, db/mod.rs:778) -/
  | stamped (w : Work K R)
  /-- records are sent to the WAL (transaction/mod.rs:1195-1229) -/
  | logging (w : Work K R) (todo : List (Rec K R))
  /-- the upserts are applied next (transaction/mod.rs:732-735, db/mod.rs:800) -/
  | upserts (w : Work K R)
  /-- the deletes are applied next (transaction/mod.rs:736-739) -/
  | deletes (w : Work K R)

/-- The database and its threads. For stating properties only: `done` are the writes whose calls returned
`Ok`, in this order; `trace` are the operations on the table so far; `ok` turns false when applying a
write failed. -/
structure Sys (K R : Type) where
  db : Db K R
  clock : Nat
  nextId : Nat
  locks : K → Option Nat
  log : List (Rec K R)
  procs : Nat → Proc K R
  done : List (Work K R)
  trace : List (Lsm.Op K R)
  ok : Bool

variable {K R : Type} [LinearOrder K]

/-- What does not change: the key extractor, the compaction executor, the table, whether there is a
WAL. -/
structure Env (K R : Type) [LinearOrder K] where
  ext : R → Option K
  x : Exec K R
  table : Nat
  wal : Bool

/-- `StagedMutations::entries` (transaction/mod.rs:185-187): the staged keys in order. -/
def Txn.keys (t : Txn K R) : List K := t.staged.map (·.1)

/-- The upserts of `into_mutations` (transaction/mod.rs:198-209). -/
def stagedRows (l : List (K × Stage R)) : List R := l.filterMap (fun p => match p.2 with | .up r => some r | .del => none)

/-- The deletes of `into_mutations` (transaction/mod.rs:198-209). -/
def stagedDels (l : List (K × Stage R)) : List K := l.filterMap (fun p => match p.2 with | .up _ => none | .del => some p.1)

/-- `rows.is_empty()` and `delete_keys.is_empty()` (transaction/mod.rs:598-616): no batch for nothing. -/
def payload {α : Type} (l : List α) : Option (List α) := if l = [] then none else some l

/-- The write of a transaction (transaction/mod.rs:596-616). -/
def workOf (t : Txn K R) (ts : Nat) : Work K R :=
  ⟨some t.snap.rts, t.began, ts, payload (stagedRows t.staged), payload (stagedDels t.staged), t.keys⟩

/-- The write of `ingest` (db/mod.rs:778). -/
def ingestOf (rows : List R) (ts : Nat) : Work K R := ⟨none, 0, ts, some rows, none, []⟩

/-- The records of a write: `write_wal_transaction` (transaction/mod.rs:1205-1220) and `ingest`
(db/mod.rs:780-789), which sends no begin record. -/
def records (w : Work K R) (id : Nat) : List (Rec K R) :=
  (if w.snap.isSome then [.begin id] else [])
    ++ (match w.ups with | some rows => [.up id rows w.ts] | none => [])
    ++ (match w.dels with | some keys => [.del id keys w.ts] | none => [])
    ++ [.commit id w.ts]

/-- A thread moves on. -/
def setProc (s : Sys K R) (p : Nat) (q : Proc K R) : Sys K R :=
  { s with procs := fun i => if i = p then q else s.procs i }

/-- The guards are dropped (transaction/mod.rs:672 and every early return). -/
def release (s : Sys K R) (p : Nat) : Sys K R :=
  { s with locks := fun k => if s.locks k = some p then none else s.locks k }

/-- `mutable_has_conflict || immutable_has_conflict` (transaction/mod.rs:589-590, db/wal.rs:180-189). -/
def conflict (s : Sys K R) (k : K) (rts : Nat) : Bool :=
  Mem.hasConflict s.db.runs.mem k rts || s.db.runs.runs.any (fun m => m.hasConflict k rts)

/-- A call on the memtable that is part of applying a write; if it fails the call of the thread returns
the error. -/
def applyCall (e : Env K R) (s : Sys K R) (p : Nat) (op : Mem.Op K R) (next : Sys K R → Sys K R) : Sys K R :=
  let r := Lsm.step e.ext e.x e.table s.db (.write op)
  if r.1 then next { s with db := r.2, trace := s.trace ++ [.write op] }
  else setProc (release { s with db := r.2, trace := s.trace ++ [.write op], ok := false } p) p .idle

/-- A call returns `Ok`. -/
def finishWork (s : Sys K R) (p : Nat) (w : Work K R) : Sys K R :=
  setProc (release { s with done := s.done ++ [w] } p) p .idle

/-- One step of thread `p` inside its call. A thread that waits for a lock stays where it is. -/
def advance (e : Env K R) (s : Sys K R) (p : Nat) : Sys K R :=
  match s.procs p with
  | .locking t [] => setProc s p (.checking t t.keys)
  | .locking t (k :: ks) =>
    if s.locks k = none then
      setProc { s with locks := fun i => if i = k then some p else s.locks i } p (.locking t ks)
    else s
  | .checking t [] => setProc { s with clock := s.clock + 1 } p (.stamped (workOf t s.clock))
  | .checking t (k :: ks) =>
    if conflict s k t.snap.rts then setProc (release s p) p .idle
    else setProc s p (.checking t ks)
  | .stamped w =>
    if e.wal then setProc { s with nextId := s.nextId + 1 } p (.logging w (records w s.nextId))
    else setProc s p (.upserts w)
  | .logging w [] => setProc s p (.upserts w)
  | .logging w (r :: rs) => setProc { s with log := s.log ++ [r] } p (.logging w rs)
  | .upserts w =>
    match w.ups with
    | none => setProc s p (.deletes w)
    | some rows => applyCall e s p (.put (rows.map (fun r => (r, w.ts)))) (fun s => setProc s p (.deletes w))
  | .deletes w =>
    match w.dels with
    | none => finishWork s p w
    | some keys => applyCall e s p (.del (keys.map (fun k => (k, w.ts)))) (fun s => finishWork s p w)
  | _ => s

/-- What runs beside the calls: freezes, the steps of flushes and compactions. -/
def background : Lsm.Op K R → Bool
  | .write .freeze => true
  | .write _ => false
  | .reopen _ => false
  | _ => true

/-- The operations. `p` is the thread. -/
inductive Op (K R : Type) where
  /-- freeze, flush or compact -/
  | lsm (o : Lsm.Op K R)
  /-- `begin_snapshot` reads the manifest -/
  | readVersion (p : Nat)
  /-- `begin_snapshot` reads the clock -/
  | openTxn (p : Nat)
  | upsert (p : Nat) (r : R)
  | delete (p : Nat) (k : K)
  /-- `abort`, or dropping the transaction -/
  | abort (p : Nat)
  /-- call `commit` -/
  | commit (p : Nat)
  /-- call `ingest` -/
  | ingest (p : Nat) (rows : List R)
  /-- the next step of a running call -/
  | advance (p : Nat)

/-- One operation; one that does not fit the state of its thread does nothing. -/
def step (e : Env K R) (s : Sys K R) : Op K R → Sys K R
  | .lsm o =>
    if background o then
      let r := Lsm.step e.ext e.x e.table s.db o
      { s with db := r.2, trace := s.trace ++ [o], ok := s.ok && r.1 }
    else s
  | .readVersion p =>
    match s.procs p with
    | .idle =>
      match snapshotLatest s.db.kv e.table with
      | .error _ => s
      | .ok (_, v) => setProc s p (.opening v)
    | _ => s
  | .openTxn p =>
    match s.procs p with
    | .opening v => setProc s p (.opened ⟨⟨s.clock - 1, v⟩, [], s.done.length⟩)
    | _ => s
  | .upsert p r =>
    match s.procs p with
    | .opened t =>
      match e.ext r with
      | none => s
      | some k => setProc s p (.opened { t with staged := SMap.insert k (.up r) t.staged })
    | _ => s
  | .delete p k =>
    match s.procs p with
    | .opened t => setProc s p (.opened { t with staged := SMap.insert k .del t.staged })
    | _ => s
  | .abort p =>
    match s.procs p with
    | .opened _ => setProc s p .idle
    | _ => s
  | .commit p =>
    match s.procs p with
    | .opened t => if t.staged = [] then setProc s p .idle else setProc s p (.locking t t.keys)
    | _ => s
  | .ingest p rows =>
    match s.procs p with
    | .idle => setProc { s with clock := s.clock + 1 } p (.stamped (ingestOf rows s.clock))
    | _ => s
  | .advance p => advance e s p

/-- A history. -/
def run (e : Env K R) (s : Sys K R) (ops : List (Op K R)) : Sys K R := ops.foldl (step e) s

/-- A new database: the clock starts at 0 (db/mod.rs:662, mvcc/mod.rs:126-130). -/
def Sys.new (e : Env K R) (cap sv : Nat) : Sys K R :=
  ⟨Db.new cap e.table sv, 0, 1, fun _ => none, [], fun _ => .idle, [], [], true⟩

/-! ## Reading -/

/-- The files of the version in a snapshot (db/scan.rs:273-280). -/
def snapFiles (s : Db K R) : Option (Version (Info K)) → Option (List (File K R))
  | none => some []
  | some v => tableFiles s v

/-- What planning a scan notes of the state (db/scan.rs:212-259, 347-372): which sources are read. -/
structure Plan (K : Type) where
  rts : Nat
  mem : Bool
  imms : List Nat
  version : Option (Version (Info K))

/-- `plan_scan` without predicate (db/scan.rs:185-373): all frozen runs, the mutable table if it has
entries, all files of the snapshot's version. The pruning by timestamps (C12) is left out. -/
def planScan (s : Db K R) (sn : Snap K) : Plan K :=
  ⟨sn.rts, !s.runs.mem.index.isEmpty, List.range s.runs.runs.length, sn.version⟩

/-- The staged mutations as a source (transaction/mod.rs:212-333): all at the read timestamp. -/
def txnStream (staged : List (K × Stage R)) (rts : Nat) : Prio × List (Option (Mem.Entry K R)) :=
  (Prio.txn, staged.map (fun p => some (match p.2 with | .up r => .row ⟨p.1, rts⟩ r | .del => .tomb ⟨p.1, rts⟩)))

/-- `build_scan_streams` (db/scan.rs:660-809), which may run later than planning. -/
def openStreams (s : Db K R) (pl : Plan K) (overlay : Option (List (K × Stage R))) :
    Option (List (Prio × List (Option (Mem.Entry K R)))) :=
  match snapFiles s pl.version with
  | none => none
  | some fs =>
    match (if pl.mem then memStream s.runs.mem pl.rts else some []),
        immStreams (pl.imms.filterMap (fun i => s.runs.runs[i]?)) pl.rts, sstStreams fs pl.rts with
    | some a, some b, some c =>
      some ((match overlay with | some st => [txnStream st pl.rts] | none => []) ++ a ++ b ++ c)
    | _, _, _ => none

/-- The rest of a scan (db/scan.rs:612-658, 1143-1210). -/
def runScan (s : Db K R) (pl : Plan K) (overlay : Option (List (K × Stage R))) : Option (List (Mem.Entry K R)) :=
  match openStreams s pl overlay with
  | none => none
  | some ss => (mergeAll ss none).map (fun tr => tr.filterMap id)

/-- `Snapshot::scan` with nothing happening between planning and opening. -/
def scanSnap (s : Db K R) (sn : Snap K) : Option (List (Mem.Entry K R)) := runScan s (planScan s sn) none

/-- `Transaction::scan` (transaction/mod.rs:476-483). -/
def scanTxn (s : Db K R) (t : Txn K R) : Option (List (Mem.Entry K R)) :=
  runScan s (planScan s t.snap) (some t.staged)

/-- `scan_mutable_rows_at` then `scan_immutable_rows_at` (db/scan.rs:811-861): the visible rows, without
the tombstones. -/
def memRows (s : Db K R) (rts : Nat) : Option (List (K × R) × List (List (K × R))) :=
  match Mem.scan s.runs.mem none rts, s.runs.runs.mapM (fun m => m.scan none rts) with
  | some a, some b => some (a.filterMap entryRow, b.map (·.filterMap entryRow))
  | _, _ => none
where
  entryRow : Mem.Entry K R → Option (K × R)
    | .row kt r => some (kt.key, r)
    | .tomb _ => none

/-- `Transaction::get` with `read_mutable_rows` (transaction/mod.rs:460-470, 532-555): a staged mutation,
else the row in the mutable table, else the row in the first frozen run that has one. -/
def getTxn (s : Db K R) (t : Txn K R) (k : K) : Option (Option R) :=
  match t.staged.find? (fun p => p.1 = k) with
  | some (_, .up r) => some (some r)
  | some (_, .del) => some none
  | none =>
    match memRows s t.snap.rts with
    | none => none
    | some (a, b) => some (((a ++ b.flatten).find? (fun p => p.1 = k)).map (·.2))

end Tonbo.Model.Txn
