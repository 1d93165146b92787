import Verif.Model.LsmScan

/-!
# Several processes on one table
(src/db/builder.rs:1045-1180, 1621-1647, 1781-1793, src/db/mod.rs:662, 766-835, 929-932; docs/overview.md:174, 581)

Any number of processes open one table of one store. The version manifest, its GC plan
(manifest/driver.rs:493-505) and the table files are in the store and are the same for all; each process has its own
memory, its own commit clock, its own allocator of identifiers and its own unfinished work. Nothing else is shared: the
lease of a job is given out by the scheduler of one process and never checked (compaction/driver.rs:678-683).

Logs are left out: no process finds anything in a log when it starts, since each has a log directory of its own
(`WalConfig::wal_dir`) that is empty then. What a process gets from a log is in `Model/Durable.lean`, two processes
that write to one log are in `Model/Fence.lean`. A transaction that writes and deletes at one timestamp is left out, too.
-/

namespace Tonbo.Model.Fleet
open Tonbo.Model Tonbo.Model.Manifest Tonbo.Model.Planner Tonbo.Model.Lsm
open Tonbo.Model.Mem (Runs)
open Tonbo.Model.Sst (File)

/-- What one process has for itself: memory, the next timestamp of its clock, the next identifier, and the flush and the
jobs it runs. -/
structure Proc (K R : Type) where
  runs : Runs K R
  clock : Nat
  next : Nat
  flushing : Flushing K
  jobs : List (Pending K)

/-- The store, and the processes by number. -/
structure Fleet (K R : Type) where
  kv : Kv (Info K)
  files : Path → Option (File K R)
  gc : Option Outcome.GcPlan
  procs : Nat → Proc K R

variable {K R : Type} [LinearOrder K]

/-- A new table that every process has opened (manifest/bootstrap.rs:192-215, db/builder.rs:1781-1793, the clock:
db/mod.rs:662, mvcc/mod.rs:126-130). -/
def Fleet.new (cap table schemaVersion : Nat) : Fleet K R :=
  ⟨initHead [] table (newHead table schemaVersion), fun _ => none, none, fun _ => ⟨Runs.new cap, 0, 1, .idle, []⟩⟩

/-- The store as process `p` sees it. -/
def Fleet.db (s : Fleet K R) (p : Nat) : Db K R :=
  ⟨(s.procs p).runs, s.kv, s.files, (s.procs p).next, s.gc, (s.procs p).flushing, (s.procs p).jobs⟩

/-- What a step of process `p` leaves, and its clock. -/
def Fleet.set (s : Fleet K R) (p clock : Nat) (d : Db K R) : Fleet K R :=
  ⟨d.kv, d.files, d.gc, fun q => if q = p then ⟨d.runs, clock, d.next, d.flushing, d.jobs⟩ else s.procs q⟩

/-- What a process does. -/
inductive Act (K R : Type) where
  /-- `ingest` (db/mod.rs:766-800) -/
  | put (rows : List R)
  /-- a commit that only deletes (transaction/mod.rs:558-746) -/
  | del (keys : List K)
  | freeze
  /-- a flush of the oldest `count` frozen runs writes its file -/
  | flush (count : Nat) (refs : Option (List WalRef))
  | publish
  | drain
  | start (t : PTask K) (head : Option Nat) (skip : Nat)
  | finish (i : Nat)
  | setWal (refs : List WalRef)
  /-- it ends, in whatever way, and opens the table again -/
  | enter (cap : Nat)

/-- The step on memory, files and manifest, where the clock says `c` (`next_commit_ts`, db/mod.rs:776, 929-932). -/
def Act.op (c : Nat) : Act K R → Lsm.Op K R
  | .put rows => .write (.put (rows.map (fun r => (r, c))))
  | .del keys => .write (.del (keys.map (fun k => (k, c))))
  | .freeze => .write .freeze
  | .flush count refs => .flushSome count refs
  | .publish => .flushPublish
  | .drain => .flushDrain
  | .start t head skip => .start t head skip
  | .finish i => .finish i
  | .setWal refs => .setWal refs
  | .enter cap => .reopen cap

/-- The clock afterwards: every write takes a timestamp (mvcc/mod.rs:93-97), whether it succeeds or not; a process that
opens the table begins at zero (`CommitClock::default`, db/mod.rs:662, mvcc/mod.rs:126-130), whatever the table holds: only
the log moves it on (db/mod.rs:756-760). -/
def Act.clock (c : Nat) : Act K R → Nat
  | .put _ => c + 1
  | .del _ => c + 1
  | .enter _ => 0
  | _ => c

/-- A step of process `o.1`. -/
def step (ext : R → Option K) (x : Exec K R) (table : Nat) (s : Fleet K R) (o : Nat × Act K R) : Bool × Fleet K R :=
  let c := (s.procs o.1).clock
  let r := Lsm.step ext x table (s.db o.1) (o.2.op c)
  (r.1, s.set o.1 (o.2.clock c) r.2)

/-- A history: any interleaving. The flag says that no write failed. -/
def run (ext : R → Option K) (x : Exec K R) (table : Nat) : Fleet K R → List (Nat × Act K R) → Bool × Fleet K R
  | s, [] => (true, s)
  | s, o :: os =>
    let r := step ext x table s o
    let r' := run ext x table r.2 os
    (r.1 && r'.1, r'.2)

/-- A full scan in process `p` at a timestamp not before the last version (`snapshot_at`, db/mod.rs:858-885). The version
is read from the store. -/
def readAt (table : Nat) (s : Fleet K R) (p rts : Nat) : Option (List (Mem.Entry K R)) := scanAll table (s.db p) rts

/-- A full scan in process `p` (`begin_snapshot`, db/mod.rs:821-834): at its own clock. -/
def readNow (table : Nat) (s : Fleet K R) (p : Nat) : Option (List (Mem.Entry K R)) :=
  readAt table s p ((s.procs p).clock - 1)

end Tonbo.Model.Fleet
