import Verif.Model.IngestT
import Verif.Model.Recovery

/-!
# The calls that write, from their checks to their answers
(src/db/mod.rs:765-805, src/db/wal.rs:203-209, 426-513, src/transaction/mod.rs:558-674, 1196-1229,
1327-1372)

Every call runs to its end before the next one begins; their interleavings are `Model/Durable.lean`. The
parts that can fail on their own, the log, the policy, the flush, the manifest, the wait for a compaction,
are given by what they answer. What a flush does to the storage is `Model/LsmFail.lean`; reads are not
changed by it (C54), so it is only its answer here.
-/

namespace Tonbo.Model.WriteCall
open Tonbo.Model Tonbo.Model.Mem Tonbo.Model.Wal

variable {A K R : Type} [LinearOrder K]

/-- Key extractor, schema of the table, and how rows and deletions are put into record batches
(db/wal.rs:676-760, transaction/mod.rs:676-724). -/
structure Ctx (A K R : Type) where
  ext : R → Option K
  sch : Sch A K R
  rows : List R → Batch A
  keys : List K → BitVec 64 → Batch A

/-- What the parts answer during one call. -/
structure Env where
  /-- `apply_l0_backpressure` returns (db/mod.rs:773) -/
  back : Bool
  /-- the rows, the deletions can be encoded for the log (wal/frame.rs; C47, C63) -/
  encUp : Bool
  encDel : Bool
  /-- `none`: all frames of the call become durable; `some n`: the log fails when `n` of them are in the
  file -/
  log : Option Nat
  /-- the log fails only after all frames of the call were queued -/
  late : Bool
  /-- the decision of the policy (db/wal.rs:191-200) -/
  freeze : Bool
  /-- `maybe_run_minor_compaction` returns `Ok` -/
  flush : Bool
  /-- `finalize_manifest` returns `Ok` -/
  publish : Bool

/-- The answer, and where an error comes from. -/
inductive Ans where
  | ok
  /-- the checks, a conflict, or the wait before the write -/
  | refused
  /-- the batch cannot be encoded for the log -/
  | encode
  | log
  /-- the memory table refuses the batch -/
  | memory
  | flush
  | publish
deriving DecidableEq, Repr

/-- The calls. Whether the batch has the schema of the table, whether the staged keys conflict and whether
the staged rows can be put into batches (C62) is given. -/
inductive Call (K R : Type) where
  | ingest (schema : Bool) (rows : List R)
  | ingestT (schema : Bool) (rows : List R) (flags : List Bool)
  | commit (fast conflict encodes : Bool) (rows : List R) (keys : List K)

/-- Memory, log, next timestamp, next transaction id. No log: the database is volatile. -/
structure St (A K R : Type) where
  mem : Runs K R
  log : Option (List (Event A))
  clock : Nat
  nextId : Nat

/-- The payload of a memory call in the log, as replay decodes it (wal/frame.rs:300-388; C25). -/
def payload (c : Ctx A K R) (id ts : Nat) : Mem.Op K R → Event A
  | .put rows => .append (BitVec.ofNat 64 id) (c.rows (rows.map (·.1))) (some (BitVec.ofNat 64 ts))
      (.u64 (List.replicate rows.length (some (BitVec.ofNat 64 ts))))
  | .del keys => .delete (BitVec.ofNat 64 id) (c.keys (keys.map (·.1)) (BitVec.ofNat 64 ts)) (some (BitVec.ofNat 64 ts))
  | .freeze => .sealMarker

/-- It can be encoded. -/
def sendable (e : Env) : Mem.Op K R → Bool
  | .put _ => e.encUp
  | .del _ => e.encDel
  | .freeze => true

/-- What is in the file of the frames that were queued. -/
def cut (e : Env) (evs : List (Event A)) : List (Event A) :=
  match e.log with
  | none => evs
  | some n => evs.take n

/-- The begin record of a transaction; ingests write none (transaction/mod.rs:1207, db/mod.rs:777-783). -/
def opening (txn : Bool) (id : Nat) : List (Event A) := if txn then [.begin (BitVec.ofNat 64 id)] else []

/-- The abort record a transaction leaves when a payload cannot be sent (transaction/mod.rs:1224-1226). -/
def closing (txn : Bool) (id : Nat) : List (Event A) := if txn then [.abort (BitVec.ofNat 64 id)] else []

/-- All frames of a call. -/
def frames (c : Ctx A K R) (txn : Bool) (id ts : Nat) (ops : List (Mem.Op K R)) : List (Event A) :=
  opening txn id ++ ops.map (payload c id ts) ++ [.commit (BitVec.ofNat 64 id) (BitVec.ofNat 64 ts)]

/-- How the log answers. -/
inductive LogAns where
  | ok | encode | fails
deriving DecidableEq, Repr

/-- The log part of a call (db/mod.rs:777-795, db/wal.rs:449-479, transaction/mod.rs:616-626, 1196-1229). An
id is taken first. A payload that cannot be encoded ends the call; what was sent before stays. -/
def toLog (c : Ctx A K R) (txn : Bool) (ts : Nat) (ops : List (Mem.Op K R)) (e : Env) (s : St A K R) :
    LogAns × St A K R :=
  match s.log with
  | none => (.ok, s)
  | some l =>
    if ops.all (sendable e) then
      (if e.log.isNone then .ok else .fails,
        { s with log := some (l ++ cut e (frames c txn s.nextId ts ops)), nextId := s.nextId + 1 })
    else
      (.encode, { s with
        log := some (l ++ cut e (opening txn s.nextId ++ (ops.takeWhile (sendable e)).map (payload c s.nextId ts) ++
          closing txn s.nextId))
        nextId := s.nextId + 1 })

/-- The memory calls in order, up to the first that fails (db/wal.rs:488-499, transaction/mod.rs:726-746). -/
def applyOps (ext : R → Option K) : List (Mem.Op K R) → Runs K R → Bool × Runs K R
  | [], t => (true, t)
  | op :: ops, t => if (t.call ext op).1 then applyOps ext ops (t.call ext op).2 else (false, (t.call ext op).2)

/-- What follows the memory calls of an ingest: the policy, then the flush (db/mod.rs:797-803,
db/wal.rs:502-505). -/
def settle (c : Ctx A K R) (e : Env) (s : St A K R) : Ans × St A K R :=
  match if e.freeze then s.mem.call c.ext .freeze else (true, s.mem) with
  | (false, t) => (.memory, { s with mem := t })
  | (true, t) => (if e.flush then .ok else .flush, { s with mem := t })

/-- An ingest behind its checks (db/mod.rs:775-803, db/wal.rs:449-505). -/
def direct (c : Ctx A K R) (ts : Nat) (ops : List (Mem.Op K R)) (e : Env) (s : St A K R) : Ans × St A K R :=
  match toLog c false ts ops e s with
  | (.encode, s) => (.encode, s)
  | (.fails, s) => (.log, s)
  | (.ok, s) =>
    match applyOps c.ext ops s.mem with
    | (false, t) => (.memory, { s with mem := t })
    | (true, t) => settle c e { s with mem := t }

/-- `DB::ingest` (db/mod.rs:765-805). -/
def ingest (c : Ctx A K R) (schema : Bool) (rows : List R) (e : Env) (s : St A K R) : Ans × St A K R :=
  if !schema then (.refused, s)
  else if !e.back then (.refused, s)
  else direct c s.clock [.put (rows.map (fun r => (r, s.clock)))] e { s with clock := s.clock + 1 }

/-- `ingest_with_tombstones` (db/wal.rs:203-209, 426-513): an empty batch is a success without a
timestamp. -/
def ingestT (c : Ctx A K R) (schema : Bool) (rows : List R) (flags : List Bool) (e : Env) (s : St A K R) :
    Ans × St A K R :=
  if !schema then (.refused, s)
  else
    match IngestT.calls c.ext rows flags s.clock with
    | .error .length => (.refused, s)
    | .error .nullKey => (.refused, { s with clock := s.clock + 1 })
    | .ok [] => (.ok, s)
    | .ok ops => direct c s.clock ops e { s with clock := s.clock + 1 }

/-- The memory calls of a commit (transaction/mod.rs:592-614, 726-746). -/
def commitOps (ts : Nat) (rows : List R) (keys : List K) : List (Mem.Op K R) :=
  (if rows = [] then [] else [.put (rows.map (fun r => (r, ts)))]) ++
  (if keys = [] then [] else [.del (keys.map (fun k => (k, ts)))])

/-- The end of a commit that waits (transaction/mod.rs:629-640) and of one that does not (641-656), after
the log has the frames. Without a log nothing is published (657-672). -/
def apply (c : Ctx A K R) (fast : Bool) (ops : List (Mem.Op K R)) (e : Env) (s : St A K R) : Ans × St A K R :=
  match applyOps c.ext ops s.mem with
  | (false, t) => (.memory, { s with mem := t })
  | (true, t) => (if fast || s.log.isNone || e.publish then .ok else .publish, { s with mem := t })

/-- `Transaction::commit` (transaction/mod.rs:558-674) with staged `rows` and `keys`. -/
def commit (c : Ctx A K R) (fast conflict encodes : Bool) (rows : List R) (keys : List K) (e : Env)
    (s : St A K R) : Ans × St A K R :=
  if rows = [] ∧ keys = [] then (.ok, s)
  else if conflict then (.refused, s)
  else if !encodes then (.refused, { s with clock := s.clock + 1 })
  else
    match toLog c true s.clock (commitOps s.clock rows keys) e { s with clock := s.clock + 1 } with
    | (.encode, s') => (.encode, s')
    | (.fails, s') => if fast && e.late then apply c fast (commitOps s.clock rows keys) e s' else (.log, s')
    | (.ok, s') => apply c fast (commitOps s.clock rows keys) e s'

/-- One call. -/
def exec (c : Ctx A K R) (s : St A K R) : Call K R → Env → Ans × St A K R
  | .ingest b rows, e => ingest c b rows e s
  | .ingestT b rows flags, e => ingestT c b rows flags e s
  | .commit f x n rows keys, e => commit c f x n rows keys e s

/-- A call with its answer and the timestamp it had, or would have had. -/
structure Done (K R : Type) where
  call : Call K R
  ans : Ans
  ts : Nat

/-- A sequence of calls. -/
def run (c : Ctx A K R) : St A K R → List (Call K R × Env) → List (Done K R) × St A K R
  | s, [] => ([], s)
  | s, (call, e) :: rest =>
    let r := exec c s call e
    let r' := run c r.2 rest
    (⟨call, r.1, s.clock⟩ :: r'.1, r'.2)

/-- A new database. -/
def start (cap : Nat) (withLog : Bool) : St A K R := ⟨Runs.new cap, if withLog then some [] else none, 0, 0⟩

end Tonbo.Model.WriteCall
