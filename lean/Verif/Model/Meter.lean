import Verif.Model.Memtable
import Verif.Model.Policy

/-!
# What the seal policy sees, and who asks it
(src/inmem/mutable/metrics.rs, src/inmem/mutable/memtable.rs:510-525, src/db/wal.rs:133-200, 420-510, 560-590,
src/db/mod.rs:760-808, 1069-1091, src/compaction/minor.rs:40-75, src/transaction/mod.rs:726-746)

The tables are those of `Model/Memtable.lean`; the counters are computed beside them, from the same
arguments, branch by branch. `size` is `KeyRow::heap_size` (src/key/row.rs:190-196, 299-315), a function of
the key. Counters do not overflow. Calls come one after another: inserts hold the upgradable lock
(memtable.rs:680, 723); the seal check after an insert is taken to happen before the next one.
-/

namespace Tonbo.Model.Meter
open Tonbo.Model Tonbo.Model.Mem Tonbo.Model.Policy

/-- `MutableMemTableMetrics` (metrics.rs:4-10), without the constant `entry_overhead`. -/
structure Metrics where
  entries : Nat
  inserts : Nat
  replaces : Nat
  keyBytes : Nat
deriving Repr, DecidableEq

/-- `MutableMemTableMetrics::new` (metrics.rs:22-30). -/
def Metrics.new : Metrics := ⟨0, 0, 0, 0⟩

/-- `record_write` (metrics.rs:32-41). -/
def Metrics.recordWrite (m : Metrics) (existing : Bool) (bytes : Nat) : Metrics :=
  if existing then { m with inserts := m.inserts + 1, replaces := m.replaces + 1 }
  else { m with inserts := m.inserts + 1, entries := m.entries + 1, keyBytes := m.keyBytes + bytes }

/-- `reset_counters` (metrics.rs:53-58). -/
def Metrics.reset (_ : Metrics) : Metrics := ⟨0, 0, 0, 0⟩

variable {K R : Type} [LinearOrder K]

/-- `has_existing` (memtable.rs:172-179, 270-277). -/
def hasKey (ix : List (KT K × Loc)) (k : K) : Bool :=
  ix.any (fun e => inBounds (.incl ⟨k, tsMax⟩) (.incl ⟨k, 0⟩) e.1)

/-- The counters in the loops at memtable.rs:169-188 and 267-287; `ix` grows as in `Mem.indexRows`. -/
def meterRows (size : K → Nat) (mk : Nat → Loc) :
    Nat → List (K × Nat) → List (KT K × Loc) → Metrics → Metrics
  | _, [], _, m => m
  | i, (k, t) :: rest, ix, m =>
    meterRows size mk (i + 1) rest (SMap.insert ⟨k, t⟩ (mk i) ix) (m.recordWrite (hasKey ix k) (size k))

/-- The counters after `try_insert_batch` (memtable.rs:140-190). -/
def meterBatch (ext : R → Option K) (size : K → Nat) (s : Inner K R) (rows : List R) (ts : List Nat)
    (m : Metrics) : Metrics :=
  if s.cap ≤ s.batches.length then m
  else
    match rows.mapM ext with
    | none => m
    | some ks => meterRows size (.up s.batches.length) 0 (ks.zip ts) s.index m

/-- The counters after `try_insert_delete_batch` (memtable.rs:193-289). -/
def meterDelete (size : K → Nat) (s : Inner K R) (keys : List (K × Nat)) (m : Metrics) : Metrics :=
  if keys = [] then m
  else if s.cap ≤ s.dels.length then m
  else meterRows size (.dl s.dels.length) 0 keys s.index m

/-- The counters after `seal` (memtable.rs:297-299, 376): an empty table is not reset. -/
def meterSeal (s : Inner K R) (m : Metrics) : Metrics :=
  if s.index = [] then m
  else
    match sealPass1 s s.index ⟨[], [], [], [], []⟩ with
    | none => m
    | some _ => m.reset

/-- The counters after a call on the table (memtable.rs:661-743, `seal_now`). -/
def meterCall (ext : R → Option K) (size : K → Nat) (s : Inner K R) (m : Metrics) : Mem.Op K R → Metrics
  | .put rows =>
    match tryInsertBatch ext s (rows.map (·.1)) (rows.map (·.2)) with
    | .full =>
      match sealInner ext s with
      | (.error _, _) => meterSeal s m
      | (.ok _, s') => meterBatch ext size s' (rows.map (·.1)) (rows.map (·.2)) (meterSeal s m)
    | _ => meterBatch ext size s (rows.map (·.1)) (rows.map (·.2)) m
  | .del keys =>
    match tryInsertDelete s (keys.map (fun p => (some p.1, some p.2))) with
    | .full =>
      match sealInner ext s with
      | (.error _, _) => meterSeal s m
      | (.ok _, s') => meterDelete size s' keys (meterSeal s m)
    | _ => meterDelete size s keys m
  | .freeze => meterSeal s m

/-- `DbInner`: memory, its counters and `SealState::last_seal_at` (src/db/wal.rs:88-95). -/
structure Table (K R : Type) where
  t : Runs K R
  met : Metrics
  lastSeal : Option Nat
deriving Repr, DecidableEq

/-- A new database. -/
def Table.new (cap : Nat) : Table K R := ⟨Runs.new cap, Metrics.new, none⟩

/-- A call on the memtable with what follows (src/db/wal.rs:133-155, 167-178, 495-506, 567-570); some of
these callers do not note the time of the freeze. -/
def call (ext : R → Option K) (size : K → Nat) (note : Bool) (now : Nat) (s : Table K R) (op : Mem.Op K R) :
    Bool × Table K R :=
  match memCall ext s.t.mem op with
  | (.error _, m) => (false, { s with t := { s.t with mem := m }, met := meterCall ext size s.t.mem s.met op })
  | (.ok o, m) =>
    (true, { t := ⟨addRun s.t.runs o, m⟩, met := meterCall ext size s.t.mem s.met op,
             lastSeal := if o.isSome && note then some now else s.lastSeal })

/-- `build_stats` (memtable.rs:510-525); the overhead of an entry is 32 (memtable.rs:136). Bytes of rows
are not counted. -/
def buildStats (s : Table K R) (now : Nat) : MemStats :=
  ⟨s.met.entries, s.met.keyBytes, 32, none, some (s.t.mem.batches.length + s.t.mem.dels.length),
    s.lastSeal.map (now - ·)⟩

/-- `maybe_seal_after_insert` (src/db/wal.rs:191-200). -/
def maybeSeal (ext : R → Option K) (size : K → Nat) (p : SealPolicy) (now : Nat) (s : Table K R) :
    Bool × Table K R :=
  match evaluate p (buildStats s now) with
  | none => (true, s)
  | some _ => call ext size true now s .freeze

/-- What happens to a flush: backpressure says no (src/db/mod.rs:1071-1085), it succeeds, it fails. -/
inductive Flush where
  | stalled | done | failed
deriving Repr, DecidableEq

/-- `maybe_run_minor_compaction` (src/db/mod.rs:1069-1091) with `maybe_compact` (minor.rs:44, 70-93) and the
end of the flush (src/db/mod.rs:1182-1197). Without a threshold there is no minor compaction. -/
def maybeFlush (threshold : Option Nat) (f : Flush) (now : Nat) (s : Table K R) : Bool × Table K R :=
  match threshold with
  | none => (true, s)
  | some n =>
    if f = .stalled then (true, s)
    else if s.t.runs.length < max n 1 then (true, s)
    else if f = .failed then (false, s)
    else (true, { s with t := { s.t with runs := [] }, lastSeal := some now })

/-- What a user configures. -/
structure Cfg where
  policy : SealPolicy
  threshold : Option Nat

/-- The calls of a user: `ingest`, `ingest_with_tombstones`, `commit` of a transaction. A part without rows
is `none` (src/db/wal.rs:430-450, src/transaction/mod.rs:560-600). -/
inductive Op (K R : Type) where
  | ingest (rows : List R) (ts : Nat)
  | ingestTomb (ups : Option (List R)) (dels : Option (List K)) (ts : Nat)
  | commit (ups : Option (List R)) (dels : Option (List K)) (ts : Nat)
deriving Repr, DecidableEq

/-- The rows or keys of a call with its timestamp. -/
def stamp {α : Type} (xs : List α) (ts : Nat) : List (α × Nat) := xs.map (fun x => (x, ts))

/-- The rows of a call (src/db/wal.rs:495-500, `apply_dyn_wal_batch` 521-572): a freeze is not noted. -/
def upPart (ext : R → Option K) (size : K → Nat) (now : Nat) (s : Table K R) (ups : Option (List R)) (ts : Nat) :
    Bool × Table K R :=
  match ups with
  | none => (true, s)
  | some rows => call ext size false now s (.put (stamp rows ts))

/-- The deletions of a call, unless the rows failed (src/db/wal.rs:501-506, 167-178). -/
def delPart (ext : R → Option K) (size : K → Nat) (note : Bool) (now : Nat) (dels : Option (List K)) (ts : Nat) :
    Bool × Table K R → Bool × Table K R
  | (false, s) => (false, s)
  | (true, s) =>
    match dels with
    | none => (true, s)
    | some keys => call ext size note now s (.del (stamp keys ts))

/-- The two parts of a call. -/
def parts (ext : R → Option K) (size : K → Nat) (note : Bool) (now : Nat) (s : Table K R)
    (ups : Option (List R)) (dels : Option (List K)) (ts : Nat) : Bool × Table K R :=
  delPart ext size note now dels ts (upPart ext size now s ups ts)

/-- The seal policy, then the flush (src/db/mod.rs:800-805, src/db/wal.rs:507-510). -/
def settle (ext : R → Option K) (size : K → Nat) (cfg : Cfg) (now : Nat) (f : Flush) :
    Bool × Table K R → Bool × Table K R
  | (false, s) => (false, s)
  | (true, s) =>
    match maybeSeal ext size cfg.policy now s with
    | (false, s') => (false, s')
    | (true, s') => maybeFlush cfg.threshold f now s'

/-- One call at the time `now`. `ingest`: src/db/mod.rs:760-808; `ingest_with_tombstones`:
src/db/wal.rs:420-510; `commit`: src/transaction/mod.rs:726-746 — it asks neither the policy nor for a
flush. The log is not part of this. -/
def step (ext : R → Option K) (size : K → Nat) (cfg : Cfg) (s : Table K R) (now : Nat) (f : Flush) :
    Op K R → Bool × Table K R
  | .ingest rows ts => settle ext size cfg now f (call ext size true now s (.put (stamp rows ts)))
  | .ingestTomb none none _ => (true, s)
  | .ingestTomb ups dels ts => settle ext size cfg now f (parts ext size false now s ups dels ts)
  | .commit ups dels ts => parts ext size true now s ups dels ts

/-- A history of calls, with the time of each and the fate of its flush. -/
def run (ext : R → Option K) (size : K → Nat) (cfg : Cfg) : Table K R → List (Op K R × Nat × Flush) → Table K R
  | s, [] => s
  | s, (op, now, f) :: ops => run ext size cfg (step ext size cfg s now f op).2 ops

/-- What a committed transaction of the log holds (src/db/wal.rs:255-285): rows or deletions. -/
inductive Payload (K R : Type) where
  | up (rows : List R) (ts : Nat)
  | del (keys : List K) (ts : Nat)
deriving Repr, DecidableEq

/-- The call for a payload (src/db/wal.rs:536-591). -/
def Payload.call : Payload K R → Mem.Op K R
  | .up rows ts => .put (stamp rows ts)
  | .del keys ts => .del (stamp keys ts)

/-- One payload of the log when the table is opened (src/db/wal.rs:255-285): the policy is asked after each, the flush
is not; a freeze by the call itself is not noted (src/db/wal.rs:567-570, 586-589). -/
def replayOne (ext : R → Option K) (size : K → Nat) (p : SealPolicy) (now : Nat) (s : Table K R) (x : Payload K R) :
    Bool × Table K R :=
  match Meter.call ext size false now s x.call with
  | (false, s') => (false, s')
  | (true, s') => maybeSeal ext size p now s'

/-- `replay_wal_events` (src/db/wal.rs:211-301) for the payloads of the committed transactions, with the time at which
each is applied. -/
def replay (ext : R → Option K) (size : K → Nat) (p : SealPolicy) :
    Table K R → List (Payload K R × Nat) → Bool × Table K R
  | s, [] => (true, s)
  | s, (x, now) :: xs =>
    match replayOne ext size p now s x with
    | (false, s') => (false, s')
    | (true, s') => replay ext size p s' xs

/-- A database that is opened with the payloads of its log (src/db/mod.rs:680-762); without any it is new. -/
def opened (ext : R → Option K) (size : K → Nat) (p : SealPolicy) (cap : Nat) (xs : List (Payload K R × Nat)) :
    Bool × Table K R := replay ext size p (Table.new cap) xs

end Tonbo.Model.Meter
