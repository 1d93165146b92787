import Verif.Model.WalStore
import Verif.Model.Memtable

/-!
# Replaying the log into the memtable (src/db/wal.rs:94-305, 515-591, src/db/mod.rs:704-763)

What a batch means to the table is a parameter `Sch`: the rows of a batch with the table's schema and
the keys of a batch with its delete schema, `none` when the schema differs. The sealing policy
(`maybe_seal_after_insert`, db/wal.rs:191-200) depends on time and statistics and is an arbitrary
sequence of decisions. Rows of the memtable carry timestamps as numbers.
-/

namespace Tonbo.Model.Wal
open Tonbo.Model Tonbo.Model.Mem

variable {A K R : Type} [LinearOrder K]

/-- The schemas of the table. `rows`: `validate_record_batch_schema` (db/wal.rs:593-609) and the rows;
`keys`: `validate_delete_batch_schema` (db/wal.rs:624-640) and the key rows, `none` for a null key. -/
structure Sch (A K R : Type) where
  rows : Batch A → Option (List R)
  keys : Batch A → Option (List (Option K))

/-- `PendingWalPayload` (db/wal.rs:96-106); the hints are only compared in debug builds. -/
inductive Pend (A : Type) where
  | upsert (b : Batch A) (col : Col A)
  | delete (b : Batch A)
deriving Repr, DecidableEq

/-- The checks of db/wal.rs:548-566 and 642-674 on a commit column: `u64`, no nulls, all equal to the
commit timestamp. -/
def checkColumn (ts : BitVec 64) : Col A → Option (List (BitVec 64))
  | .other _ _ _ => none
  | .u64 vs =>
    if vs.any (·.isNone) then none
    else if vs.any (fun v => v != some ts) then none
    else some (vs.filterMap id)

/-- What the database does with the result of a memtable call (db/wal.rs:568-571, 587-590). -/
def addResult (t : Runs K R) : Except Mem.Err (Option (Imm K R)) × Inner K R → Option (Runs K R)
  | (.error _, _) => none
  | (.ok o, m) => some { runs := addRun t.runs o, mem := m }

/-- `apply_dyn_wal_batch` (db/wal.rs:521-572). The check for a `_tombstone` column only rejects
batches the schema check rejects as well. -/
def applyUpsert (ext : R → Option K) (sch : Sch A K R) (t : Runs K R) (b : Batch A) (col : Col A)
    (ts : BitVec 64) : Option (Runs K R) :=
  match sch.rows b with
  | none => none
  | some rows =>
    match checkColumn ts col with
    | none => none
    | some vs => addResult t (insertBatchMvcc ext t.mem rows (vs.map (fun v => some v.toNat)))

/-- `apply_dyn_delete_wal_batch` (db/wal.rs:574-591). The columns of a batch have equal lengths; since
`Sch.keys` is arbitrary, the length is compared here. -/
def applyDelete (ext : R → Option K) (sch : Sch A K R) (t : Runs K R) (b : Batch A) (ts : BitVec 64) :
    Option (Runs K R) :=
  match sch.keys b with
  | none => none
  | some ks =>
    match b.cols.find? (·.name == commitCol) with
    | none => none
    | some f =>
      match checkColumn ts f.col with
      | none => none
      | some vs =>
        if ks.length ≠ vs.length then none
        else addResult t (insertDeleteBatch ext t.mem (ks.zip (vs.map (fun v => some v.toNat))))

/-- The loop variables of `replay_wal_events` (db/wal.rs:215-216), the memory, and the number of
sealing decisions taken. `none` in `pend` is an absent key of the map. -/
structure RState (A K R : Type) where
  mem : Runs K R
  pend : BitVec 64 → Option (List (Pend A))
  last : Option Nat
  taken : Nat

/-- Change one key of the map. -/
def setPend (m : BitVec 64 → Option (List (Pend A))) (id : BitVec 64) (v : Option (List (Pend A))) :
    BitVec 64 → Option (List (Pend A)) := fun i => if i = id then v else m i

/-- `pending.entry(id).or_default().push(p)` (db/wal.rs:231-238, 244-250). -/
def pushPend (m : BitVec 64 → Option (List (Pend A))) (id : BitVec 64) (p : Pend A) :
    BitVec 64 → Option (List (Pend A)) := setPend m id (some ((m id).getD [] ++ [p]))

/-- One payload (db/wal.rs:262-285). -/
def applyOne (ext : R → Option K) (sch : Sch A K R) (ts : BitVec 64) (t : Runs K R) : Pend A → Option (Runs K R)
  | .upsert b col => applyUpsert ext sch t b col ts
  | .delete b => applyDelete ext sch t b ts

/-- One payload and the sealing decision after it (db/wal.rs:260-286). -/
def applyPayload (ext : R → Option K) (sch : Sch A K R) (pol : Nat → Bool) (ts : BitVec 64)
    (s : Runs K R × Nat) (p : Pend A) : Option (Runs K R × Nat) :=
  match applyOne ext sch ts s.1 p with
  | none => none
  | some t =>
    if pol s.2 then (addResult t (sealInner ext t.mem)).map (fun t' => (t', s.2 + 1))
    else some (t, s.2 + 1)

/-- `prev.max(commit_ts)` or the first (db/wal.rs:288-291). -/
def maxCommit (last : Option Nat) (ts : Nat) : Option Nat :=
  match last with
  | none => some ts
  | some p => some (max p ts)

/-- One event of `replay_wal_events` (db/wal.rs:217-301). -/
def replayEvent (ext : R → Option K) (sch : Sch A K R) (pol : Nat → Bool) (s : RState A K R)
    (e : Event A) : Option (RState A K R) :=
  match e with
  | .begin id => some { s with pend := setPend s.pend id (some ((s.pend id).getD [])) }
  | .append id b _ col => some { s with pend := pushPend s.pend id (.upsert b col) }
  | .delete id b _ => some { s with pend := pushPend s.pend id (.delete b) }
  | .commit id ts =>
    match s.pend id with
    | none => some s
    | some ps =>
      let s := { s with pend := setPend s.pend id none }
      if ps.isEmpty then some s
      else
        match ps.foldlM (applyPayload ext sch pol ts) (s.mem, s.taken) with
        | none => none
        | some (t, n) => some { s with mem := t, taken := n, last := maxCommit s.last ts.toNat }
  | .abort id => some { s with pend := setPend s.pend id none }
  | .sealMarker => some s

/-- `replay_wal_events` (db/wal.rs:211-305) on a database with memory `t`: the memory afterwards and the
largest commit timestamp. -/
def replay (ext : R → Option K) (sch : Sch A K R) (pol : Nat → Bool) (t : Runs K R) (evs : List (Event A)) :
    Option (Runs K R × Option Nat) :=
  (evs.foldlM (replayEvent ext sch pol) ⟨t, fun _ => none, none, 0⟩).map (fun s => (s.mem, s.last))

/-- What `recover_with_wal_inner` (db/mod.rs:704-763) leaves: the memory, the next commit timestamp and
the WAL range of the mutable table. -/
structure Recovered (K R : Type) where
  mem : Runs K R
  clock : Nat
  range : Option (Nat × Nat)

/-- `WalSegmentRef` (manifest/domain.rs): number, first and last frame. -/
structure SegRef where
  seq : Nat
  first : Nat
  last : Nat
deriving Repr, DecidableEq

/-- The range given to the mutable table before replay (db/mod.rs:741-753). -/
def initialRange (noEvents : Bool) (floor : Option SegRef) : Option (Nat × Nat) :=
  if noEvents then none
  else
    match floor with
    | some f => some (f.first, f.last)
    | none => some (initialFrameSeq, initialFrameSeq)

/-- The clock after recovery (db/mod.rs:755-759, mvcc/mod.rs): starts at 0, moved to one past the last
replayed commit, or past the commit in the state file if nothing was replayed. `u64` saturation is
kept. -/
def recoveredClock (last hint : Option Nat) : Nat :=
  match last.orElse (fun _ => hint) with
  | none => 0
  | some t => min (t + 1) tsMax

/-- `recover_with_wal_inner` (db/mod.rs:704-763) on the listed segments. The range bookkeeping during
replay (a seal takes the range) is in `Model/Durable.lean`. -/
def recoverDb (ext : R → Option K) (sch : Sch A K R) (pol : Nat → Bool) (c : Ipc (Batch A)) (cap : Nat)
    (floor : Option SegRef) (hint : Option Nat) (segs : List Seg) : Option (Recovered K R) :=
  match scanWithFloor c (floor.map (fun f => ⟨f.seq, f.first⟩)) segs with
  | .error _ => none
  | .ok evs =>
    match replay ext sch pol (Runs.new cap) evs with
    | none => none
    | some (t, last) => some ⟨t, recoveredClock last hint, initialRange evs.isEmpty floor⟩

end Tonbo.Model.Wal
