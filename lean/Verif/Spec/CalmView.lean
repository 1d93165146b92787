import Verif.Spec.DurableView
import Verif.Spec.CompactView
import Verif.Spec.ReplayView

/-!
# Calm histories

A history is calm when none of the patterns of `Props/C29_C32_Durable_Neg.lean` occurs in it. Every
condition is one on a single step and the state before it.
-/

namespace Tonbo.Spec.Durable
open Tonbo.Model Tonbo.Model.Manifest Tonbo.Model.Lsm Tonbo.Model.Durable Tonbo.Spec
open Tonbo.Model.Wal (Event Batch WState commitCol)

variable {A K R : Type} [LinearOrder K]

/-- The transaction id of an event. -/
def evId : Event A → Nat
  | .begin id => id.toNat
  | .append id _ _ _ => id.toNat
  | .delete id _ _ => id.toNat
  | .commit id _ => id.toNat
  | .abort id => id.toNat
  | .sealMarker => 0

/-- A writer that has told the memory which frames are its own, and has not brought all of its rows there. -/
def Applying (w : Writer K R) : Prop := w.phase = .applyUp ∨ w.phase = .applyDel

/-- A writer that has a payload in the log, or may have, and has not told the memory which frames are its own. -/
def Unrecorded (w : Writer K R) : Prop := w.phase = .del ∨ w.phase = .commit ∨ w.phase = .record

instance (w : Writer K R) : Decidable (Applying w) := by unfold Applying; infer_instance
instance (w : Writer K R) : Decidable (Unrecorded w) := by unfold Unrecorded; infer_instance

/-- The frames from number `n` on are all in the segment that is being written. -/
def Recent (s : Sys A K R) (n : Nat) : Prop := ∀ g ∈ s.segs.dropLast, ∀ p ∈ g.frames, p.1 < n

/-- The record batches of a write decode to its rows and its keys, and the delete batch has the commit
column that replay looks for. -/
def Decodes (c : Ctx A K R) (rows : List R) (keys : List K) (ts : BitVec 64) : Prop :=
  c.sch.rows (c.enc.rows rows) = some rows ∧ c.sch.keys (c.enc.keys keys ts) = some (keys.map some) ∧
  ((c.enc.keys keys ts).cols.find? (·.name == commitCol)).map (·.col) =
    some (.u64 (List.replicate keys.length (some ts)))

/-- The conditions on a step.

* A transaction commits while no other write is in flight, and waits for the log (a strict commit
  deletes segments of other writes in flight; `strict_commit_deletes_a_concurrent_write`,
  `fast_commit_can_be_lost`). Writes that are not transactions may be in flight together, any number
  of them, their steps in any order.
* `ingest` gets at least one row, and every row has a key (`empty_batches_stop_recovery`,
  `refused_batch_stops_recovery`). Batches survive encoding. Counters are below 2^64.
* No call on the memory makes the mutable table overflow (`overflowing_batch_loses_its_segment`).
* The memory is not frozen while a write brings its rows there
  (`freeze_during_a_write_loses_its_payload`).
* When a flush lists the segments, the frames of writes that the memory was not told of, and those of
  runs frozen since the flush began, are all in the segment being written
  (`flush_during_a_write_deletes_its_payload`, `run_frozen_during_a_flush_loses_its_segment`).
* A compaction leaves the floor where it is or takes it away; tables are read in step with their
  deletions (`Fits`, C15).
* After a crash, numbers of frames and transactions go on above those in the log
  (`abandoned_payload_comes_back`; C34), and replay does not freeze
  (`seal_during_replay_loses_a_segment`). -/
def Calm (c : Ctx A K R) (s : Sys A K R) : Durable.Op K R → Prop
  | .write mode rows keys =>
    (s.writers = [] ∨ (mode ≠ .strict ∧ ∀ w ∈ s.writers, w.isTxn = false)) ∧ mode ≠ .fast ∧ (mode = .plain → rows ≠ []) ∧ (∀ r ∈ rows, c.ext r ≠ none) ∧
    Decodes c rows keys (BitVec.ofNat 64 s.clock) ∧ s.clock < 2 ^ 64 ∧ s.nextId < 2 ^ 64
  | .advance i => ∀ w ∈ s.writers[i]?,
    (w.phase = .applyUp → (s.db.runs.call c.ext w.putOp).2.runs.length = s.db.runs.runs.length) ∧
    (w.phase = .applyDel → (s.db.runs.call c.ext w.delOp).2.runs.length = s.db.runs.runs.length)
  | .freeze => ∀ w ∈ s.writers, ¬ Applying w
  | .flushWrite => (∀ w ∈ s.writers, Unrecorded w → ∀ sp ∈ w.span, Recent s sp.1) ∧
    ∀ n ∈ s.flushCount, ∀ r ∈ s.ranges.drop n, ∀ sp ∈ r, Recent s sp.1
  | .finish i =>
    (∀ l e, EverListed s.db c.table l e → ∀ f, s.db.files ⟨l, e.id⟩ = some f → Fits c.x.readRows f) ∧
    (floorOf c (stepLive c s (.finish i)) = floorOf c s ∨ floorOf c (stepLive c s (.finish i)) = none)
  | .crash cap pol st =>
    0 < cap ∧
    (∀ g ∈ s.segs, ∀ p ∈ g.frames, p.1 < (Wal.resume (tailOf s.segs) st).nextFrame ∧
      evId p.2 < (Wal.resume (tailOf s.segs) st).nextId) ∧
    ∀ r ∈ Wal.replay c.ext c.sch pol (Mem.Runs.new cap) (replayed (floorOf c s) s.segs), r.1.runs = []
  | _ => True

/-- Every step of the history is calm. -/
def CalmRun (c : Ctx A K R) : Sys A K R → List (Durable.Op K R) → Prop
  | _, [] => True
  | s, o :: os => Calm c s o ∧ CalmRun c (Durable.step c s o) os

/-- Conditions under which timestamps stay apart.

* A write does not put and delete the same key.
* When the database opens again, the newest commit is in the part of the log that is replayed, or
  nothing is replayed and the state file records a commit not before it
  (`clock_restarts_below_flushed_writes`, `state_file_can_be_behind`). The timestamps are not at the end
  of their range. -/
def Fresh (c : Ctx A K R) (s : Sys A K R) : Durable.Op K R → Prop
  | .write _ rows keys => ∀ r ∈ rows, ∀ k ∈ keys, c.ext r ≠ some k
  | .crash _ _ st =>
    (∀ w ∈ s.committed, w.ts + 1 < 2 ^ 64) ∧
    ((∀ w ∈ s.committed, ∃ u ∈ Wal.logBatches c.ext c.sch (replayed (floorOf c s) s.segs), w.ts ≤ u.ts) ∨
      (Wal.committedTxns (replayed (floorOf c s) s.segs) = [] ∧
        ∃ t ∈ st.bind (·.lastCommit), ∀ w ∈ s.committed, w.ts ≤ t))
  | _ => True

/-- Every step of the history is. -/
def FreshRun (c : Ctx A K R) : Sys A K R → List (Durable.Op K R) → Prop
  | _, [] => True
  | s, o :: os => Fresh c s o ∧ FreshRun c (Durable.step c s o) os

/-- If the database crashed now, opening it would find this version: in a table of the latest version
of the manifest, or in a committed transaction of the part of the log that recovery reads. -/
def Recoverable (c : Ctx A K R) (s : Sys A K R) (u : Ver K R) : Prop :=
  (∃ fs, latestFiles c.table s.db = some fs ∧ FilesHold fs u) ∨
  u ∈ Wal.logBatches c.ext c.sch (replayed (floorOf c s) s.segs)

end Tonbo.Spec.Durable
