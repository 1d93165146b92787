import Verif.Model.LsmScan
import Verif.Model.Recovery
import Verif.Spec.MemView

/-!
# A table with its write-ahead log: writes, flushes, compactions and crashes
(src/db/mod.rs:704-800, 1094-1204, src/db/wal.rs:133-200, 344-513, src/transaction/mod.rs:558-746,
1196-1400, src/wal/manifest_ext.rs)

The state joins the storage model (`Model/Lsm.lean`), the memory, the log as a list of segments of
frames, the frame ranges kept for the mutable table and for every frozen run, the clock and the
number counters. Every writer in flight advances by atomic steps; every interleaving is a list of
operations.

Simplifications. A frame is in the log as soon as its step is done: what the writer task does between
the call and the acknowledgement is `Model/WalWriter.lean`, the bytes are `Model/Frame.lean` and
`Model/WalStore.lean`. A failing write to the log is not modelled (the writer stops there, like a
`cancel`). The conflict check and the key locks of a transaction are `Model/Txn.lean`. A flush reads
the floor and the ranges, lists the segments and writes its file in one step. Compaction backpressure
is left out.
-/

namespace Tonbo.Model.Durable
open Tonbo.Model Tonbo.Model.Manifest Tonbo.Model.Planner Tonbo.Model.Lsm
open Tonbo.Model.Wal (Batch Event Sch WState resume replay initialRange recoveredClock)
open Tonbo.Model.Mem (Runs)
open Tonbo.Spec (Ver batchWrites)

/-- How the rows of a write and the keys of its deletions are put into record batches
(db/wal.rs:676-760, transaction/mod.rs:676-724). -/
structure Enc (A K R : Type) where
  rows : List R → Batch A
  keys : List K → BitVec 64 → Batch A

/-- A segment of the log: its number and its frames with their sequence numbers. -/
structure LSeg (A : Type) where
  seq : Nat
  frames : List (Nat × Event A)
deriving Repr, DecidableEq

/-- The call that writes. -/
inductive Mode where
  /-- `DB::ingest` (db/mod.rs:765-805) -/
  | plain
  /-- `ingest_with_tombstones` (db/wal.rs:203-209, 426-513) -/
  | tomb
  /-- a transaction that waits for the log (transaction/mod.rs:626-640) -/
  | strict
  /-- a transaction that does not (transaction/mod.rs:641-656) -/
  | fast
deriving Repr, DecidableEq

/-- Where a writer stands: the next of its steps. Steps that its mode or its payload does not have do
nothing. -/
inductive Phase where
  | begin | up | del | commit | record | applyUp | applyDel | look | publish | prune | ack
deriving Repr, DecidableEq

/-- A write in flight. -/
structure Writer (K R : Type) where
  mode : Mode
  id : Nat
  ts : Nat
  rows : List R
  keys : List K
  /-- frames written so far (`WalRangeAccumulator`, `AckRange`: db/wal.rs:456-479, transaction/mod.rs:1238-1272) -/
  span : Option (Nat × Nat)
  /-- `prev_live_floor` (transaction/mod.rs:620) -/
  prev : Option Nat
  /-- the segments found by `finalize_manifest` (transaction/mod.rs:1349-1354) -/
  refs : List WalRef
  phase : Phase
deriving Repr, DecidableEq

/-- The state. -/
structure Sys (A K R : Type) where
  db : Db K R
  clock : Nat
  nextId : Nat
  /-- ascending; the last one is written to -/
  segs : List (LSeg A)
  nextFrame : Nat
  nextSeg : Nat
  /-- `mutable_wal_range` -/
  range : Option (Nat × Nat)
  /-- `immutable_wal_ranges` -/
  ranges : List (Option (Nat × Nat))
  writers : List (Writer K R)
  /-- the number of runs a flush has copied, before it writes -/
  flushCount : Option Nat
  /-- opening the database failed -/
  dead : Bool
  /-- ghost: the writes whose commit record is in the log or was -/
  committed : List (Ver K R)
  /-- ghost: the writes that were acknowledged -/
  acked : List (Ver K R)

variable {A K R : Type} [LinearOrder K]

/-- What the model is given: key extractor, schema and its inverse, executor settings, table. -/
structure Ctx (A K R : Type) [LinearOrder K] where
  ext : R → Option K
  sch : Sch A K R
  enc : Enc A K R
  x : Exec K R
  table : Nat

/-! ## Writing frames -/

/-- The upsert payload exists (db/wal.rs:441-447, transaction/mod.rs:599-607); `ingest` writes one
even for an empty batch (db/mod.rs:777-783). -/
def Writer.hasUp (w : Writer K R) : Bool := w.mode == .plain || !w.rows.isEmpty

/-- The delete payload exists. `ingest` has none. -/
def Writer.hasDel (w : Writer K R) : Bool := w.mode != .plain && !w.keys.isEmpty

/-- A transaction. -/
def Writer.isTxn (w : Writer K R) : Bool := w.mode == .strict || w.mode == .fast

/-- The memtable call for the rows (db/wal.rs:133-145, 157-165, 488-493). -/
def Writer.putOp (w : Writer K R) : Mem.Op K R := .put (w.rows.map (fun r => (r, w.ts)))

/-- The memtable call for the deletions (db/wal.rs:167-178, 494-499). -/
def Writer.delOp (w : Writer K R) : Mem.Op K R := .del (w.keys.map (fun k => (k, w.ts)))

/-- The event of the upsert payload as replay decodes it (frame.rs:300-388; C25). -/
def Writer.upEvent (c : Ctx A K R) (w : Writer K R) : Event A :=
  .append (BitVec.ofNat 64 w.id) (c.enc.rows w.rows) (some (BitVec.ofNat 64 w.ts))
    (.u64 (List.replicate w.rows.length (some (BitVec.ofNat 64 w.ts))))

/-- The event of the delete payload as replay decodes it. -/
def Writer.delEvent (c : Ctx A K R) (w : Writer K R) : Event A :=
  .delete (BitVec.ofNat 64 w.id) (c.enc.keys w.keys (BitVec.ofNat 64 w.ts)) (some (BitVec.ofNat 64 w.ts))

/-- What the write writes, if all of it happens. -/
def Writer.writes (c : Ctx A K R) (w : Writer K R) : List (Ver K R) :=
  (if w.hasUp then batchWrites c.ext w.putOp else []) ++ (if w.hasDel then batchWrites c.ext w.delOp else [])

/-- Append to the last segment. -/
def pushLast (segs : List (LSeg A)) (p : Nat × Event A) : List (LSeg A) :=
  match segs.getLast? with
  | none => segs
  | some g => segs.dropLast ++ [{ g with frames := g.frames ++ [p] }]

/-- `WalFrameRange::extend` with `WalRangeAccumulator::observe_range` (db/wal.rs:34-70, 393-402). -/
def extend : Option (Nat × Nat) → Nat × Nat → Option (Nat × Nat)
  | none, r => some r
  | some a, r => some (min a.1 r.1, max a.2 r.2)

/-- One frame of a writer. -/
def frame (s : Sys A K R) (w : Writer K R) (e : Event A) : Sys A K R × Writer K R :=
  ({ s with segs := pushLast s.segs (s.nextFrame, e), nextFrame := s.nextFrame + 1 },
   { w with span := extend w.span (s.nextFrame, s.nextFrame) })

/-! ## Memory -/

/-- A frozen run takes the range of the mutable table with it (db/wal.rs:138-155, 171-177, 490-499):
after a call that added a run. -/
def moveRange (s : Sys A K R) (t : Runs K R) : Sys A K R :=
  if s.db.runs.runs.length < t.runs.length then
    { s with db := { s.db with runs := t }, ranges := s.ranges ++ [s.range], range := none }
  else { s with db := { s.db with runs := t } }

/-- A call on the memory. -/
def memCall (c : Ctx A K R) (s : Sys A K R) (op : Mem.Op K R) : Bool × Sys A K R :=
  ((s.db.runs.call c.ext op).1, moveRange s (s.db.runs.call c.ext op).2)

/-! ## Floors -/

/-- The floor in the manifest; an error counts as none (compaction/driver.rs:251-253). -/
def floorOf (c : Ctx A K R) (s : Sys A K R) : Option WalRef := (walFloor s.db.kv c.table).toOption.join

/-- `wal_live_frame_floor` (db/wal.rs:344-359). -/
def liveFloor (s : Sys A K R) : Option Nat :=
  ((s.range :: s.ranges).filterMap (fun r => r.map (·.1))).min?

/-- `segment_frame_bounds` and `wal_segment_ref_from_descriptor` (manifest_ext.rs:32-76): none for an
empty segment. The file id is a function of the number (`wal_segment_file_id`). -/
def refOf (g : LSeg A) : Option WalRef :=
  match g.frames.head?, g.frames.getLast? with
  | some a, some b => some ⟨g.seq, g.seq, a.1, b.1⟩
  | _, _ => none

/-- `segment_required` (manifest_ext.rs:78-94). -/
def required (cutoff live : Option Nat) (r : WalRef) : Bool :=
  (match live with | some l => decide (l ≤ r.last) | none => false) ||
  (match cutoff with | some n => decide (n < r.seq) | none => true)

/-- `collect_wal_segment_refs` (manifest_ext.rs:15-68). The segments are in order already. That listing
the tail may rewrite the segment being written to is not modelled. -/
def collect (segs : List (LSeg A)) (floor : Option WalRef) (live : Option Nat) : List WalRef :=
  (segs.filterMap refOf).filter (required (floor.map (·.seq)) live)

/-- `prune_wal_segments_below_floor` (db/compaction.rs:54-56, manifest_ext.rs:96-115, compaction/driver.rs:197-248): without a
floor nothing goes. -/
def prune (c : Ctx A K R) (s : Sys A K R) : Sys A K R :=
  match floorOf c s with
  | none => s
  | some f => { s with segs := s.segs.filter (fun g => decide (f.seq ≤ g.seq)) }

/-- `live_floor` of `finalize_manifest` (transaction/mod.rs:1331-1336). -/
def Writer.live (w : Writer K R) : Option Nat :=
  match w.prev, w.span with
  | some p, some sp => some (min p sp.1)
  | some p, none => some p
  | none, some sp => some sp.1
  | none, none => none

/-! ## The steps of a writer -/

/-- Go on. -/
def Writer.at (w : Writer K R) (p : Phase) : Writer K R := { w with phase := p }

/-- One frame, or none, and go on. -/
def frameStep (s : Sys A K R) (w : Writer K R) (b : Bool) (e : Event A) (p : Phase) :
    Sys A K R × Option (Writer K R) :=
  if b then ((frame s w e).1, some ((frame s w e).2.at p)) else (s, some (w.at p))

/-- One memory call, or none, and go on; an error ends the write (db/wal.rs:488-499,
transaction/mod.rs:726-746). -/
def applyStep (c : Ctx A K R) (s : Sys A K R) (w : Writer K R) (b : Bool) (op : Mem.Op K R) (p : Phase) :
    Sys A K R × Option (Writer K R) :=
  if b then ((memCall c s op).2, if (memCall c s op).1 then some (w.at p) else none)
  else (s, some (w.at p))

/-- One step of a writer: the new state and the writer, if it goes on. `ingest`: db/mod.rs:775-800;
with tombstones: db/wal.rs:449-505; transactions: transaction/mod.rs:616-660, 1196-1229, 1327-1400. A
transaction that does not wait has been applied and acknowledged before. -/
def advance (c : Ctx A K R) (s : Sys A K R) (w : Writer K R) : Sys A K R × Option (Writer K R) :=
  match w.phase with
  | .begin => frameStep s w w.isTxn (.begin (BitVec.ofNat 64 w.id)) .up
  | .up => frameStep s w w.hasUp (w.upEvent c) .del
  | .del => frameStep s w w.hasDel (w.delEvent c) .commit
  | .commit =>
    ({ (frame s w (.commit (BitVec.ofNat 64 w.id) (BitVec.ofNat 64 w.ts))).1 with
        committed := s.committed ++ w.writes c },
      some ((frame s w (.commit (BitVec.ofNat 64 w.id) (BitVec.ofNat 64 w.ts))).2.at .record))
  | .record =>
    match w.span with
    | none => (s, some (w.at .applyUp))
    | some sp => ({ s with range := extend s.range sp }, some (w.at .applyUp))
  | .applyUp => applyStep c s w (w.mode != .fast && w.hasUp) w.putOp .applyDel
  | .applyDel => applyStep c s w (w.mode != .fast && w.hasDel) w.delOp .look
  | .look =>
    (s, some { w with
      refs := if w.isTxn then collect s.segs (floorOf c s) w.live else []
      phase := .publish })
  | .publish =>
    if w.refs = [] then (s, some (w.at .ack))
    else
      match apply s.db.kv c.table [.setWal w.refs] none with
      | (kv, .ok _) => ({ s with db := { s.db with kv := kv } }, some (w.at .prune))
      | (kv, .error _) => ({ s with db := { s.db with kv := kv } }, none)
  | .prune => (prune c s, some (w.at .ack))
  | .ack => ({ s with acked := if w.mode = .fast then s.acked else s.acked ++ w.writes c }, none)

/-! ## Crash and recovery -/

/-- A frame that replay visits (replay.rs, storage.rs:400-432; `Model/WalStore.lean` on bytes). -/
def visited (floor : Option WalRef) (seq n : Nat) : Bool :=
  match floor with
  | none => true
  | some f => if seq < f.seq then false else if seq = f.seq then decide (f.first ≤ n) else true

/-- The events replay gets. -/
def replayed (floor : Option WalRef) (segs : List (LSeg A)) : List (Event A) :=
  segs.flatMap (fun g => (g.frames.filter (fun p => visited floor g.seq p.1)).map (·.2))

/-- The transaction id that the tail of the log shows (storage.rs:358-379): only from a payload or a
commit. -/
def eventId : Event A → Option Nat
  | .append id _ _ _ => some id.toNat
  | .delete id _ _ => some id.toNat
  | .commit id _ => some id.toNat
  | _ => none

/-- `tail_metadata` (storage.rs:261-314): of the last segment. -/
def tailOf (segs : List (LSeg A)) : Option Wal.Tail :=
  segs.getLast?.map (fun g =>
    ⟨⟨g.seq, [], []⟩, [], g.frames.getLast?.map (·.1), g.frames.getLast?.bind (fun p => eventId p.2)⟩)

/-- The ranges of the runs that replay froze: the first took the initial range. -/
def runRanges (r : Option (Nat × Nat)) : Nat → List (Option (Nat × Nat))
  | 0 => []
  | n + 1 => r :: List.replicate n none

/-- A crash, and opening again (db/mod.rs:704-763, wal/mod.rs:946-999): `cap` is the capacity of the
new mutable table, `pol` are the decisions of the sealing policy, `st` is what the state file
holds. -/
def crash (c : Ctx A K R) (s : Sys A K R) (cap : Nat) (pol : Nat → Bool) (st : Option WState) : Sys A K R :=
  match reopen cap c.table s.db with
  | .error _ => { s with dead := true }
  | .ok db =>
    match replay c.ext c.sch pol (Runs.new cap) (replayed (floorOf c s) s.segs) with
    | none => { s with dead := true }
    | some (t, last) =>
      { s with
        db := { db with runs := t }
        clock := recoveredClock last (st.bind (·.lastCommit))
        nextId := (resume (tailOf s.segs) st).nextId
        nextFrame := (resume (tailOf s.segs) st).nextFrame
        nextSeg := (resume (tailOf s.segs) st).nextSegment
        range := if t.runs = [] then
            initialRange (replayed (floorOf c s) s.segs).isEmpty ((floorOf c s).map (fun f => ⟨f.seq, f.first, f.last⟩))
          else none
        ranges := runRanges
          (initialRange (replayed (floorOf c s) s.segs).isEmpty ((floorOf c s).map (fun f => ⟨f.seq, f.first, f.last⟩)))
          t.runs.length
        writers := []
        flushCount := none }

/-! ## Operations -/

/-- The steps. -/
inductive Op (K R : Type) where
  /-- a write begins: it takes its timestamp and its transaction id -/
  | write (mode : Mode) (rows : List R) (keys : List K)
  /-- the next step of a writer -/
  | advance (i : Nat)
  /-- a writer is dropped (its future is cancelled, or the log fails) -/
  | cancel (i : Nat)
  /-- the log goes on in a new segment -/
  | rotate
  /-- the mutable table is frozen (db/wal.rs:147-155, 191-200) -/
  | freeze
  /-- a flush copies the list of frozen runs (db/mod.rs:1099-1106) -/
  | flushBegin
  /-- it lists the segments and writes its file (db/mod.rs:1107-1153) -/
  | flushWrite
  | flushPublish
  | flushDrain
  /-- segments below the floor go, after a flush or a compaction -/
  | prune
  /-- a compaction job reads and merges -/
  | start (t : PTask K) (head : Option Nat) (skip : Nat)
  /-- a compaction job publishes -/
  | finish (i : Nat)
  | crash (cap : Nat) (pol : Nat → Bool) (st : Option WState)

/-- A new writer (db/mod.rs:775-779, db/wal.rs:439-451, transaction/mod.rs:598, 617-618). -/
def newWriter (s : Sys A K R) (mode : Mode) (rows : List R) (keys : List K) : Writer K R :=
  ⟨mode, s.nextId, s.clock, rows, keys, none, liveFloor s, [], .begin⟩

/-- A write begins. A transaction that does not wait for the log changes the memory and returns at
once, here in one step, while its frames are on their way (transaction/mod.rs:641-656). -/
def begin (c : Ctx A K R) (s : Sys A K R) (w : Writer K R) : Sys A K R :=
  if w.mode = .fast then
    let a := applyStep c s w w.hasUp w.putOp .begin
    match a.2 with
    | none => a.1
    | some _ =>
      let b := applyStep c a.1 w w.hasDel w.delOp .begin
      match b.2 with
      | none => b.1
      | some _ => { b.1 with acked := b.1.acked ++ w.writes c, writers := b.1.writers ++ [w] }
  else { s with writers := s.writers ++ [w] }

/-- Replace a writer, or remove it. -/
def setWriter (ws : List (Writer K R)) (i : Nat) : Option (Writer K R) → List (Writer K R)
  | none => ws.eraseIdx i
  | some w => ws.set i w

/-- One step of a live database. -/
def stepLive (c : Ctx A K R) (s : Sys A K R) : Op K R → Sys A K R
  | .write mode rows keys =>
    begin c { s with clock := s.clock + 1, nextId := s.nextId + 1 } (newWriter s mode rows keys)
  | .advance i =>
    match s.writers[i]? with
    | none => s
    | some w => { (advance c s w).1 with writers := setWriter s.writers i (advance c s w).2 }
  | .cancel i => { s with writers := s.writers.eraseIdx i }
  | .rotate => { s with segs := s.segs ++ [⟨s.nextSeg, []⟩], nextSeg := s.nextSeg + 1 }
  | .freeze => (memCall c s .freeze).2
  | .flushBegin =>
    if s.flushCount = none ∧ s.db.flushing = .idle ∧ s.db.runs.runs ≠ [] then
      { s with flushCount := some s.db.runs.runs.length }
    else s
  | .flushWrite =>
    match s.flushCount with
    | none => s
    | some n =>
      { s with
        db := flushWrite c.ext c.x s.db n (some (collect s.segs (floorOf c s) (s.range.map (·.1))))
        flushCount := none }
  | .flushPublish => { s with db := flushPublish c.table s.db }
  | .flushDrain =>
    { s with
      db := flushDrain s.db
      ranges := match s.db.flushing with
        | .published n => if n ≤ s.ranges.length then s.ranges.drop n else []
        | _ => s.ranges }
  | .prune => prune c s
  | .start t head skip => { s with db := (Lsm.step c.ext c.x c.table s.db (.start t head skip)).2 }
  | .finish i => { s with db := (Lsm.step c.ext c.x c.table s.db (.finish i)).2 }
  | .crash cap pol st => crash c s cap pol st

/-- One step. -/
def step (c : Ctx A K R) (s : Sys A K R) (o : Op K R) : Sys A K R := if s.dead then s else stepLive c s o

/-- A history. -/
def run (c : Ctx A K R) (s : Sys A K R) (ops : List (Op K R)) : Sys A K R := ops.foldl (step c) s

/-- A new table (db/builder.rs: nothing to recover): the first segment is 0, the first frame and the
first transaction id are 1 (wal/mod.rs:946-999), the clock starts at 0 (mvcc/mod.rs:126-130). -/
def Sys.new (cap table schemaVersion : Nat) : Sys A K R :=
  ⟨Db.new cap table schemaVersion, 0, 1, [⟨0, []⟩], 1, 1, none, [], [], none, false, [], []⟩

end Tonbo.Model.Durable
