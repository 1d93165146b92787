import Verif.Spec.DurableView
import Verif.Props.C38_C43_Lsm

/-!
# C29, C30, C32, C55: histories that lose data

Concrete histories of the model in which an acknowledged write is gone after a crash, a row nobody
committed appears, the database does not open any more, or the clock falls behind. The theorems of
`Props/C29_C32_Durable.lean` hold where none of these patterns occurs.
-/

namespace Tonbo.Props.C32
open Tonbo.Model Tonbo.Model.Manifest Tonbo.Model.Lsm Tonbo.Model.Durable Tonbo.Spec Tonbo.Spec.Durable
open Tonbo.Model.Wal (Batch Event Sch)

/-! ## A table of numbers

The tens of a row are its key; row 0 has no key. -/

def exExt (r : Nat) : Option Nat := if r = 0 then none else some (r / 10)

def exSch : Sch Unit Nat Nat where
  rows b := match b.cols with | [⟨"k", _, .u64 vs⟩] => some (vs.map (fun v => (v.getD 0).toNat)) | _ => none
  keys b := match b.cols with
    | [⟨"k", _, .u64 vs⟩, ⟨"_commit_ts", _, _⟩] => some (vs.map (fun v => v.map (·.toNat)))
    | _ => none

def exEnc : Enc Unit Nat Nat where
  rows rs := ⟨[⟨"k", false, .u64 (rs.map (fun r => some (BitVec.ofNat 64 r)))⟩], []⟩
  keys ks ts := ⟨[⟨"k", false, .u64 (ks.map (fun r => some (BitVec.ofNat 64 r)))⟩,
    ⟨"_commit_ts", false, .u64 (List.replicate ks.length (some ts))⟩], []⟩

def exC : Ctx Unit Nat Nat := ⟨exExt, exSch, exEnc, C38.exX, 1⟩

/-- Steps of the first writer in flight. -/
def go (n : Nat) : List (Durable.Op Nat Nat) := List.replicate n (.advance 0)

/-- A write from beginning to end, with nothing in between. -/
def wr (m : Mode) (rs : List Nat) (ks : List Nat := []) : List (Durable.Op Nat Nat) := .write m rs ks :: go 11

/-- A flush from beginning to end. -/
def fl : List (Durable.Op Nat Nat) := [.flushBegin, .flushWrite, .flushPublish, .prune, .flushDrain]

/-- A crash; the sealing policy does nothing during replay, there is no state file. -/
def crashNow : List (Durable.Op Nat Nat) := [.crash 4 (fun _ => false) none]

def ex (cap : Nat) (ops : List (Durable.Op Nat Nat)) : Sys Unit Nat Nat := Durable.run exC (Sys.new cap 1 0) ops

/-- What a read at 99 shows. -/
def rows (s : Sys Unit Nat Nat) : Option (List (Nat × Nat)) := (scanAll 1 s.db 99).map rowsOf

/-- Row `r` with key `k`, acknowledged with timestamp `t`, the newest write of its key, is not read. -/
def lost (s : Sys Unit Nat Nat) (k t r : Nat) : Bool :=
  !s.dead && (s.committed ++ s.acked).all (fun w => decide (w.ts ≤ 99) && (decide (w.key ≠ k) || decide (w.ts ≤ t))) &&
  s.acked.any (fun w => w.key == k && w.ts == t && (match w.op with | .put r' => r' == r | .del => false)) &&
  (match rows s with | some l => !l.contains (k, r) | none => false)

theorem not_sound_of_check {s : Sys Unit Nat Nat} {k t r : Nat} (h : lost s k t r = true) : ¬ Sound exC s := by
  unfold lost at h
  simp only [Bool.and_eq_true, List.all_eq_true, List.any_eq_true] at h
  obtain ⟨⟨⟨_, h1⟩, w, hw, ⟨hk, ht⟩, hr⟩, h3⟩ := h
  cases hs : scanAll 1 s.db 99 with
  | none => unfold rows at h3; rw [hs] at h3; cases h3
  | some out =>
    unfold rows at h3
    rw [hs] at h3
    have hmem : ∀ w, (w ∈ s.committed ∨ w ∈ s.acked) → w ∈ s.committed ++ s.acked := fun w h => List.mem_append.2 h
    refine not_sound_of_lost 99 out (fun w hw => ?_) hs k t r ?_ ?_ ?_
    · have := h1 w (hmem w hw)
      simp only [Bool.and_eq_true, decide_eq_true_eq] at this
      exact this.1
    · obtain ⟨wk, wt, wo⟩ := w
      cases wo with
      | del => cases hr
      | put r' =>
        simp only [beq_iff_eq] at hk ht hr
        subst hk ht hr
        exact hw
    · intro u hu huk
      have := h1 u (hmem u hu)
      simp only [Bool.and_eq_true, Bool.or_eq_true, decide_eq_true_eq] at this
      rcases this.2 with h | h
      · exact absurd huk h
      · exact h
    · simpa using h3

/-! ## Writes lost by the bookkeeping of frame ranges

In each of these the log is intact up to the moment a flush or a commit deletes a segment, and the
crash comes long after the last acknowledgement. -/

/-- The range of a batch that makes the mutable table overflow goes with the old contents. -/
def overflow : List (Durable.Op Nat Nat) :=
  wr .tomb [11] ++ [.freeze] ++ fl ++ wr .tomb [21] ++ wr .tomb [22] ++ wr .tomb [31] ++ [.rotate] ++ wr .tomb [41] ++ fl

/-- **C32 fails**: an ingested batch that overflows the mutable table (here two batches) sits in the
fresh table, but its frames are accounted to the frozen run. The next flush deletes its segment. -/
theorem overflowing_batch_loses_its_segment :
    rows (ex 2 overflow) = some [(1, 11), (2, 22), (3, 31), (4, 41)] ∧
    rows (ex 2 (overflow ++ crashNow)) = some [(1, 11), (2, 22), (4, 41)] ∧
    ¬ Sound exC (ex 2 (overflow ++ crashNow)) := by
  refine ⟨by decide +kernel, by decide +kernel, not_sound_of_check (k := 3) (t := 3) (r := 31) (by decide +kernel)⟩

/-- A run frozen while a flush is under way. -/
def frozenDuringFlush : List (Durable.Op Nat Nat) :=
  wr .tomb [11] ++ [.freeze] ++ fl ++ wr .tomb [21] ++ [.freeze, .flushBegin] ++ wr .tomb [31] ++ [.freeze, .rotate] ++
  wr .tomb [41] ++ [.flushWrite, .flushPublish, .prune, .flushDrain]

/-- **C32 fails**: a flush asks only the mutable table which frames are still needed; those of a run
frozen after the flush began are deleted. -/
theorem run_frozen_during_a_flush_loses_its_segment :
    rows (ex 4 frozenDuringFlush) = some [(1, 11), (2, 21), (3, 31), (4, 41)] ∧
    rows (ex 4 (frozenDuringFlush ++ crashNow)) = some [(1, 11), (2, 21), (4, 41)] ∧
    ¬ Sound exC (ex 4 (frozenDuringFlush ++ crashNow)) := by
  refine ⟨by decide +kernel, by decide +kernel, not_sound_of_check (k := 3) (t := 2) (r := 31) (by decide +kernel)⟩

/-- Replay freezes a run. -/
def sealedByReplay : List (Durable.Op Nat Nat) :=
  wr .tomb [11] ++ [.freeze] ++ fl ++ wr .tomb [21] ++ wr .tomb [31] ++
  [.crash 4 (fun n => n == 1) none, .rotate] ++ wr .tomb [41] ++ fl

/-- **C32 fails**: when replay freezes a run, the rows replayed after it have no range; the next flush
deletes their segment. -/
theorem seal_during_replay_loses_a_segment :
    rows (ex 4 sealedByReplay) = some [(1, 11), (2, 21), (3, 31), (4, 41)] ∧
    rows (ex 4 (sealedByReplay ++ crashNow)) = some [(1, 11), (2, 21), (4, 41)] ∧
    ¬ Sound exC (ex 4 (sealedByReplay ++ crashNow)) := by
  refine ⟨by decide +kernel, by decide +kernel, not_sound_of_check (k := 3) (t := 2) (r := 31) (by decide +kernel)⟩

/-- A flush between the frames of a write. -/
def flushBetweenFrames : List (Durable.Op Nat Nat) :=
  wr .tomb [11] ++ [.freeze] ++ fl ++ wr .tomb [21] ++ [.freeze, .write .tomb [31] []] ++ go 3 ++ [.rotate] ++ go 1 ++
  fl ++ go 9

/-- **C32 fails**: the frames of a write still in flight are in no range. If the log rotates between
its payload and its commit record, a flush deletes the payload. -/
theorem flush_during_a_write_deletes_its_payload :
    rows (ex 4 flushBetweenFrames) = some [(1, 11), (2, 21), (3, 31)] ∧
    rows (ex 4 (flushBetweenFrames ++ crashNow)) = some [(1, 11), (2, 21)] ∧
    ¬ Sound exC (ex 4 (flushBetweenFrames ++ crashNow)) := by
  refine ⟨by decide +kernel, by decide +kernel, not_sound_of_check (k := 3) (t := 2) (r := 31) (by decide +kernel)⟩

/-- The memory is frozen when a write has told it its frames and not yet brought its row. -/
def freezeBeforeRow : List (Durable.Op Nat Nat) :=
  wr .plain [41] ++ [.freeze] ++ fl ++ wr .plain [21] ++ [.write .plain [11] []] ++ go 5 ++ [.freeze] ++ go 6 ++ [.rotate] ++ wr .plain [31] ++ fl

/-- **C32 fails**: the frames go with the frozen run, the row stays in memory, where nothing tells that its frames are
needed. When the run has been flushed, they are deleted. The row was acknowledged. -/
theorem freeze_during_a_write_loses_its_payload :
    (⟨1, 2, .put 11⟩ : Ver Nat Nat) ∈ (ex 4 freezeBeforeRow).acked ∧
    rows (ex 4 freezeBeforeRow) = some [(1, 11), (2, 21), (3, 31), (4, 41)] ∧
    rows (ex 4 (freezeBeforeRow ++ crashNow)) = some [(2, 21), (3, 31), (4, 41)] ∧
    ¬ Sound exC (ex 4 (freezeBeforeRow ++ crashNow)) := by
  refine ⟨by decide +kernel, by decide +kernel, by decide +kernel,
    not_sound_of_check (k := 1) (t := 2) (r := 11) (by decide +kernel)⟩

/-- A commit that noted the needed frames before another write. -/
def commitWithOldFloor : List (Durable.Op Nat Nat) :=
  wr .tomb [11] ++ [.freeze] ++ fl ++ [.write .strict [21] [], .write .tomb [31] []] ++
  List.replicate 11 (.advance 1) ++ [.rotate] ++ go 11

/-- **C32 fails**: a strict commit notes which frames are needed before it writes its own; what others
write in between is deleted when it ends. -/
theorem strict_commit_deletes_a_concurrent_write :
    rows (ex 4 commitWithOldFloor) = some [(1, 11), (2, 21), (3, 31)] ∧
    rows (ex 4 (commitWithOldFloor ++ crashNow)) = some [(1, 11), (2, 21)] ∧
    ¬ Sound exC (ex 4 (commitWithOldFloor ++ crashNow)) := by
  refine ⟨by decide +kernel, by decide +kernel, not_sound_of_check (k := 3) (t := 2) (r := 31) (by decide +kernel)⟩

end Tonbo.Props.C32

namespace Tonbo.Props.C29
open Tonbo.Model Tonbo.Model.Manifest Tonbo.Model.Lsm Tonbo.Model.Durable Tonbo.Spec Tonbo.Spec.Durable
open Tonbo.Props.C32

/-- A write is abandoned after its payload; the log rotates; the numbering of transactions starts
again. -/
def reusedId : List (Durable.Op Nat Nat) :=
  [.write .tomb [31] []] ++ go 3 ++ [.cancel 0, .rotate] ++ crashNow ++ wr .tomb [21] ++ crashNow

/-- **C29 fails**: a payload that was never committed becomes part of a later transaction with the same
id. -/
theorem abandoned_payload_comes_back :
    (ex 4 reusedId).committed = [⟨2, 0, .put 21⟩] ∧ rows (ex 4 reusedId) = some [(2, 21), (3, 31)] ∧
    ¬ Sound exC (ex 4 reusedId) := by
  have h1 : (ex 4 reusedId).committed = [⟨2, 0, .put 21⟩] := by decide +kernel
  have h2 : (ex 4 reusedId).acked = [⟨2, 0, .put 21⟩] := by decide +kernel
  have h3 : rows (ex 4 reusedId) = some [(2, 21), (3, 31)] := by decide +kernel
  refine ⟨h1, h3, ?_⟩
  cases hs : scanAll 1 (ex 4 reusedId).db 99 with
  | none => unfold rows at h3; rw [hs] at h3; cases h3
  | some out =>
    unfold rows at h3
    rw [hs] at h3
    simp only [Option.map_some, Option.some.injEq] at h3
    refine not_sound_of_extra 99 out ?_ hs 3 31 (by rw [h3]; decide) ?_
    · rw [h1, h2]; simp
    · rw [h1, h2]; simp

/-- The same when the timestamps differ. -/
def reusedIdFatal : List (Durable.Op Nat Nat) :=
  wr .tomb [11] ++ [.write .tomb [31] []] ++ go 3 ++ [.cancel 0, .rotate] ++ crashNow ++ wr .tomb [21] ++ wr .tomb [41] ++
  crashNow

/-- **C29 fails**: with different timestamps the database does not open again. -/
theorem abandoned_payload_stops_recovery :
    (ex 4 (reusedIdFatal.dropLast)).acked.map (·.op) = [.put 11, .put 21, .put 41] ∧
    (ex 4 (reusedIdFatal.dropLast)).dead = false ∧ (ex 4 reusedIdFatal).dead = true := by
  refine ⟨by decide +kernel, by decide +kernel, by decide +kernel⟩

/-- **C29 fails**: `ingest` writes a batch with a null key to the log, commits it there, and then refuses
it. The database does not open again. -/
theorem refused_batch_stops_recovery :
    (ex 4 (wr .tomb [11] ++ wr .plain [0])).acked = [⟨1, 0, .put 11⟩] ∧
    (ex 4 (wr .tomb [11] ++ wr .plain [0])).dead = false ∧
    (ex 4 (wr .tomb [11] ++ wr .plain [0] ++ crashNow)).dead = true := by
  refine ⟨by decide +kernel, by decide +kernel, by decide +kernel⟩

/-- **C29 fails**: as many ingested batches without rows as the mutable table has slots, and a database
with an acknowledged row does not open again with the same settings. -/
theorem empty_batches_stop_recovery :
    (ex 3 (wr .plain [] ++ wr .plain [] ++ wr .plain [11])).acked = [⟨1, 2, .put 11⟩] ∧
    (ex 3 (wr .plain [] ++ wr .plain [] ++ wr .plain [11])).dead = false ∧
    (ex 3 (wr .plain [] ++ wr .plain [] ++ wr .plain [11] ++ [.crash 2 (fun _ => false) none])).dead = true := by
  refine ⟨by decide +kernel, by decide +kernel, by decide +kernel⟩

/-- **C29 fails**, as documented, for transactions that do not wait for the log: acknowledged before
anything is durable. -/
theorem fast_commit_can_be_lost :
    (ex 4 [.write .fast [11] []]).acked = [⟨1, 0, .put 11⟩] ∧ rows (ex 4 [.write .fast [11] []]) = some [(1, 11)] ∧
    rows (ex 4 ([.write .fast [11] []] ++ crashNow)) = some [] ∧ ¬ Sound exC (ex 4 ([.write .fast [11] []] ++ crashNow)) := by
  refine ⟨by decide +kernel, by decide +kernel, by decide +kernel,
    not_sound_of_check (k := 1) (t := 0) (r := 11) (by decide +kernel)⟩

end Tonbo.Props.C29

namespace Tonbo.Props.C30
open Tonbo.Model Tonbo.Model.Manifest Tonbo.Model.Lsm Tonbo.Model.Durable Tonbo.Spec Tonbo.Spec.Durable
open Tonbo.Props.C32

/-- The newest transaction has its commit record in a segment of its own; the rest of the log has been
flushed and deleted. -/
def flushedTail : List (Durable.Op Nat Nat) :=
  wr .tomb [11] ++ [.freeze] ++ fl ++ wr .tomb [12] ++ [.write .tomb [13] []] ++ go 3 ++ [.rotate] ++ go 9 ++ [.freeze] ++ fl

/-- **C30 fails**: recovery looks only at the log, not at the timestamps of the tables. With nothing to
replay the clock starts at 0 again, and an acknowledged write is hidden by the older one it replaces. -/
theorem clock_restarts_below_flushed_writes :
    (⟨1, 2, .put 13⟩ : Ver Nat Nat) ∈ (ex 4 (flushedTail ++ crashNow)).acked ∧
    (ex 4 (flushedTail ++ crashNow)).clock = 0 ∧ ¬ ClockAhead (ex 4 (flushedTail ++ crashNow)) ∧
    (ex 4 (flushedTail ++ crashNow ++ wr .tomb [14])).acked.getLast? = some ⟨1, 0, .put 14⟩ ∧
    rows (ex 4 (flushedTail ++ crashNow ++ wr .tomb [14])) = some [(1, 13)] := by
  have h1 : (⟨1, 2, .put 13⟩ : Ver Nat Nat) ∈ (ex 4 (flushedTail ++ crashNow)).acked := by decide +kernel
  have h2 : (ex 4 (flushedTail ++ crashNow)).clock = 0 := by decide +kernel
  refine ⟨h1, h2, fun h => ?_, by decide +kernel, by decide +kernel⟩
  have := h _ (.inr h1)
  rw [h2] at this
  simp at this

/-- Two writes at once: the later timestamp is committed first. Their payloads are in one segment, their
commit records in the next. -/
def swapped : List (Durable.Op Nat Nat) :=
  wr .tomb [11] ++ [.freeze] ++ fl ++ [.write .tomb [21] [], .write .tomb [31] []] ++ go 3 ++
  List.replicate 3 (.advance 1) ++ [.rotate, .advance 1, .advance 0] ++ List.replicate 7 (.advance 1) ++ go 7 ++
  [.freeze] ++ fl

/-- **C30 fails** also with a state file: it holds the timestamp of the commit record written last, here 1,
and not the largest one, here 2. -/
theorem state_file_can_be_behind :
    ((ex 4 swapped).segs.map (fun g => g.frames.map (·.2))) = [[.commit 3 2, .commit 2 1]] ∧
    (⟨3, 2, .put 31⟩ : Ver Nat Nat) ∈ (ex 4 swapped).acked ∧
    ¬ ClockAhead (ex 4 (swapped ++ [.crash 4 (fun _ => false) (some ⟨some 1, some 6, some 1⟩)])) := by
  have h1 : (⟨3, 2, .put 31⟩ : Ver Nat Nat) ∈
      (ex 4 (swapped ++ [.crash 4 (fun _ => false) (some ⟨some 1, some 6, some 1⟩)])).acked := by decide +kernel
  have h2 : (ex 4 (swapped ++ [.crash 4 (fun _ => false) (some ⟨some 1, some 6, some 1⟩)])).clock = 2 := by
    decide +kernel
  refine ⟨by decide +kernel, by decide +kernel, fun h => ?_⟩
  have := h _ (.inr h1)
  rw [h2] at this
  simp at this

end Tonbo.Props.C30

namespace Tonbo.Props.C55
open Tonbo.Model Tonbo.Model.Manifest Tonbo.Model.Lsm Tonbo.Model.Durable Tonbo.Spec Tonbo.Spec.Durable
open Tonbo.Props.C32

/-- The segments the manifest lists. -/
def listed (s : Sys Unit Nat Nat) : Option (List Nat) :=
  match snapshotLatest s.db.kv 1 with
  | .ok (_, some v) => some (v.wal.map WalRef.seq)
  | _ => none

/-- Two tables, then an unflushed write in segment 1 and an unflushed transaction in segment 2, and a
compaction of the two tables. -/
def compactedBetween : List (Durable.Op Nat Nat) :=
  wr .tomb [11] ++ [.freeze] ++ fl ++ [.rotate] ++ wr .tomb [12] ++ [.freeze] ++ fl ++ wr .tomb [31] ++ [.rotate] ++
  wr .strict [21] ++ [.start ⟨0, 1, [⟨0, 1⟩, ⟨0, 2⟩], none⟩ none 0]

/-- **C55 fails**: a compaction keeps only the segments that tables name. The segment of a committed row
that is in no table is dropped from the list. -/
theorem compaction_forgets_a_segment :
    listed (ex 4 compactedBetween) = some [1, 2] ∧ listed (ex 4 (compactedBetween ++ [.finish 0])) = some [1] ∧
    (⟨2, 3, .put 21⟩ : Ver Nat Nat) ∈ (ex 4 (compactedBetween ++ [.finish 0])).acked ∧
    (ex 4 (compactedBetween ++ [.finish 0])).db.runs.runs = [] ∧
    (ex 4 (compactedBetween ++ [.finish 0])).segs.map (fun g => (g.seq, g.frames.map (·.1))) =
      [(1, [3, 4, 5, 6]), (2, [7, 8, 9])] := by
  refine ⟨by decide +kernel, by decide +kernel, by decide +kernel, by decide +kernel, by decide +kernel⟩

end Tonbo.Props.C55
