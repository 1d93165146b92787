import Verif.Lemmas.Replay
import Verif.Lemmas.WalScan
import Verif.Props.C47_CommitColumn
import Mathlib.Data.List.Forall2

/-!
# C28: recovery applies exactly the committed transactions

What a log means is `logWrites` in `Spec/ReplayView.lean`: for each commit record, in order, the payloads
of its transaction since the transaction id was last finished. `evs` is any list of events: every
interleaving of transactions, with or without their commit records.
-/

namespace Tonbo.Props.C28
open Tonbo.Model Tonbo.Model.Wal Tonbo.Model.Mem Tonbo.Spec Tonbo.Spec.Wal
open Tonbo.Lemmas.Replay Tonbo.Lemmas.WalScan Tonbo.Lemmas.FrameWalk

variable {A K R : Type} [LinearOrder K]

/-- The frozen runs and the mutable table together hold exactly the writes `log`, in order: the log is
cut into consecutive pieces, one for each run and the rest for the mutable table, and every scan of a
piece answers for it. -/
def Holds (t : Runs K R) (log : List (Ver K R)) : Prop :=
  ∃ logs cur, logs.flatten ++ cur = log ∧
    List.Forall₂ (fun (m : Imm K R) l => C04.Answers (fun rts => m.scan none rts) l) t.runs logs ∧
    C04.Answers (fun rts => Mem.scan t.mem none rts) cur

/-- **C28.** Whenever replay succeeds, the memory holds exactly the upserts and deletes of the committed
transactions, in the order of their commit records; and the last commit is the largest timestamp among
the commit records of transactions with payloads. For every list of events and every sequence of sealing
decisions. -/
theorem replay_applies_exactly_the_committed (ext : R → Option K) (sch : Sch A K R) (pol : Nat → Bool) (cap : Nat)
    (evs : List (Event A)) (t : Runs K R) (last : Option Nat)
    (h : replay ext sch pol (Runs.new cap) evs = some (t, last)) :
    Holds t (logWrites ext sch evs) ∧
    (∀ p ∈ committedTxns evs, p.2 ≠ [] → ∃ m, last = some m ∧ p.1.toNat ≤ m) ∧
    (∀ m, last = some m → ∃ p ∈ committedTxns evs, p.2 ≠ [] ∧ p.1.toNat = m) := by
  unfold replay at h
  cases hf : evs.foldlM (replayEvent ext sch pol) ⟨Runs.new cap, fun _ => none, none, 0⟩ with
  | none => rw [hf] at h; cases h
  | some s =>
    rw [hf] at h
    cases h
    obtain ⟨_, ⟨ops, h1, h2, _⟩, h3⟩ := loop_all evs hf
    refine ⟨?_, ?_⟩
    · obtain ⟨logs, cur, a, b, c⟩ := C04.runs_cover_partial ext cap ops s.mem h1
      exact ⟨logs, cur, by rw [a, h2], b, c⟩
    · rw [h3]
      exact max_of_last _

/-- **C28, nothing fails on a good log:** if every committed payload has the table's schema, rows, keys
and the commit timestamp in its column, replay succeeds. -/
theorem good_log_replays (ext : R → Option K) (sch : Sch A K R) (pol : Nat → Bool) (cap : Nat) (hcap : 0 < cap)
    (evs : List (Event A)) (hg : GoodLog ext sch evs) :
    ∃ t last, replay ext sch pol (Runs.new cap) evs = some (t, last) := by
  obtain ⟨s, h, _⟩ := good_all (pol := pol) hcap evs hg
  exact ⟨s.mem, s.last, by unfold replay; rw [h]; rfl⟩

/-- **C28, atomicity against the end of the log:** events behind the last commit record change
nothing. -/
theorem uncommitted_tail_has_no_effect (ext : R → Option K) (sch : Sch A K R) (evs tail : List (Event A))
    (h : ∀ e ∈ tail, ∀ id ts, e ≠ Event.commit id ts) :
    logWrites ext sch (evs ++ tail) = logWrites ext sch evs := by
  induction tail using List.reverseRecOn with
  | nil => simp
  | append_singleton tail e ih =>
    rw [← List.append_assoc, logWrites_snoc, ih (fun x hx => h x (List.mem_append_left _ hx))]
    have hc := h e (by simp)
    cases e with
    | commit id ts => exact absurd rfl (hc id ts)
    | _ => simp

/-- **C28, abort:** after an abort record a transaction id has no payloads. -/
theorem aborted_is_dropped (id : BitVec 64) (evs : List (Event A)) : bodyOf id (evs ++ [.abort id]) = [] := by
  rw [body_snoc]; simp [finishes]

/-- **C28, other transactions do not interfere:** an event of another transaction does not change the
payloads of `id`. -/
theorem others_do_not_interfere (id : BitVec 64) (evs : List (Event A)) (e : Event A)
    (h1 : payloadOf id e = false) (h2 : finishes id e = false) : bodyOf id (evs ++ [e]) = bodyOf id evs := by
  rw [body_snoc]; simp [h1, h2]

/-! ## From the files -/

theorem scan_intact (c : Ipc (Batch A)) (floor : Option Floor) (ev : RawFrame → Event A) (segs : List SegLog)
    (hw : ∀ s ∈ segs, WellFormed s.frames)
    (hd : ∀ f ∈ framesAbove floor segs, decodeFrame c f.1 f.2.2 = .ok (ev f)) (rest : List Seg)
    (acc : List (Event A)) :
    scanLoop c floor (segs.map SegLog.file ++ rest) acc =
      scanLoop c floor rest (acc ++ (framesAbove floor segs).map ev) := by
  induction segs generalizing acc with
  | nil => simp [framesAbove]
  | cons s segs ih =>
    have hsub : ∀ f ∈ aboveFloor floor s.num s.frames, decodeFrame c f.1 f.2.2 = .ok (ev f) :=
      fun f hf => hd f (List.mem_flatMap.2 ⟨s, by simp, hf⟩)
    have hrest : ∀ f ∈ framesAbove floor segs, decodeFrame c f.1 f.2.2 = .ok (ev f) := by
      intro f hf
      obtain ⟨x, hx, hxf⟩ := List.mem_flatMap.1 hf
      exact hd f (List.mem_flatMap.2 ⟨x, List.mem_cons_of_mem _ hx, hxf⟩)
    obtain ⟨torn, h1, h3⟩ := scan_seg c floor ev s.num s.path s.frames (logBytes s.frames).length
      (hw s (by simp)) hsub (segs.map SegLog.file ++ rest) acc
    rw [framesWithin_all, List.take_length] at h1 h3
    have ht : torn = false := by
      cases torn with
      | false => rfl
      | true => exact absurd rfl (h1.1 rfl).2
    have e : (s :: segs).map SegLog.file ++ rest = ⟨s.num, s.path, logBytes s.frames⟩ :: (segs.map SegLog.file ++ rest) := rfl
    have hfa : framesAbove floor (s :: segs) = aboveFloor floor s.num s.frames ++ framesAbove floor segs := by
      simp [framesAbove]
    rw [e, h3, ht, hfa, List.map_append, ← List.append_assoc,
      ← ih (fun x hx => hw x (List.mem_cons_of_mem _ hx)) hrest]
    rfl

/-- The frames of a cut segment that recovery has to read are among those of the whole segment. -/
theorem above_within (floor : Option Floor) (n cut : Nat) (fs : List RawFrame) :
    ∀ f ∈ aboveFloor floor n (framesWithin cut fs), f ∈ aboveFloor floor n fs := by
  intro f hf
  rw [keep_eq] at hf ⊢
  split at hf
  · cases hf
  · rename_i h
    rw [if_neg h]
    rw [List.mem_filter] at hf ⊢
    exact ⟨(framesWithin_prefix cut fs).subset hf.1, hf.2⟩

/-- **C28 and C26, from the files.** A log of any number of intact segments and a last one of which only
the first `cut` bytes were written, for every cut: the scan returns the events of exactly the complete
frames at or above the floor, in order. -/
theorem scan_of_torn_log (c : Ipc (Batch A)) (floor : Option Floor) (ev : RawFrame → Event A) (segs : List SegLog)
    (lastSeg : SegLog) (cut : Nat) (hw : ∀ s ∈ segs ++ [lastSeg], WellFormed s.frames)
    (hd : ∀ f ∈ framesAbove floor (segs ++ [lastSeg]), decodeFrame c f.1 f.2.2 = .ok (ev f)) :
    scanWithFloor c floor (segs.map SegLog.file ++ [lastSeg.cut cut]) =
      .ok ((framesAbove floor segs ++ aboveFloor floor lastSeg.num (framesWithin cut lastSeg.frames)).map ev) := by
  have hsplit : framesAbove floor (segs ++ [lastSeg]) = framesAbove floor segs ++ aboveFloor floor lastSeg.num lastSeg.frames := by
    simp [framesAbove]
  rw [hsplit] at hd
  unfold scanWithFloor
  rw [scan_intact c floor ev segs (fun s hs => hw s (List.mem_append_left _ hs))
    (fun f hf => hd f (List.mem_append_left _ hf))]
  obtain ⟨torn, _, h3⟩ := scan_seg c floor ev lastSeg.num lastSeg.path lastSeg.frames cut
    (hw lastSeg (by simp)) (fun f hf => hd f (List.mem_append_right _ hf)) []
    ([] ++ (framesAbove floor segs).map ev)
  unfold SegLog.cut
  rw [h3]
  cases torn <;> simp [Wal.scanLoop]

/-- **C28, recovery end to end.** Recovering from such files, with good committed payloads, succeeds, and
the memory holds exactly the committed transactions whose commit frame is complete and at or above the
floor. -/
theorem recovery_from_files (ext : R → Option K) (sch : Sch A K R) (pol : Nat → Bool) (c : Ipc (Batch A))
    (cap : Nat) (hcap : 0 < cap) (floor : Option SegRef) (hint : Option Nat) (ev : RawFrame → Event A)
    (segs : List SegLog) (lastSeg : SegLog) (cut : Nat) (hw : ∀ s ∈ segs ++ [lastSeg], WellFormed s.frames)
    (fl : Option Floor) (hfl : fl = floor.map (fun f => ⟨f.seq, f.first⟩))
    (hd : ∀ f ∈ framesAbove fl (segs ++ [lastSeg]), decodeFrame c f.1 f.2.2 = .ok (ev f))
    (evs : List (Event A))
    (hevs : evs = (framesAbove fl segs ++ aboveFloor fl lastSeg.num (framesWithin cut lastSeg.frames)).map ev)
    (hg : GoodLog ext sch evs) :
    ∃ r, recoverDb ext sch pol c cap floor hint (segs.map SegLog.file ++ [lastSeg.cut cut]) = some r ∧
      Holds r.mem (logWrites ext sch evs) := by
  have hs := scan_of_torn_log c fl ev segs lastSeg cut hw hd
  rw [← hevs] at hs
  obtain ⟨t, last, hr⟩ := good_log_replays ext sch pol cap hcap evs hg
  refine ⟨⟨t, recoveredClock last hint, initialRange evs.isEmpty floor⟩, ?_, ?_⟩
  · unfold recoverDb
    rw [← hfl, hs]
    simp only [hr]
  · exact (replay_applies_exactly_the_committed ext sch pol cap evs t last hr).1

/-- **C28 fails when a segment before the last is torn:** every later segment is ignored, whatever
committed transactions it holds, although its frames are intact. -/
theorem torn_segment_hides_later_segments (c : Ipc (Batch A)) (ev : RawFrame → Event A) (segs : List SegLog)
    (s : SegLog) (cut : Nat) (later : List Seg) (hw : ∀ x ∈ segs ++ [s], WellFormed x.frames)
    (hd : ∀ f ∈ framesAbove none (segs ++ [s]), decodeFrame c f.1 f.2.2 = .ok (ev f))
    (htorn : (logBytes s.frames).take cut ≠ logBytes (framesWithin cut s.frames)) :
    scanWithFloor c none (segs.map SegLog.file ++ s.cut cut :: later) =
      scanWithFloor c none (segs.map SegLog.file ++ [s.cut cut]) := by
  have hsplit : framesAbove none (segs ++ [s]) = framesAbove none segs ++ aboveFloor none s.num s.frames := by
    simp [framesAbove]
  rw [hsplit] at hd
  unfold scanWithFloor
  rw [scan_intact c none ev segs (fun s hs => hw s (List.mem_append_left _ hs))
    (fun f hf => hd f (List.mem_append_left _ hf)),
    scan_intact c none ev segs (fun s hs => hw s (List.mem_append_left _ hs))
    (fun f hf => hd f (List.mem_append_left _ hf))]
  have key : ∀ rest, scanLoop c none (s.cut cut :: rest) ([] ++ (framesAbove none segs).map ev) =
      .ok ([] ++ (framesAbove none segs).map ev ++ (aboveFloor none s.num (framesWithin cut s.frames)).map ev) := by
    intro rest
    obtain ⟨torn, h1, h3⟩ := scan_seg c none ev s.num s.path s.frames cut
      (hw s (by simp)) (fun f hf => hd f (List.mem_append_right _ hf)) rest
      ([] ++ (framesAbove none segs).map ev)
    have ht : torn = true := h1.2 ⟨rfl, htorn⟩
    rw [ht] at h3
    unfold SegLog.cut
    rw [h3]
    rfl
  rw [key, key]

/-! ## A concrete log -/

section Example
set_option synthInstance.maxSize 1000
set_option synthInstance.maxHeartbeats 200000

/-- A table of numbers that are their own keys. -/
def exExt (r : Nat) : Option Nat := some r

/-- One column of numbers; delete batches have a commit column behind it. -/
def exSch : Sch Unit Nat Nat where
  rows b := match b.cols with | [⟨"k", _, .u64 vs⟩] => some (vs.map (fun v => (v.getD 0).toNat)) | _ => none
  keys b := match b.cols with
    | [⟨"k", _, .u64 vs⟩, ⟨"_commit_ts", _, _⟩] => some (vs.map (fun v => v.map (·.toNat)))
    | _ => none

/-- An upsert of one row. -/
def exUp (id : BitVec 64) (k ts : BitVec 64) : Event Unit :=
  .append id ⟨[⟨"k", false, .u64 [some k]⟩], []⟩ (some ts) (.u64 [some ts])

/-- A delete of one key. -/
def exDel (id : BitVec 64) (k ts : BitVec 64) : Event Unit :=
  .delete id ⟨[⟨"k", false, .u64 [some k]⟩, ⟨"_commit_ts", false, .u64 [some ts]⟩], []⟩ (some ts)

/-- Three interleaved transactions: 2 commits first, 1 commits a row and a delete, 3 is aborted, 4 never
ends. -/
def exLog : List (Event Unit) :=
  [.begin 1, exUp 1 10 6, exUp 2 20 5, .commit 2 5, exUp 3 30 7, exDel 1 20 6, .commit 1 6, .abort 3, exUp 4 40 8]

example : logWrites exExt exSch exLog = [⟨20, 5, .put 20⟩, ⟨10, 6, .put 10⟩, ⟨20, 6, .del⟩] := by
  decide +kernel

example : GoodLog exExt exSch exLog := by
  have h : committedTxns exLog = [(5, [exUp 2 20 5]), (6, [exUp 1 10 6, exDel 1 20 6])] := by decide +kernel
  intro p hp e he
  rw [h] at hp
  simp only [List.mem_cons, List.not_mem_nil, or_false] at hp
  rcases hp with rfl | rfl
  · simp only [List.mem_cons, List.not_mem_nil, or_false] at he
    subst he
    exact ⟨[20], rfl, by simp, by simp [exExt], rfl⟩
  · simp only [List.mem_cons, List.not_mem_nil, or_false] at he
    rcases he with rfl | rfl
    · exact ⟨[10], rfl, by simp, by simp [exExt], rfl⟩
    · exact ⟨[20], rfl, by simp, ⟨"_commit_ts", false, .u64 [some 6]⟩, rfl, rfl⟩

/-- Replay with a seal after the second payload: key 10 and the deletion of 20 are there, 30 and 40 are
not. -/
example : ((replay exExt exSch (fun n => n == 1) (Runs.new 4) exLog).map
      (fun r => (r.2, r.1.runs.map (fun m : Imm Nat Nat => m.scan none 9), Mem.scan r.1.mem none 9))) =
    some (some 6, [some [.row ⟨10, 6⟩ 10, .row ⟨20, 5⟩ 20]], some [.tomb ⟨20, 6⟩]) := by
  decide +kernel

/-- A codec that reads every payload as the same batch. -/
def exIpc : Ipc (Batch Unit) where
  enc _ := [7]
  dec _ := some [⟨[⟨"k", false, .u64 [some 10]⟩, ⟨"_commit_ts", false, .u64 [some 6]⟩], []⟩]

/-- A transaction in two segments, and a second one whose commit frame is torn. -/
def exSegs : List SegLog × SegLog :=
  ([⟨0, [], [(.txnAppend, 1, encodeAppend exIpc 1 false ⟨[], []⟩)]⟩],
    ⟨1, [], [(.txnCommit, 2, leBytes 8 1 ++ leBytes 8 6), (.txnAppend, 3, encodeAppend exIpc 2 false ⟨[], []⟩),
      (.txnCommit, 4, leBytes 8 2 ++ leBytes 8 6)]⟩)

example : (recoverDb exExt exSch (fun _ => false) exIpc 4 none none
      (exSegs.1.map SegLog.file ++ [exSegs.2.cut 120])).map
      (fun r => (r.mem.runs, Mem.scan r.mem.mem none 9, r.clock, r.range)) =
    some ([], some [.row ⟨10, 6⟩ 10], 7, some (1, 1)) := by decide +kernel

/-- The second segment cut inside its first frame: the transaction is not applied. -/
example : (recoverDb exExt exSch (fun _ => false) exIpc 4 none none
      (exSegs.1.map SegLog.file ++ [exSegs.2.cut 39])).map
      (fun r => (r.mem.runs, Mem.scan r.mem.mem none 9, r.clock, r.range)) =
    some ([], some [], 0, some (1, 1)) := by decide +kernel

/-- The event of a frame. -/
def exEv (f : RawFrame) : Event Unit :=
  match decodeFrame exIpc f.1 f.2.2 with
  | .ok e => e
  | .error _ => .begin 0

/-- The frames of these segments are well formed and decode, and cut after 120 bytes the second is torn: the
hypotheses of `scan_of_torn_log`, `recovery_from_files` and `torn_segment_hides_later_segments`. -/
example : (∀ s ∈ exSegs.1 ++ [exSegs.2], WellFormed s.frames) ∧
    (∀ f ∈ framesAbove none (exSegs.1 ++ [exSegs.2]), decodeFrame exIpc f.1 f.2.2 = .ok (exEv f)) ∧
    (logBytes exSegs.2.frames).take 120 ≠ logBytes (framesWithin 120 exSegs.2.frames) := by
  refine ⟨?_, ?_, by decide +kernel⟩
  · have h : ∀ s ∈ exSegs.1 ++ [exSegs.2], ∀ f ∈ s.frames, f.2.1 ≠ 0 ∧ f.2.2.length < 4294967296 := by decide +kernel
    exact h
  · have h : framesAbove none (exSegs.1 ++ [exSegs.2]) =
        [(.txnAppend, 1, encodeAppend exIpc 1 false ⟨[], []⟩), (.txnCommit, 2, leBytes 8 1 ++ leBytes 8 6),
          (.txnAppend, 3, encodeAppend exIpc 2 false ⟨[], []⟩), (.txnCommit, 4, leBytes 8 2 ++ leBytes 8 6)] := by
      decide +kernel
    intro f hf
    rw [h] at hf
    simp only [List.mem_cons, List.not_mem_nil, or_false] at hf
    rcases hf with rfl | rfl | rfl | rfl <;> rfl

end Example

end Tonbo.Props.C28
