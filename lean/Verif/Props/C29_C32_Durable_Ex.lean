import Verif.Props.C29_C32_Durable
import Mathlib.Tactic.SplitIfs

/-!
# A quiet history

Writes of all kinds, flushes, a compaction and two crashes.
-/

namespace Tonbo.Props.C32
open Tonbo.Model Tonbo.Model.Manifest Tonbo.Model.Lsm Tonbo.Model.Durable Tonbo.Spec Tonbo.Spec.Durable
open Tonbo.Model.Wal (Batch Event Sch)

variable {A K R : Type} [LinearOrder K]

theorem calmRun_append (c : Ctx A K R) : ∀ (a b : List (Durable.Op K R)) (s : Sys A K R),
    CalmRun c s a → CalmRun c (Durable.run c s a) b → CalmRun c s (a ++ b)
  | [], _, _, _, h => h
  | o :: a, b, s, h1, h2 => ⟨h1.1, calmRun_append c a b (Durable.step c s o) h1.2 h2⟩

theorem freshRun_append (c : Ctx A K R) : ∀ (a b : List (Durable.Op K R)) (s : Sys A K R),
    FreshRun c s a → FreshRun c (Durable.run c s a) b → FreshRun c s (a ++ b)
  | [], _, _, _, h => h
  | o :: a, b, s, h1, h2 => ⟨h1.1, freshRun_append c a b (Durable.step c s o) h1.2 h2⟩

/-- The column is this one. -/
def columnB : Option (Wal.Col A) → List (Option (BitVec 64)) → Bool
  | some (.u64 vs), us => decide (vs = us)
  | _, _ => false

theorem columnB_eq {o : Option (Wal.Col A)} {us : List (Option (BitVec 64))} (h : columnB o us = true) :
    o = some (.u64 us) := by
  unfold columnB at h
  split at h
  · rw [of_decide_eq_true h]
  · cases h

/-- `Recent`, checked. -/
def recentB (s : Sys A K R) (n : Nat) : Bool := s.segs.dropLast.all (fun g => g.frames.all (fun p => decide (p.1 < n)))

theorem recent_of {s : Sys A K R} {n : Nat} (h : recentB s n = true) : Recent s n := by
  simp only [recentB, List.all_eq_true, decide_eq_true_eq] at h
  exact h

/-- The steps but `finish`, checked. -/
def calmB [DecidableEq R] (c : Ctx A K R) (s : Sys A K R) : Durable.Op K R → Bool
  | .write mode rows keys =>
    (s.writers.isEmpty || (decide (mode ≠ .strict) && s.writers.all (fun w => !w.isTxn))) && decide (mode ≠ .fast) && decide (mode = .plain → rows ≠ []) &&
    rows.all (fun r => decide (c.ext r ≠ none)) &&
    decide (c.sch.rows (c.enc.rows rows) = some rows) &&
    decide (c.sch.keys (c.enc.keys keys (BitVec.ofNat 64 s.clock)) = some (keys.map some)) &&
    columnB (((c.enc.keys keys (BitVec.ofNat 64 s.clock)).cols.find? (·.name == Wal.commitCol)).map (·.col))
      (List.replicate keys.length (some (BitVec.ofNat 64 s.clock))) &&
    decide (s.clock < 2 ^ 64) && decide (s.nextId < 2 ^ 64)
  | .advance i =>
    match s.writers[i]? with
    | none => true
    | some w => (w.phase != .applyUp || (s.db.runs.call c.ext w.putOp).2.runs.length == s.db.runs.runs.length) &&
      (w.phase != .applyDel || (s.db.runs.call c.ext w.delOp).2.runs.length == s.db.runs.runs.length)
  | .freeze => s.writers.all (fun w => !decide (Applying w))
  | .flushWrite =>
    s.writers.all (fun w => !decide (Unrecorded w) || w.span.all (fun sp => recentB s sp.1)) &&
    s.flushCount.all (fun n => (s.ranges.drop n).all (fun r => r.all (fun sp => recentB s sp.1)))
  | .finish _ => false
  | .crash cap pol st =>
    decide (0 < cap) && s.segs.all (fun g => g.frames.all (fun p =>
      decide (p.1 < (Wal.resume (tailOf s.segs) st).nextFrame) && decide (evId p.2 < (Wal.resume (tailOf s.segs) st).nextId))) &&
    (Wal.replay c.ext c.sch pol (Mem.Runs.new cap) (replayed (floorOf c s) s.segs)).all (fun r => r.1.runs.isEmpty)
  | _ => true

theorem calm_of_check [DecidableEq R] {c : Ctx A K R} (s : Sys A K R) (o : Durable.Op K R) (h : calmB c s o = true) : Calm c s o := by
  cases o with
  | write mode rows keys =>
    simp only [calmB, Bool.and_eq_true, decide_eq_true_eq, List.all_eq_true] at h
    obtain ⟨⟨⟨⟨⟨⟨⟨⟨h1, h2⟩, h3⟩, h4⟩, h5⟩, h6⟩, h9⟩, h7⟩, h8⟩ := h
    have h1 : s.writers = [] ∨ (mode ≠ .strict ∧ ∀ w ∈ s.writers, w.isTxn = false) := by
      rcases Bool.or_eq_true_iff.1 h1 with h | h
      · exact .inl (List.isEmpty_iff.1 h)
      · simp only [Bool.and_eq_true, decide_eq_true_eq, List.all_eq_true, Bool.not_eq_true'] at h
        exact .inr h
    exact ⟨h1, h2, h3, h4, ⟨h5, h6, columnB_eq h9⟩, h7, h8⟩
  | advance i =>
    intro w hw
    have hw : s.writers[i]? = some w := hw
    simp only [calmB, hw, Bool.and_eq_true, Bool.or_eq_true, bne_iff_ne, beq_iff_eq] at h
    refine ⟨fun hp => ?_, fun hp => ?_⟩
    · rcases h.1 with h | h
      · exact absurd hp h
      · exact h
    · rcases h.2 with h | h
      · exact absurd hp h
      · exact h
  | freeze =>
    simp only [calmB, List.all_eq_true, Bool.not_eq_true'] at h
    exact fun w hw hb => by
      have := h w hw
      simp [hb] at this
  | flushWrite =>
    simp only [calmB, Bool.and_eq_true, List.all_eq_true, Bool.or_eq_true, Bool.not_eq_true', Option.all_eq_true] at h
    refine ⟨fun w hw hu sp hsp => ?_, fun n hn r hr sp hsp => ?_⟩
    · rcases h.1 w hw with h | h
      · simp [hu] at h
      · exact recent_of (h sp hsp)
    · exact recent_of (h.2 n hn r hr sp hsp)
  | finish i => cases h
  | crash cap pol st =>
    simp only [calmB, Bool.and_eq_true, decide_eq_true_eq, List.all_eq_true] at h
    refine ⟨h.1.1, h.1.2, fun r hr => ?_⟩
    have hr : Wal.replay c.ext c.sch pol (Mem.Runs.new cap) (replayed (floorOf c s) s.segs) = some r := hr
    rw [hr] at h
    simpa using h.2
  | _ => trivial

/-- The conditions on timestamps, checked. -/
def freshB (c : Ctx A K R) (s : Sys A K R) : Durable.Op K R → Bool
  | .write _ rows keys => rows.all (fun r => keys.all (fun k => decide (c.ext r ≠ some k)))
  | .crash _ _ st =>
    s.committed.all (fun w => decide (w.ts + 1 < 2 ^ 64)) &&
    (s.committed.all (fun w => (Wal.logBatches c.ext c.sch (replayed (floorOf c s) s.segs)).any
      (fun u => decide (w.ts ≤ u.ts))) ||
    ((Wal.committedTxns (replayed (floorOf c s) s.segs)).isEmpty &&
      (st.bind (·.lastCommit)).any (fun t => s.committed.all (fun w => decide (w.ts ≤ t)))))
  | _ => true

theorem fresh_of_check {c : Ctx A K R} (s : Sys A K R) (o : Durable.Op K R) (h : freshB c s o = true) : Fresh c s o := by
  cases o with
  | write mode rows keys =>
    simp only [freshB, decide_eq_true_eq, List.all_eq_true] at h
    exact h
  | crash cap pol st =>
    simp only [freshB, Bool.and_eq_true, Bool.or_eq_true, decide_eq_true_eq, List.all_eq_true, List.any_eq_true,
      List.isEmpty_iff] at h
    refine ⟨h.1, ?_⟩
    rcases h.2 with h | h
    · exact .inl h
    · refine .inr ⟨h.1, ?_⟩
      obtain ⟨_, h⟩ := h
      cases hb : st.bind (·.lastCommit) with
      | none => rw [hb] at h; cases h
      | some t =>
        rw [hb] at h
        exact ⟨t, rfl, by simpa using h⟩
  | _ => trivial

/-- Both, along a history. -/
def quietB [DecidableEq R] (c : Ctx A K R) : Sys A K R → List (Durable.Op K R) → Bool
  | _, [] => true
  | s, o :: os => calmB c s o && freshB c s o && quietB c (Durable.step c s o) os

theorem quiet_of_check [DecidableEq R] {c : Ctx A K R} : ∀ (ops : List (Durable.Op K R)) (s : Sys A K R), quietB c s ops = true →
    CalmRun c s ops ∧ FreshRun c s ops
  | [], _, _ => ⟨trivial, trivial⟩
  | o :: ops, s, h => by
    simp only [quietB, Bool.and_eq_true] at h
    obtain ⟨h1, h2⟩ := quiet_of_check ops _ h.2
    exact ⟨⟨calm_of_check s o h.1.1, h1⟩, fresh_of_check s o h.1.2, h2⟩

/-- An ingested batch, a flush, a batch with deletions in a second segment, a flush, a crash, a strict
transaction, a third segment, a write that is abandoned before its commit record; a compaction begins. -/
def busy : List (Durable.Op Nat Nat) :=
  wr .plain [11, 21] ++ [.freeze] ++ fl ++ [.rotate] ++ wr .tomb [12, 31] [2] ++ [.freeze] ++ fl ++ crashNow ++
  wr .strict [41] ++ [.rotate] ++ wr .tomb [51] ++ [.write .strict [61] []] ++ go 3 ++ [.cancel 0] ++
  [.start ⟨0, 1, [⟨0, 1⟩, ⟨0, 2⟩], none⟩ none 0]

/-- The compaction ends, a last write, a flush that deletes two segments, two crashes. -/
def busyToo : List (Durable.Op Nat Nat) :=
  wr .plain [42] ++ crashNow ++ [.freeze] ++ fl ++ wr .plain [43] ++ crashNow

def all : List (Durable.Op Nat Nat) := busy ++ [.finish 0] ++ busyToo

set_option maxRecDepth 100000 in
theorem busy_files : (ex 4 busy).db.files = setFile (setFile (setFile (fun _ => none) ⟨0, 1⟩
    (some ⟨[(⟨1, 0⟩, 11), (⟨2, 0⟩, 21)], []⟩)) ⟨0, 2⟩ (some ⟨[(⟨1, 1⟩, 12), (⟨3, 1⟩, 31)], [⟨2, 1⟩]⟩)) ⟨1, 3⟩
    (some ⟨[(⟨1, 1⟩, 12), (⟨3, 1⟩, 31)], [⟨2, 1⟩]⟩) := rfl

/-- **The hypotheses can be met**: the history is quiet. Rows of a table with at most eight rows and
deletions are read in step. -/
theorem all_quiet : Quiet exC 4 0 all := by
  have h1 : quietB exC (Sys.new 4 1 0) busy = true := by decide +kernel
  have h2 : quietB exC (ex 4 (busy ++ [.finish 0])) busyToo = true := by decide +kernel
  have h3 : floorOf exC (stepLive exC (ex 4 busy) (.finish 0)) = floorOf exC (ex 4 busy) := by decide +kernel
  obtain ⟨c1, f1⟩ := quiet_of_check _ _ h1
  obtain ⟨c2, f2⟩ := quiet_of_check _ _ h2
  have c3 : CalmRun exC (ex 4 busy) [.finish 0] := by
    refine ⟨⟨?_, .inl h3⟩, trivial⟩
    intro l e _ f hf
    refine .inr (.inr (.inl ?_))
    rw [busy_files] at hf
    unfold setFile at hf
    split_ifs at hf <;> cases hf <;> decide
  refine ⟨by decide, by decide, ?_, ?_⟩
  · exact calmRun_append _ _ _ _ (calmRun_append _ _ _ _ c1 c3) c2
  · exact freshRun_append _ _ _ _ (freshRun_append _ _ _ _ f1 ⟨trivial, trivial⟩) f2

/-- What it leads to. -/
example : rows (ex 4 all) = some [(1, 12), (3, 31), (4, 43), (5, 51)] ∧
    (ex 4 all).segs.map (fun g => (g.seq, g.frames.map (·.1))) = [(2, [9, 10, 11, 12, 13, 14, 15, 16])] ∧
    (ex 4 all).clock = 7 ∧ (ex 4 all).acked.length = 9 ∧ (ex 4 all).dead = false := by
  refine ⟨by decide +kernel, by decide +kernel, by decide +kernel, by decide +kernel, by decide +kernel⟩

/-- Three writes at once, their frames mixed, a new segment in between, a fourth write before they end. They are at
the end of their ways when the fourth has its commit record. -/
def crowd : List (Durable.Op Nat Nat) :=
  [.write .plain [11, 21] [], .write .tomb [31] [1], .write .plain [12] []] ++
  [1, 0, 2, 1, 2, 0, 1, 1].map .advance ++ [.rotate] ++ [2, 2, 2, 2, 0, 0, 1, 1].map .advance ++
  [.write .tomb [41] []] ++ [3, 3, 3, 2, 2, 2, 2, 2, 2, 0, 0, 0, 0, 1, 1, 1].map .advance

/-- **The hypotheses can be met** by writes in flight together. -/
theorem crowd_quiet : Quiet exC 4 0 crowd := by
  have h : quietB exC (Sys.new 4 1 0) crowd = true := by decide +kernel
  obtain ⟨c, f⟩ := quiet_of_check _ _ h
  exact ⟨by decide, by decide, c, f⟩

/-- A crash while three writes of `crowd` are in flight. Then three more at once: the memory is frozen when two have
their rows in it and the third its payload in the log; a flush begins, and the third brings its row and is frozen too
before the flush lists the segments; another crash before it is acknowledged. -/
def crowdToo : List (Durable.Op Nat Nat) :=
  [.crash 9 (fun _ => false) none] ++ [.write .plain [51] [], .write .plain [52, 13] [], .write .plain [61] []] ++ go 7 ++
  List.replicate 7 (.advance 1) ++ [.advance 2, .advance 2, .freeze] ++ go 3 ++ [.flushBegin] ++
  List.replicate 5 (.advance 1) ++ [.freeze, .flushWrite, .flushPublish, .prune, .flushDrain] ++ go 3 ++
  [.crash 9 (fun _ => false) none]

example : Quiet exC 4 0 (crowd ++ crowdToo) ∧
    (ex 4 crowd).segs.map (fun g => g.frames.map (fun p => evId p.2)) = [[2, 3, 1, 2, 2], [3, 1, 4, 4]] ∧
    (ex 4 crowd).committed.map (fun v => (v.key, v.ts)) = [(3, 1), (1, 1), (1, 2), (1, 0), (2, 0), (4, 3)] ∧
    (ex 4 crowd).acked = [⟨1, 2, .put 12⟩] ∧
    rows (ex 4 (crowd ++ crashNow)) = some [(1, 12), (2, 21), (3, 31), (4, 41)] ∧
    (ex 4 (crowd ++ crowdToo)).db.next = 2 ∧
    rows (ex 4 (crowd ++ crowdToo)) = some [(1, 13), (2, 21), (3, 31), (4, 41), (5, 52), (6, 61)] := by
  have h : quietB exC (Sys.new 4 1 0) (crowd ++ crowdToo) = true := by decide +kernel
  obtain ⟨c, f⟩ := quiet_of_check _ _ h
  exact ⟨⟨by decide, by decide, c, f⟩, by decide +kernel, by decide +kernel, by decide +kernel, by decide +kernel,
    by decide +kernel, by decide +kernel⟩

/-- For `recovery_reproduces_the_state_partial`: two more crashes, and a flush. -/
example : Quiet exC 4 0 (all ++ (crashNow ++ [.freeze] ++ fl ++ [.crash 8 (fun _ => false) (some ⟨some 2, some 16, some 6⟩)])) ∧
    (∀ w ∈ (after exC 4 0 all).committed, w ∈ (after exC 4 0 all).acked) ∧
    (after exC 4 0 (all ++ (crashNow ++ [.freeze] ++ fl ++
      [.crash 8 (fun _ => false) (some ⟨some 2, some 16, some 6⟩)]))).committed = (after exC 4 0 all).committed := by
  obtain ⟨a, b, c, d⟩ := all_quiet
  have h : quietB exC (ex 4 all) (crashNow ++ [.freeze] ++ fl ++
    [.crash 8 (fun _ => false) (some ⟨some 2, some 16, some 6⟩)]) = true := by decide +kernel
  obtain ⟨c2, f2⟩ := quiet_of_check _ _ h
  exact ⟨⟨a, b, calmRun_append _ _ _ _ c c2, freshRun_append _ _ _ _ d f2⟩, by decide +kernel, by decide +kernel⟩

end Tonbo.Props.C32
