import Verif.Lemmas.Power
import Verif.Props.C29_C32_Durable_Ex

/-!
# C86: what was acknowledged survives a power loss

With a log that is synced before every acknowledgement, a power loss should cost nothing that was acknowledged: a write
is in the log until its table is written, and in the table afterwards.

This holds if every table the manifest lists has been written to the device when the power fails
(`power_losses_are_sound_partial`); nothing in the code sees to it. Tables are closed, listed, and the log is pruned,
without a sync. If a listed table is not on the device, every read of the table fails from then on
(`a_missing_table_stops_all_reads`), so after any history in which nothing was written back and something is listed,
the state is not what the user may expect (`an_unlucky_power_loss`), and acknowledged rows are neither in a table nor in
the log (`rows_are_nowhere`).
-/

namespace Tonbo.Props.C86
open Tonbo.Model Tonbo.Model.Manifest Tonbo.Model.Lsm Tonbo.Model.Planner Tonbo.Model.Durable Tonbo.Spec Tonbo.Spec.Durable
open Tonbo.Model.Power (St)
open Tonbo.Spec.Power Tonbo.Lemmas.Power Tonbo.Lemmas.Durable
open Tonbo.Props.C32 (scan_of_d)

variable {A K R : Type} [LinearOrder K]

/-- The state after a history of a new table. -/
def after (c : Ctx A K R) (cap sv : Nat) (ops : List (Power.Op K R)) : St A K R := Power.run c (St.new cap c.table sv) ops

theorem lucky_state {c : Ctx A K R} {cap sv : Nat} {ops : List (Power.Op K R)} (h1 : 0 < cap) (h2 : 0 < c.x.readRows)
    (h : Lucky c (St.new cap c.table sv) ops) :
    Ck c (after c cap sv ops).sys ∧ ∃ n log logs cur, D c (after c cap sv ops).sys n log logs cur :=
  lucky_run h2 ops _ (ck_new c cap sv) ⟨_, _, _, _, d_new c cap sv h1⟩ h

/-- **C86 (part).** After any history with any number of crashes and power losses, at any moments, in which the power
never fails before the tables listed by then are on the device, the database is open, and its reads show every acknowledged
write and nothing but what was committed; and timestamps handed out later are larger. -/
theorem power_losses_are_sound_partial (c : Ctx A K R) (cap sv : Nat) (h1 : 0 < cap) (h2 : 0 < c.x.readRows)
    (ops : List (Power.Op K R)) (h : Lucky c (St.new cap c.table sv) ops) :
    Sound c (after c cap sv ops).sys ∧ ClockAhead (after c cap sv ops).sys := by
  obtain ⟨hck, n, log, logs, cur, hd⟩ := lucky_state h1 h2 h
  refine ⟨⟨hd.open_, log, hd.acked, fun w hw => .inl (hd.sub w hw), fun rts hts => ?_⟩, ?_⟩
  · exact scan_of_d hd (fun a b ha hb => hck.fn a b (hd.sub a ha) (hd.sub b hb)) rts hts
  · rintro w (hw | hw)
    · exact hck.lt w hw
    · exact hck.lt w (hd.sub w (hd.acked w hw))

/-! ## Where it fails -/

theorem mapM_none {α β : Type} (f : α → Option β) : ∀ (l : List α), (∃ a ∈ l, f a = none) → l.mapM f = none
  | [], ⟨_, h, _⟩ => by cases h
  | b :: l, ⟨a, ha, hf⟩ => by
    rw [List.mapM_cons]
    rcases List.mem_cons.1 ha with rfl | ha
    · rw [hf]; rfl
    · rw [mapM_none f l ⟨a, ha, hf⟩]
      cases f b <;> rfl

/-- In every state: if the power fails while a table of the latest version is not on the device, the database does not
open, or every read of the whole table fails, at whatever timestamp. -/
theorem a_missing_table_stops_all_reads (c : Ctx A K R) (s : St A K R) (h : Missing c s) (hd : s.sys.dead = false)
    (cap : Nat) (pol : Nat → Bool) (st : Option Wal.WState) :
    let s' := (Power.step c s (.power cap pol st)).sys
    s'.dead = true ∨ ∀ rts, scanAll c.table s'.db rts = none := by
  intro s'
  have hstep : Durable.step c s.sys (.crash cap pol st) = Durable.crash c s.sys cap pol st := by
    unfold Durable.step
    rw [hd]
    rfl
  have hs' : s' = Power.withFiles (Durable.crash c s.sys cap pol st) s.device := by
    simp only [s', Power.step, hstep]
  cases hdead : (Durable.crash c s.sys cap pol st).dead with
  | true => exact .inl (by rw [hs']; exact hdead)
  | false =>
    obtain ⟨_, _, _, f4, _⟩ := crash_fresh c s.sys cap pol st hdead hd
    obtain ⟨hh, v, h1, e, h2, h3⟩ := h
    refine .inr (fun rts => ?_)
    have : latestFiles c.table s'.db = none := by
      rw [hs']
      unfold latestFiles Power.withFiles
      simp only
      rw [f4, h1]
      simp only [tableFiles]
      exact mapM_none _ _ ⟨e, h2, by simp [readFile, h3]⟩
    unfold scanAll allStreams
    rw [this]

/-- Nothing is on the device unless it was written back. -/
theorem device_empty (c : Ctx A K R) : ∀ (ops : List (Power.Op K R)) (s : St A K R), (∀ p, Power.Op.writeback p ∉ ops) →
    (Power.run c s ops).device = s.device
  | [], _, _ => rfl
  | o :: ops, s, h => by
    have := device_empty c ops (Power.step c s o) (fun p hp => h p (List.mem_cons_of_mem _ hp))
    rw [show Power.run c s (o :: ops) = Power.run c (Power.step c s o) ops from rfl, this]
    cases o with
    | live o => rfl
    | writeback p => exact absurd List.mem_cons_self (h p)
    | power cap pol st => rfl

/-- For every history in which nothing was written back and after which a table is listed: a power loss leaves a state
that is not what a user may expect. -/
theorem an_unlucky_power_loss (c : Ctx A K R) (cap sv : Nat) (ops : List (Power.Op K R))
    (hw : ∀ p, Power.Op.writeback p ∉ ops) (hd : (after c cap sv ops).sys.dead = false) {h : Head}
    {v : Version (Info K)} (hv : snapshotLatest (after c cap sv ops).sys.db.kv c.table = .ok (h, some v))
    (hne : v.ssts.flatten ≠ []) (cap' : Nat) (pol : Nat → Bool) (st : Option Wal.WState) :
    ¬ Sound c (after c cap sv (ops ++ [.power cap' pol st])).sys := by
  have hrun : after c cap sv (ops ++ [.power cap' pol st]) = Power.step c (after c cap sv ops) (.power cap' pol st) := by
    simp [after, Power.run]
  have hdev : (after c cap sv ops).device = fun _ => none := device_empty c ops _ hw
  obtain ⟨e, he⟩ := List.exists_mem_of_ne_nil _ hne
  have := a_missing_table_stops_all_reads c (after c cap sv ops) ⟨h, v, hv, e, he, by rw [hdev]⟩ hd cap' pol st
  rw [hrun]
  rintro ⟨s1, log, s2, s3, s4⟩
  rcases this with h' | h'
  · rw [s1] at h'; cases h'
  · obtain ⟨out, o1, _⟩ := s4 (log.map (·.ts)).sum (fun w hw => List.single_le_sum (by simp) _ (List.mem_map_of_mem hw))
    rw [h' _] at o1
    cases o1

section Example
open C32 (exC go wr fl crashNow ex rows)

/-- Histories without power losses. -/
def alive (ops : List (Durable.Op Nat Nat)) : List (Power.Op Nat Nat) := ops.map .live

/-- The power fails. -/
def off : List (Power.Op Nat Nat) := [.power 4 (fun _ => false) none]

def exP (ops : List (Power.Op Nat Nat)) : St Unit Nat Nat := after exC 4 0 ops

/-- A row is flushed, the log goes on in a new segment, another row is flushed, and the first segment is deleted. -/
def flushed : List (Power.Op Nat Nat) := alive (wr .plain [11] ++ [.freeze] ++ fl ++ [.rotate] ++ wr .plain [21] ++ [.freeze] ++ fl)

theorem lucky_append (c : Ctx A K R) : ∀ (a b : List (Power.Op K R)) (s : St A K R), Lucky c s a →
    Lucky c (Power.run c s a) b → Lucky c s (a ++ b)
  | [], _, _, _, h => h
  | _ :: a, b, _, h, h' => ⟨h.1, lucky_append c a b _ h.2 h'⟩

theorem lucky_alive (c : Ctx Unit Nat Nat) : ∀ (ops : List (Durable.Op Nat Nat)) (s : St Unit Nat Nat), CalmRun c s.sys ops →
    FreshRun c s.sys ops → Lucky c s (alive ops)
  | [], _, _, _ => trivial
  | _ :: ops, _, h, h' => ⟨⟨h.1, h'.1⟩, lucky_alive c ops _ h.2 h'.2⟩

theorem run_alive (c : Ctx Unit Nat Nat) : ∀ (ops : List (Durable.Op Nat Nat)) (s : St Unit Nat Nat),
    Power.run c s (alive ops) = ⟨Durable.run c s.sys ops, s.device⟩
  | [], _ => rfl
  | _ :: ops, _ => run_alive c ops _

/-- The two tables. -/
def two : Path → Option (Sst.File Nat Nat) :=
  setFile (setFile (fun _ => none) ⟨0, 1⟩ (some ⟨[(⟨1, 0⟩, 11)], []⟩)) ⟨0, 2⟩ (some ⟨[(⟨2, 1⟩, 21)], []⟩)

set_option maxRecDepth 100000 in
theorem flushed_files : (ex 4 (wr .plain [11] ++ [.freeze] ++ fl ++ [.rotate] ++ wr .plain [21] ++ [.freeze] ++ fl)).db.files =
    two := rfl

/-- The state in which the power fails for the first time, and the files on the device. -/
def st1 : St Unit Nat Nat := ⟨ex 4 (wr .plain [11] ++ [.freeze] ++ fl ++ [.rotate] ++ wr .plain [21] ++ [.freeze] ++ fl),
  two⟩

/-- The state in which it fails again. -/
def st2 : St Unit Nat Nat := Power.run exC st1 (off ++ alive (wr .plain [31]))

theorem step1 : Power.run exC (St.new 4 1 0) (flushed ++ [.writeback ⟨0, 1⟩, .writeback ⟨0, 2⟩]) = st1 := by
  unfold Power.run
  rw [List.foldl_append]
  rw [show List.foldl (Power.step exC) (St.new 4 1 0) flushed = Power.run exC (St.new 4 1 0) flushed from rfl]
  unfold flushed
  rw [run_alive]
  simp only [List.foldl_cons, List.foldl_nil, Power.step]
  unfold st1
  congr 1

set_option maxRecDepth 100000 in
theorem st2_files : st2.sys.db.files = two := by
  unfold st2
  unfold Power.run
  rw [List.foldl_append]
  rw [show List.foldl (Power.step exC) (List.foldl (Power.step exC) st1 off) (alive (wr .plain [31])) =
    Power.run exC (Power.step exC st1 (.power 4 (fun _ => false) none)) (alive (wr .plain [31])) from rfl, run_alive]
  rfl

theorem st2_device : st2.device = two :=
  device_empty exC _ _ (by intro p; simp [off, alive, wr, go])

/-- **The hypotheses can be met**: the flushed table is written back, then the power fails, then another row is written
and the power fails again. -/
theorem ex_lucky : Lucky exC (St.new 4 1 0)
    (flushed ++ [.writeback ⟨0, 1⟩, .writeback ⟨0, 2⟩] ++ (off ++ alive (wr .plain [31])) ++ off) := by
  have q1 : C32.quietB exC (Sys.new 4 1 0) (wr .plain [11] ++ [.freeze] ++ fl ++ [.rotate] ++ wr .plain [21] ++ [.freeze] ++ fl) = true := by
    decide +kernel
  have q2 : C32.calmB exC st1.sys (.crash 4 (fun _ => false) none) && C32.freshB exC st1.sys (.crash 4 (fun _ => false) none) = true := by
    decide +kernel
  have q3 : C32.quietB exC (Power.step exC st1 (.power 4 (fun _ => false) none)).sys (wr .plain [31]) = true := by
    decide +kernel
  have q4 : C32.calmB exC st2.sys (.crash 4 (fun _ => false) none) && C32.freshB exC st2.sys (.crash 4 (fun _ => false) none) = true := by
    decide +kernel
  rw [Bool.and_eq_true] at q2 q4
  obtain ⟨c1, f1⟩ := C32.quiet_of_check _ _ q1
  obtain ⟨c3, f3⟩ := C32.quiet_of_check _ _ q3
  have l1 : Lucky exC (St.new 4 1 0) (flushed ++ [.writeback ⟨0, 1⟩, .writeback ⟨0, 2⟩]) :=
    lucky_append _ _ _ _ (lucky_alive exC _ _ c1 f1) ⟨trivial, trivial, trivial⟩
  have l2 : Lucky exC st1 (off ++ alive (wr .plain [31])) := by
    refine lucky_append _ _ _ _ ⟨⟨?_, C32.calm_of_check _ _ q2.1, C32.fresh_of_check _ _ q2.2⟩, trivial⟩ (lucky_alive exC _ _ c3 f3)
    intro l e _
    unfold st1
    simp only
    rw [flushed_files]
  refine lucky_append _ _ _ _ (lucky_append _ _ _ _ l1 ?_) ?_
  · rw [step1]; exact l2
  · have e : Power.run exC (St.new 4 1 0) (flushed ++ [.writeback ⟨0, 1⟩, .writeback ⟨0, 2⟩] ++ (off ++ alive (wr .plain [31]))) = st2 := by
      unfold st2
      rw [← step1]
      unfold Power.run
      rw [List.foldl_append]
    rw [e]
    refine ⟨⟨?_, C32.calm_of_check _ _ q4.1, C32.fresh_of_check _ _ q4.2⟩, trivial⟩
    intro l e _
    rw [st2_files, st2_device]

/-- All three rows are there. -/
example : rows (exP (flushed ++ [.writeback ⟨0, 1⟩, .writeback ⟨0, 2⟩] ++ (off ++ alive (wr .plain [31])) ++ off)).sys =
    some [(1, 11), (2, 21), (3, 31)] := by decide +kernel

/-- Without the writeback: reads fail, and the first row, acknowledged, is nowhere. -/
theorem rows_are_nowhere :
    rows (exP flushed).sys = some [(1, 11), (2, 21)] ∧ rows (exP (flushed ++ off)).sys = none ∧
    (⟨1, 0, .put 11⟩ : Ver Nat Nat) ∈ (exP (flushed ++ off)).sys.acked ∧
    (∀ u, Recoverable exC (exP (flushed ++ off)).sys u → u.key ≠ 1) ∧
    (∀ g ∈ (exP (flushed ++ off)).sys.segs, g.seq ≠ 0) := by
  have hfiles : (latestFiles 1 (exP (flushed ++ off)).sys.db).isNone = true := by decide +kernel
  have hlog : (Wal.logBatches exC.ext exC.sch (replayed (floorOf exC (exP (flushed ++ off)).sys)
      (exP (flushed ++ off)).sys.segs)).all (fun u => decide (u.key ≠ 1)) = true := by decide +kernel
  have hack : (exP (flushed ++ off)).sys.acked.map (fun w => (w.key, w.ts, match w.op with | .put r => some r | .del => none)) =
      [(1, 0, some 11), (2, 1, some 21)] := by decide +kernel
  refine ⟨by decide +kernel, by decide +kernel, ?_, ?_, ?_⟩
  · have : (1, 0, some 11) ∈ (exP (flushed ++ off)).sys.acked.map
        (fun w => (w.key, w.ts, match w.op with | .put r => some r | .del => none)) := by rw [hack]; simp
    obtain ⟨w, hw, e⟩ := List.mem_map.1 this
    obtain ⟨k, t, o⟩ := w
    cases o with
    | del => simp at e
    | put r =>
      simp only [Prod.mk.injEq, Option.some.injEq] at e
      obtain ⟨rfl, rfl, rfl⟩ := e
      exact hw
  · rintro u (⟨fs, h, _⟩ | h)
    · have h : latestFiles 1 (exP (flushed ++ off)).sys.db = some fs := h
      rw [h] at hfiles
      cases hfiles
    · exact of_decide_eq_true (List.all_eq_true.1 hlog u h)
  · have : (exP (flushed ++ off)).sys.segs.all (fun g => decide (g.seq ≠ 0)) = true := by decide +kernel
    exact fun g hg => of_decide_eq_true (List.all_eq_true.1 this g hg)

/-- The hypotheses of `an_unlucky_power_loss` are met by it. -/
example : (∀ p, Power.Op.writeback p ∉ flushed) ∧ (exP flushed).sys.dead = false ∧
    (match snapshotLatest (exP flushed).sys.db.kv 1 with
      | .ok (_, some v) => !v.ssts.flatten.isEmpty
      | _ => false) = true :=
  ⟨by intro p; simp [flushed, alive, wr, go, fl], by decide +kernel, by decide +kernel⟩

end Example

end Tonbo.Props.C86
