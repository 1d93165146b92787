import Verif.Lemmas.PowerAgain
import Verif.Spec.PowerLogView
import Verif.Props.C29_C32_Durable_Ex

/-!
# C88: a power loss loses only the newest writes
-/

namespace Tonbo.Props.C88
open Tonbo.Model Tonbo.Model.Manifest Tonbo.Model.Lsm Tonbo.Model.Durable Tonbo.Model.PowerLog Tonbo.Spec
open Tonbo.Spec.Durable Tonbo.Spec.PowerLog
open Tonbo.Lemmas.Durable Tonbo.Lemmas.PowerLog
open Tonbo.Lemmas.Lsm (Inv Cont OnDisk doneRuns)
open Tonbo.Props.C32 (after Quiet)

variable {A K R : Type} [LinearOrder K]

theorem calmRun_split (c : Ctx A K R) : ∀ (a b : List (Durable.Op K R)) (s : Sys A K R),
    CalmRun c s (a ++ b) → CalmRun c s a ∧ CalmRun c (Durable.run c s a) b
  | [], _, _, h => ⟨trivial, h⟩
  | o :: a, b, s, h => by
    obtain ⟨h1, h2⟩ := calmRun_split c a b _ h.2
    exact ⟨⟨h.1, h1⟩, h2⟩

theorem freshRun_split (c : Ctx A K R) : ∀ (a b : List (Durable.Op K R)) (s : Sys A K R),
    FreshRun c s (a ++ b) → FreshRun c s a ∧ FreshRun c (Durable.run c s a) b
  | [], _, _, h => ⟨trivial, h⟩
  | o :: a, b, s, h => by
    obtain ⟨h1, h2⟩ := freshRun_split c a b _ h.2
    exact ⟨⟨h.1, h1⟩, h2⟩

/-- **C88 (partial).** A quiet history, with any number of crashes, up to a moment at which the log is synced; then
the process goes on without a crash, through writes, flushes, compactions and deletions of segments, until the power
fails. The frames up to the sync are left, and any of those after it (`keep`): the log may have holes. Then the
database opens. Its reads show every write acknowledged by the sync, every write of the transactions in the part of the
log that is left and that recovery reads, and nothing that was not committed: what is lost are writes after the sync, no
older ones.
Neither the state file, nor which of the segments without frames are there, nor what the sealing policy does during
recovery matters.

Missing: the histories `Calm` and `Fresh` exclude, reads at timestamps before the newest write. -/
theorem power_loss_keeps_what_was_synced_partial (c : Ctx A K R) (cap sv : Nat) (ops more : List (Durable.Op K R))
    (h : Quiet c cap sv (ops ++ more)) (hno : NoCrash more) (keep there : Nat → Bool)
    (hm : ∀ i, i < (after c cap sv ops).nextFrame → keep i = true)
    (cap' : Nat) (hcap : 0 < cap') (pol : Nat → Bool) (st : Option Wal.WState) :
    SurvivesWith c.table (powerLoss c (after c cap sv (ops ++ more)) keep there cap' pol st)
      (fun w => w ∈ (after c cap sv ops).acked ∨
        w ∈ Wal.logBatches c.ext c.sch (replayed (floorOf c (after c cap sv (ops ++ more)))
          (cut keep there (after c cap sv (ops ++ more)).segs)))
      (after c cap sv (ops ++ more)).committed := by
  obtain ⟨h1, h2, h3, h4⟩ := h
  obtain ⟨c1, c2⟩ := calmRun_split c ops more _ h3
  obtain ⟨f1, f2⟩ := freshRun_split c ops more _ h4
  obtain ⟨hck, hpay, n, log, logs, cur, hd, ha⟩ := st_run h2 ops (st_new (c := c) cap sv h1) c1 f1
  change D c (after c cap sv ops) n log logs cur at hd
  have hrun : ∀ o ∈ more, Running o := by
    intro o ho
    cases o with
    | crash a b d => exact absurd ho (hno a b d)
    | _ => trivial
  have hadd : after c cap sv (ops ++ more) = Durable.run c (after c cap sv ops) more := by
    unfold after
    exact List.foldl_append
  obtain ⟨n', log', logs', cur', hd', hck', hpay', _, hk, hN, hcom⟩ := run_keeps_all h2 more hd hck hpay ha c2 f2 hrun (fun v hv => hv)
    (keeps_start hd) (newRecords_start hd (Nat.le_refl _) _)
  rw [hadd]
  generalize Durable.run c (after c cap sv ops) more = s at hd' hck' hpay' hk hN hcom
  obtain ⟨ls, cu, p1, p2, p3, p4, p5, p6, p7, p8⟩ := power_state hd' hpay' hm hk hN hcap there pol st
  have hack : ∀ w ∈ (after c cap sv ops).acked, w ∈ s.committed := fun w hw => hcom w (hd.sub w (hd.acked w hw))
  have hdsk : ∀ w, OnDisk c.table n' s.db w → w ∈ s.committed := by
    rintro w ⟨v, l, e, f, a1, a2, a3, hw⟩
    exact hd'.sub w (hd'.cont.listed l e ⟨n', v, a1, a2⟩ f a3 w hw)
  refine ⟨p1, fun w => w ∈ (after c cap sv ops).acked ∨ (w ∈ ls.flatten ++ cu ∨ OnDisk c.table n' s.db w), ?_, ?_, ?_⟩
  · rintro w (hw | hw)
    · exact .inl hw
    · exact .inr (.inl ((p5 w).2 hw))
  · rintro w (hw | hw | hw)
    · exact hack w hw
    · exact p6 w ((p5 w).1 hw)
    · exact hdsk w hw
  · intro rts hts
    obtain ⟨out, o1, o2⟩ := C54.scan_of_parts (P := (· ∈ s.committed)) p2 p3 p4 (fun w hw => p6 w ((p5 w).1 hw))
      (fun w hw => hdsk w ((p7 w).1 hw)) hck'.fn rts
    refine ⟨out, o1, o2.1, fun k v => (o2.2 k v).trans ?_⟩
    have e1 : ∀ w, (w ∈ ls.flatten ∨ w ∈ cu ∨ OnDisk c.table n' (powerLoss c s keep there cap' pol st).db w) ↔
        (w ∈ ls.flatten ++ cu ∨ OnDisk c.table n' s.db w) := by
      intro w
      rw [p7 w, List.mem_append, or_assoc]
    have c1 : ∀ u, (u ∈ ls.flatten ++ cu ∨ OnDisk c.table n' s.db u) → u ∈ s.committed := by
      rintro u (hu | hu)
      · exact p6 u ((p5 u).1 hu)
      · exact hdsk u hu
    have cov : ∀ w, (w ∈ (after c cap sv ops).acked ∨ (w ∈ ls.flatten ++ cu ∨ OnDisk c.table n' s.db w)) →
        ∃ u, (u ∈ ls.flatten ++ cu ∨ OnDisk c.table n' s.db u) ∧ u.key = w.key ∧ w.ts ≤ u.ts := by
      rintro w (hw | hw)
      · obtain ⟨u, k1, k2, hu⟩ := p8 w hw
        exact ⟨u, hu.imp (p5 u).2 id, k1, k2⟩
      · exact ⟨w, hw, rfl, Nat.le_refl _⟩
    have hall : ∀ w, (w ∈ (after c cap sv ops).acked ∨ (w ∈ ls.flatten ++ cu ∨ OnDisk c.table n' s.db w)) →
        w ∈ s.committed := by
      rintro w (hw | hw)
      · exact hack w hw
      · exact c1 w hw
    constructor
    · rintro ⟨ts, hw, hle, hmax⟩
      refine ⟨ts, .inr ((e1 _).1 hw), hle, fun u hu hk' hut => ?_⟩
      obtain ⟨u', hu', k1, k2⟩ := cov u hu
      exact Nat.le_trans k2 (hmax u' ((e1 _).2 hu') (k1.trans hk') (hts _ (.inr hu')))
    · rintro ⟨ts, hw, hle, hmax⟩
      obtain ⟨u, hu, k1, k2⟩ := cov _ hw
      have q1 := hmax u (.inr hu) k1 (hts _ (.inr hu))
      have hts' : u.ts = ts := Nat.le_antisymm q1 k2
      have hop : u.op = .put v := hck'.fn u ⟨k, ts, .put v⟩ (c1 u hu) (hall _ hw) k1 hts'
      obtain ⟨uk, ut, uo⟩ := u
      simp only at k1 hts' hop
      subst k1
      subst hts'
      subst hop
      exact ⟨_, (e1 _).2 hu, hle, fun u hu hk' hut => hmax u (.inr ((e1 _).1 hu)) hk' hut⟩

/-- **C88 (partial), for histories that go on.** Histories of writes, flushes, compactions, crashes and power losses,
any number of each (`Reached`). The database is open, and a read at a timestamp not before the newest write shows every
write that was acknowledged, except those that a power loss since then took: those neither acknowledged by the last sync
before it nor left in the log. It shows nothing that was not committed. The timestamps that will be given out are larger than those of all these.

Missing: what `Calm`, `Fresh` and `CalmPower` exclude, reads at older timestamps, and segments that end inside of a
frame while later ones are there. -/
theorem power_losses_and_crashes_are_survived_partial (c : Ctx A K R) (hx : 0 < c.x.readRows) (s : Sys A K R)
    (h : Reached c s) : Sound c s ∧ ClockAhead s := by
  obtain ⟨hck, _, n, log, logs, cur, hd, _⟩ := st_reached hx h
  refine ⟨⟨hd.open_, log, hd.acked, fun w hw => .inl (hd.sub w hw), fun rts hts => ?_⟩, ?_⟩
  · exact C32.scan_of_d hd (fun a b ha hb => hck.fn a b (hd.sub a ha) (hd.sub b hb)) rts hts
  · rintro w (hw | hw)
    · exact hck.lt w hw
    · exact hck.lt w (hd.sub w (hd.acked w hw))

/-! ## A history -/

open Tonbo.Props.C32 (exC ex wr fl go rows quietB quiet_of_check crashNow lost)

/-- The frames before number `m` are left. -/
def below (m : Nat) : Nat → Bool := fun i => decide (i < m)

/-- A row that is flushed, a second row in a new segment. Here the log is synced: frames 1 to 4. -/
def synced : List (Durable.Op Nat Nat) :=
  wr .plain [11, 21] ++ [.freeze] ++ fl ++ [.rotate] ++ wr .plain [31]

/-- Two rows, of which one gets into a table with the row before it; a deletion; a write in flight. -/
def unsynced : List (Durable.Op Nat Nat) :=
  wr .plain [41] ++ [.freeze] ++ wr .tomb [51] [2] ++ fl ++ [.write .plain [61] []] ++ go 4

/-- **The hypotheses can be met**, with any number of lost frames. -/
example : Quiet exC 4 0 (synced ++ unsynced) ∧ NoCrash unsynced ∧ (ex 4 synced).nextFrame = 5 ∧
    (ex 4 (synced ++ unsynced)).segs.map (fun g => (g.seq, g.frames.map (·.1))) = [(1, [3, 4, 5, 6, 7, 8, 9, 10, 11])] ∧
    rows (powerLoss exC (ex 4 (synced ++ unsynced)) (below 5) (fun _ => false) 4 (fun _ => false) none) = some [(1, 11), (2, 21), (3, 31), (4, 41)] ∧
    rows (powerLoss exC (ex 4 (synced ++ unsynced)) (below 9) (fun _ => true) 4 (fun _ => false) none) = some [(1, 11), (2, 21), (3, 31), (4, 41)] ∧
    rows (powerLoss exC (ex 4 (synced ++ unsynced)) (below 11) (fun _ => true) 4 (fun _ => true) none) =
      some [(1, 11), (3, 31), (4, 41), (5, 51)] := by
  have h : quietB exC (Sys.new 4 1 0) (synced ++ unsynced) = true := by decide +kernel
  obtain ⟨c, f⟩ := quiet_of_check _ _ h
  refine ⟨⟨by decide, by decide, c, f⟩, ?_, by decide +kernel, by decide +kernel, by decide +kernel, by decide +kernel,
    by decide +kernel⟩
  intro cap pol st hm
  have : unsynced.all (fun o => match o with | .crash _ _ _ => false | _ => true) = true := by decide +kernel
  exact absurd (List.all_eq_true.1 this _ hm) (by simp)

/-- The conditions of `CalmPower` but the one on tables, checked. -/
def powerB (c : Ctx A K R) (ack : List (Ver K R)) (s : Sys A K R)
    (keep there : Nat → Bool) (cap : Nat) (pol : Nat → Bool) (st : Option Wal.WState) : Bool :=
  decide (0 < cap) && !(cut keep there s.segs).isEmpty &&
  (cut keep there s.segs).all (fun g => g.frames.all (fun p =>
    decide (p.1 < (Wal.resume (tailOf (cut keep there s.segs)) st).nextFrame) &&
    decide (evId p.2 < (Wal.resume (tailOf (cut keep there s.segs)) st).nextId))) &&
  (Wal.replay c.ext c.sch pol (Mem.Runs.new cap) (replayed (floorOf c s) (cut keep there s.segs))).all (fun r => r.1.runs.isEmpty) &&
  (floorOf c s).all (fun f => (cut keep there s.segs).any (fun g => decide (f.seq ≤ g.seq) && !g.frames.isEmpty)) &&
  ack.all (fun w => decide (w.ts < (powerLoss c s keep there cap pol st).clock)) &&
  (cut keep there s.segs).all (fun g => g.frames.all (fun p => match p.2 with
    | .commit _ ts => decide (ts.toNat < (powerLoss c s keep there cap pol st).clock)
    | _ => true))

theorem calmPower_of_check {c : Ctx A K R} {ack : List (Ver K R)} {s : Sys A K R}
    {keep there : Nat → Bool} {cap : Nat} {pol : Nat → Bool}
    {st : Option Wal.WState} (h : powerB c ack s keep there cap pol st = true)
    (ht : ∀ l e, EverListed s.db c.table l e → ∀ f, s.db.files ⟨l, e.id⟩ = some f → ∀ w, Holds f w →
      w.ts < (powerLoss c s keep there cap pol st).clock) : CalmPower c ack s keep there cap pol st := by
  simp only [powerB, Bool.and_eq_true, List.all_eq_true, decide_eq_true_eq, Option.all_eq_true, List.any_eq_true,
    Bool.not_eq_true', List.isEmpty_iff] at h
  obtain ⟨⟨⟨⟨⟨⟨h1, h0⟩, h2⟩, h3⟩, h4⟩, h5⟩, h6⟩ := h
  refine ⟨h1, (by intro h; rw [h] at h0; cases h0), h2, h3, ?_, h5, ?_, ht⟩
  · intro f hf
    obtain ⟨g, g1, g2, g3⟩ := h4 f hf
    exact ⟨g, g1, g2, by intro h; rw [h] at g3; cases g3⟩
  · intro g hg p hp id ts he
    have := h6 g hg p hp
    rw [he] at this
    simpa using this

/-- Frames 9 and 10 are lost. -/
def hole : Nat → Bool := fun i => decide (i < 9 ∨ 10 < i)

/-- The power fails after `synced` and `unsynced`; frames 3 to 6 are left. A write, a sync; two writes; the power fails
again, and takes the first of the two. Another write, a crash of the process. -/
def first : Sys Unit Nat Nat := afterPower exC (ex 4 synced).acked (Durable.run exC (ex 4 synced) unsynced) (below 7) (fun _ => false) 9 (fun _ => false) none

def second : Sys Unit Nat Nat := Durable.run exC first (wr .plain [71])

def third : Sys Unit Nat Nat := afterPower exC second.acked (Durable.run exC second (wr .plain [81] ++ wr .plain [101])) hole (fun _ => true) 9 (fun _ => false) none

def lastOne : Sys Unit Nat Nat := Durable.run exC third (wr .plain [91] ++ [.crash 9 (fun _ => false) none])

/-- Every file holds only versions older than this. -/
def oldFile (T : Nat) (f : Sst.File Nat Nat) : Bool :=
  f.data.all (fun p => decide (p.1.ts < T)) && f.dels.all (fun p => decide (p.ts < T))

theorem oldFile_holds {T : Nat} {f : Sst.File Nat Nat} (h : oldFile T f = true) {w : Ver Nat Nat} (hw : Holds f w) :
    w.ts < T := by
  simp only [oldFile, Bool.and_eq_true, List.all_eq_true, decide_eq_true_eq] at h
  obtain ⟨k, t, o⟩ := w
  cases o with
  | put r => exact h.1 _ hw
  | del => exact h.2 _ hw

set_option maxRecDepth 100000 in
theorem first_files : (Durable.run exC (ex 4 synced) unsynced).db.files =
    setFile (setFile (fun _ => none) ⟨0, 1⟩ (some ⟨[(⟨1, 0⟩, 11), (⟨2, 0⟩, 21)], []⟩)) ⟨0, 2⟩
      (some ⟨[(⟨3, 1⟩, 31), (⟨4, 2⟩, 41)], []⟩) := rfl

set_option maxRecDepth 100000 in
theorem third_files : (Durable.run exC second (wr .plain [81] ++ wr .plain [101])).db.files =
    setFile (setFile (fun _ => none) ⟨0, 1⟩ (some ⟨[(⟨1, 0⟩, 11), (⟨2, 0⟩, 21)], []⟩)) ⟨0, 2⟩
      (some ⟨[(⟨3, 1⟩, 31), (⟨4, 2⟩, 41)], []⟩) := rfl

theorem keeps_of_check {m : Nat} {keep : Nat → Bool} (h : (List.range m).all keep = true) :
    ∀ i, i < m → keep i = true :=
  fun i hi => List.all_eq_true.1 h i (List.mem_range.2 hi)

theorem noCrash_of_check {ops : List (Durable.Op Nat Nat)}
    (h : ops.all (fun o => match o with | .crash _ _ _ => false | _ => true) = true) : NoCrash ops :=
  fun _ _ _ hm => absurd (List.all_eq_true.1 h _ hm) (by simp)

/-- **The hypotheses can be met** by a history with two power losses and a crash. -/
theorem last_reached : Reached exC lastOne := by
  have q1 : quietB exC (Sys.new 4 1 0) synced = true := by decide +kernel
  have q2 : quietB exC (ex 4 synced) unsynced = true := by decide +kernel
  have q3 : quietB exC first (wr .plain [71]) = true := by decide +kernel
  have q4 : quietB exC second (wr .plain [81] ++ wr .plain [101]) = true := by decide +kernel
  have q5 : quietB exC third (wr .plain [91] ++ [.crash 9 (fun _ => false) none]) = true := by decide +kernel
  have r1 : Reached exC (ex 4 synced) :=
    .run synced (.new 4 0 (by decide)) (quiet_of_check _ _ q1).1 (quiet_of_check _ _ q1).2
  have k1 : (powerLoss exC (Durable.run exC (ex 4 synced) unsynced) (below 7) (fun _ => false) 9 (fun _ => false) none).clock = 3 := by decide +kernel
  have r2 : Reached exC first := by
    refine .power unsynced (below 7) (fun _ => false) 9 (fun _ => false) none r1 (quiet_of_check _ _ q2).1 (quiet_of_check _ _ q2).2
      (noCrash_of_check (by decide +kernel)) (keeps_of_check (by decide +kernel)) (calmPower_of_check (by decide +kernel) ?_)
    intro l e _ f hf w hw
    rw [k1]
    refine oldFile_holds (f := f) ?_ hw
    rw [first_files] at hf
    unfold setFile at hf
    split_ifs at hf <;> cases hf <;> decide
  have r3 : Reached exC second := .run _ r2 (quiet_of_check _ _ q3).1 (quiet_of_check _ _ q3).2
  have k2 : (powerLoss exC (Durable.run exC second (wr .plain [81] ++ wr .plain [101])) hole (fun _ => true) 9 (fun _ => false) none).clock = 6 := by decide +kernel
  have r4 : Reached exC third := by
    refine .power (wr .plain [81] ++ wr .plain [101]) hole (fun _ => true) 9 (fun _ => false) none r3 (quiet_of_check _ _ q4).1 (quiet_of_check _ _ q4).2
      (noCrash_of_check (by decide +kernel)) (keeps_of_check (by decide +kernel)) (calmPower_of_check (by decide +kernel) ?_)
    intro l e _ f hf w hw
    rw [k2]
    refine oldFile_holds (f := f) ?_ hw
    rw [third_files] at hf
    unfold setFile at hf
    split_ifs at hf <;> cases hf <;> decide
  exact .run _ r4 (quiet_of_check _ _ q5).1 (quiet_of_check _ _ q5).2

/-- What it leads to: the writes of the keys 5, 6 and 8 are gone, and the deletion of key 2. -/
example : rows lastOne = some [(1, 11), (2, 21), (3, 31), (4, 41), (7, 71), (9, 91), (10, 101)] ∧
    lastOne.acked.map (·.key) = [1, 2, 3, 3, 4, 7, 3, 4, 7, 10, 9] ∧ Sound exC lastOne := by
  refine ⟨by decide +kernel, by decide +kernel, ?_⟩
  exact (power_losses_and_crashes_are_survived_partial exC (by decide) lastOne last_reached).1

/-- A write is acknowledged whose frames are not synced, and lost. So the log has to be synced for the claim to hold. -/
theorem unsynced_write_is_lost : ∃ ops : List (Durable.Op Nat Nat), Quiet exC 4 0 ops ∧
    (⟨3, 1, .put 31⟩ : Ver Nat Nat) ∈ (ex 4 ops).acked ∧
    rows (powerLoss exC (ex 4 ops) (below 3) (fun _ => true) 4 (fun _ => false) none) = some [(1, 11), (2, 21)] := by
  refine ⟨synced, ?_, by decide +kernel, by decide +kernel⟩
  have h : quietB exC (Sys.new 4 1 0) synced = true := by decide +kernel
  obtain ⟨c, f⟩ := quiet_of_check _ _ h
  exact ⟨by decide, by decide, c, f⟩

/-- Two rows, the second in a new segment. The finished segment is not synced with `SyncPolicy::Disabled`
(writer.rs:794-801): the older row is lost and the newer one is there. -/
theorem older_write_is_lost_newer_is_kept : Quiet exC 4 0 (wr .plain [11] ++ [.rotate] ++ wr .plain [21]) ∧
    rows (powerLoss exC (ex 4 (wr .plain [11] ++ [.rotate] ++ wr .plain [21])) (fun i => decide (2 < i)) (fun _ => true) 4
      (fun _ => false) none) = some [(2, 21)] := by
  have h : quietB exC (Sys.new 4 1 0) (wr .plain [11] ++ [.rotate] ++ wr .plain [21]) = true := by decide +kernel
  obtain ⟨c, f⟩ := quiet_of_check _ _ h
  exact ⟨⟨by decide, by decide, c, f⟩, by decide +kernel⟩

/-- A row that is flushed; then a transaction that replaces it with another row, in two segments. -/
def moveRow : List (Durable.Op Nat Nat) :=
  wr .plain [21] ++ [.freeze] ++ fl ++ [.rotate] ++ [.write .strict [11] [2]] ++ go 2 ++ [.rotate] ++ go 9

/-- **A transaction that is recovered in part.** The first of its segments loses its end, in which the new row is. The
deletion and the commit record are in the second. Recovery takes them for a whole transaction: no frame says how many
belong to it, and gaps in the numbers of frames are not looked for (replay.rs:60-149). Both rows are gone. -/
theorem transaction_is_recovered_in_part : Quiet exC 4 0 moveRow ∧
    (ex 4 moveRow).segs.map (fun g => (g.seq, g.frames.map (·.1))) = [(1, [3, 4]), (2, [5, 6])] ∧
    rows (ex 4 moveRow) = some [(1, 11)] ∧
    rows (powerLoss exC (ex 4 moveRow) (fun i => decide (i ≠ 4)) (fun _ => true) 4 (fun _ => false) none) = some [] := by
  have h : quietB exC (Sys.new 4 1 0) moveRow = true := by decide +kernel
  obtain ⟨c, f⟩ := quiet_of_check _ _ h
  exact ⟨⟨by decide, by decide, c, f⟩, by decide +kernel, by decide +kernel, by decide +kernel⟩

/-- Two rows, the second in a new segment. Everything is synced, the directory is not, and the new file is not in it
when the power fails: the second row was acknowledged, and is gone. -/
theorem synced_write_is_lost_with_its_file : Quiet exC 4 0 (wr .plain [11] ++ [.rotate] ++ wr .plain [21]) ∧
    (⟨2, 1, .put 21⟩ : Ver Nat Nat) ∈ (ex 4 (wr .plain [11] ++ [.rotate] ++ wr .plain [21])).acked ∧
    (ex 4 (wr .plain [11] ++ [.rotate] ++ wr .plain [21])).segs.map (fun g => (g.seq, g.frames.map (·.1))) =
      [(0, [1, 2]), (1, [3, 4])] ∧
    rows (directoryLoss exC (ex 4 (wr .plain [11] ++ [.rotate] ++ wr .plain [21])) 1 4 (fun _ => false) none) =
      some [(1, 11)] := by
  have h : quietB exC (Sys.new 4 1 0) (wr .plain [11] ++ [.rotate] ++ wr .plain [21]) = true := by decide +kernel
  obtain ⟨c, f⟩ := quiet_of_check _ _ h
  exact ⟨⟨by decide, by decide, c, f⟩, by decide +kernel, by decide +kernel, by decide +kernel⟩

/-- A flushed row; another row in a segment of its own, a third; the second is flushed, so that the manifest says that
the log is needed from frame 3 on. -/
def floorAhead : List (Durable.Op Nat Nat) :=
  wr .plain [11] ++ [.freeze] ++ fl ++ [.rotate] ++ wr .plain [21] ++ [.freeze] ++ wr .plain [31] ++ fl

/-- **What comes after a power loss is not safe.** The power loss takes the frames 3 to 6. No state file is there, so
frames are numbered from 1 again, in the segment that recovery reads from frame 3 on. A write after the power loss is
acknowledged, and shown, and the next crash of the process alone loses it, however it was synced. With a state file
that knows of frame 2 it is kept. -/
theorem write_after_power_loss_is_lost :
    Quiet exC 4 0 floorAhead ∧
    (floorOf exC (ex 4 floorAhead)).map (fun f => (f.seq, f.first)) = some (1, 3) ∧
    rows (Durable.run exC (powerLoss exC (ex 4 floorAhead) (below 3) (fun _ => true) 4 (fun _ => false) none) (wr .plain [41])) =
      some [(1, 11), (2, 21), (4, 41)] ∧
    rows (Durable.run exC (powerLoss exC (ex 4 floorAhead) (below 3) (fun _ => true) 4 (fun _ => false) none) (wr .plain [41] ++ crashNow)) =
      some [(1, 11), (2, 21)] ∧
    rows (Durable.run exC (powerLoss exC (ex 4 floorAhead) (below 3) (fun _ => true) 4 (fun _ => false) (some ⟨some 0, some 2, some 0⟩))
      (wr .plain [41] ++ crashNow)) = some [(1, 11), (2, 21), (4, 41)] := by
  have h : quietB exC (Sys.new 4 1 0) floorAhead = true := by decide +kernel
  obtain ⟨c, f⟩ := quiet_of_check _ _ h
  refine ⟨⟨by decide, by decide, c, f⟩, by decide +kernel, by decide +kernel, by decide +kernel, by decide +kernel⟩

end Tonbo.Props.C88
