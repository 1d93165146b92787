import Verif.Lemmas.PowerTxns
import Verif.Spec.PowerLogView

/-!
# A database that goes on after a power loss
-/

set_option linter.unusedSectionVars false

namespace Tonbo.Lemmas.PowerLog
open Tonbo.Model Tonbo.Model.Manifest Tonbo.Model.Lsm Tonbo.Model.Durable Tonbo.Model.PowerLog Tonbo.Spec Tonbo.Spec.Durable
open Tonbo.Spec.PowerLog
open Tonbo.Model.Wal (Event Batch Sch commitCol WState)
open Tonbo.Spec.Wal (GoodPayload payloadWrites bodyOf payloadOf finishes logBatches)
open Tonbo.Lemmas.Lsm Tonbo.Lemmas.Durable
open Tonbo.Lemmas.Plan (forall₂_mem_right)

variable {A K R : Type} [LinearOrder K] {c : Ctx A K R}

/-- What any version ever listed is in the tables of the latest, or something newer is. -/
def AllDisk (c : Ctx A K R) (s : Sys A K R) (n : Nat) : Prop :=
  ∀ w, Ever c.table s.db w → ∃ u, OnDisk c.table n s.db u ∧ u.key = w.key ∧ w.ts ≤ u.ts

theorem allDisk_trace {s s' : Sys A K R} {n n' : Nat} {logs logs' : List (List (Ver K R))} {cur cur' : List (Ver K R)}
    (h : AllDisk c s n) (ht : Trace c.table s.db n logs cur s'.db n' logs' cur') : AllDisk c s' n' := by
  intro w hw
  rcases ht.old w hw with h1 | h1
  · obtain ⟨u, h2, h3, h4⟩ := h w h1
    obtain ⟨u', h5, h6, h7⟩ := ht.disk u h2
    exact ⟨u', h5, h6.trans h3, Nat.le_trans h4 h7⟩
  · exact ⟨w, h1, rfl, Nat.le_refl _⟩

theorem crash_db (c : Ctx A K R) (s : Sys A K R) (cap : Nat) (pol : Nat → Bool) (st : Option WState) :
    (crash c s cap pol st).db.kv = s.db.kv ∧ (crash c s cap pol st).db.files = s.db.files := by
  have hre : ∀ d, reopen cap c.table s.db = .ok d → d.kv = s.db.kv ∧ d.files = s.db.files := by
    intro d hd
    unfold reopen at hd
    split at hd
    · cases hd
    · cases hd; exact ⟨rfl, rfl⟩
  unfold crash
  cases hr : reopen cap c.table s.db with
  | error _ => exact ⟨rfl, rfl⟩
  | ok d =>
    simp only
    split
    · exact ⟨rfl, rfl⟩
    · exact hre d hr

theorem allDisk_db {s s' : Sys A K R} {n : Nat} (h : AllDisk c s n) (h1 : s'.db.kv = s.db.kv)
    (h2 : s'.db.files = s.db.files) : AllDisk c s' n := by
  have e : ∀ u, OnDisk c.table n s'.db u ↔ OnDisk c.table n s.db u := by
    intro u
    unfold OnDisk
    rw [h1, h2]
  intro w hw
  unfold Ever at hw
  rw [h1, h2] at hw
  obtain ⟨u, a, b⟩ := h w hw
  exact ⟨u, (e u).2 a, b⟩

/-- What is kept along a history. -/
def St (c : Ctx A K R) (s : Sys A K R) : Prop :=
  Ck c s ∧ Pay c s ∧ ∃ n log logs cur, D c s n log logs cur ∧ AllDisk c s n

theorem st_new (cap sv : Nat) (hcap : 0 < cap) : St c (Sys.new cap c.table sv) := by
  refine ⟨ck_new c cap sv, pay_new cap sv, _, _, _, _, d_new c cap sv hcap, ?_⟩
  rintro w ⟨l, e, f, _, h, _⟩
  simp [Sys.new, Db.new] at h

theorem st_step (hx : 0 < c.x.readRows) {s : Sys A K R} (h : St c s) (o : Durable.Op K R) (hcalm : Calm c s o)
    (hf : Fresh c s o) : St c (Durable.step c s o) := by
  obtain ⟨hck, hpay, n, log, logs, cur, hd, ha⟩ := h
  refine ⟨ck_step hck o hcalm hf, pay_step hd hpay o hcalm, ?_⟩
  have run : Running o → ∃ n log logs cur, D c (Durable.step c s o) n log logs cur ∧ AllDisk c (Durable.step c s o) n := by
    intro hr
    obtain ⟨n', log', logs', cur', hd', ht⟩ := t_step hd hx o hcalm hck.fn hr
    exact ⟨n', log', logs', cur', hd', allDisk_trace ha ht⟩
  cases o with
  | crash cap pol st =>
    obtain ⟨log', cur', hd'⟩ := d_crash hd cap pol st hcalm.1 hcalm.2.1 hcalm.2.2
    have e : Durable.step c s (.crash cap pol st) = crash c s cap pol st := by
      unfold Durable.step
      rw [hd.open_]
      rfl
    rw [e]
    obtain ⟨h1, h2⟩ := crash_db c s cap pol st
    exact ⟨n, log', [], cur', hd', allDisk_db ha h1 h2⟩
  | _ => exact run trivial

theorem st_run (hx : 0 < c.x.readRows) : ∀ (ops : List (Durable.Op K R)) {s : Sys A K R}, St c s → CalmRun c s ops →
    FreshRun c s ops → St c (Durable.run c s ops)
  | [], _, h, _, _ => h
  | o :: ops, _, h, hc, hf => st_run hx ops (st_step hx h o hc.1 hf.1) hc.2 hf.2

/-- From a sync on, without crashes. -/
theorem run_keeps_all (hx : 0 < c.x.readRows) {acked com : List (Ver K R)} {m : Nat} : ∀ (ops : List (Durable.Op K R))
    {s : Sys A K R} {n : Nat} {log : List (Ver K R)} {logs : List (List (Ver K R))} {cur : List (Ver K R)},
    D c s n log logs cur → Ck c s → Pay c s → AllDisk c s n → CalmRun c s ops → FreshRun c s ops → (∀ o ∈ ops, Running o) →
    (∀ v ∈ com, v ∈ s.committed) → Keeps c s n logs cur acked com → NewRecords s m com →
    ∃ n' log' logs' cur', D c (Durable.run c s ops) n' log' logs' cur' ∧ Ck c (Durable.run c s ops) ∧
      Pay c (Durable.run c s ops) ∧ AllDisk c (Durable.run c s ops) n' ∧
      Keeps c (Durable.run c s ops) n' logs' cur' acked com ∧ NewRecords (Durable.run c s ops) m com ∧
      ∀ v ∈ com, v ∈ (Durable.run c s ops).committed
  | [], s, n, log, logs, cur, hd, hck, hpay, ha, _, _, _, hcom, hk, hN => ⟨n, log, logs, cur, hd, hck, hpay, ha, hk, hN, hcom⟩
  | o :: ops, s, n, log, logs, cur, hd, hck, hpay, ha, hcalm, hfresh, hrun, hcom, hk, hN => by
    have hr := hrun o (by simp)
    obtain ⟨n', log', logs', cur', hd', ht⟩ := t_step hd hx o hcalm.1 hck.fn hr
    have hck' := ck_step hck o hcalm.1 hfresh.1
    have hcom' : ∀ v ∈ com, v ∈ (Durable.step c s o).committed := fun v hv => step_committed c s o v (hcom v hv)
    exact run_keeps_all hx ops hd' hck' (pay_step hd hpay o hcalm.1) (allDisk_trace ha ht) hcalm.2 hfresh.2
      (fun o ho => hrun o (List.mem_cons_of_mem _ ho)) hcom' (keeps_trace hk ht) (newRecords_step hd hck o hcalm.1 hr hcom hN)

/-! ## The power loss -/

theorem crash_ghost (c : Ctx A K R) (s : Sys A K R) (a b : List (Ver K R)) (cap : Nat) (pol : Nat → Bool)
    (st : Option WState) :
    crash c { s with acked := a, committed := b } cap pol st =
      { crash c s cap pol st with acked := a, committed := b } := by
  have hf : floorOf c { s with acked := a, committed := b } = floorOf c s := rfl
  unfold crash
  rw [hf]
  simp only
  cases reopen cap c.table s.db with
  | error _ => rfl
  | ok d =>
    simp only
    cases Wal.replay c.ext c.sch pol (Mem.Runs.new cap) (replayed (floorOf c s) s.segs) with
    | none => rfl
    | some r => rfl

theorem crash_writers (c : Ctx A K R) (s : Sys A K R) (cap : Nat) (pol : Nat → Bool) (st : Option WState)
    (h : (crash c s cap pol st).dead = false) : (crash c s cap pol st).writers = [] := by
  unfold crash at h ⊢
  cases hr : reopen cap c.table s.db with
  | error _ => rw [hr] at h; cases h
  | ok d =>
    rw [hr] at h
    simp only at h ⊢
    cases hp : Wal.replay c.ext c.sch pol (Mem.Runs.new cap) (replayed (floorOf c s) s.segs) with
    | none => rw [hp] at h; cases h
    | some r => rfl

open Classical in
theorem cold_power {s : Sys A K R} {n : Nat} {log : List (Ver K R)} {logs : List (List (Ver K R))} {cur : List (Ver K R)}
    (h : D c s n log logs cur) (hpay : Pay c s) (ha : AllDisk c s n) {acked com : List (Ver K R)} {m : Nat}
    {keep there : Nat → Bool} {cap : Nat} {pol : Nat → Bool}
    {st : Option WState} (hk : Keeps c s n logs cur acked com) (hN : NewRecords s m com)
    (hm : ∀ i, i < m → keep i = true) (hack : ∀ w ∈ acked, w ∈ s.committed) (hp : CalmPower c acked s keep there cap pol st) :
    ∃ log', Cold c { s with
      segs := cut keep there s.segs
      acked := acked ++ leftInLog c s keep there
      committed := s.committed.filter (fun w => decide (w.ts < (powerLoss c s keep there cap pol st).clock)) } n log' := by
  generalize hT : (powerLoss c s keep there cap pol st).clock = T
  have hp1 := hp.acked
  have hp2 := hp.log
  have hp3 := hp.tables
  rw [hT] at hp1 hp2 hp3
  have hfgood : ∀ r ∈ (floorOf c s).toList, RefGood (entries s.segs) r := h.refs _ (by unfold base; simp)
  have hfl : ∀ g, AllCov (base c s) g → floorSeq (floorOf c s) ≤ g := fun g hg =>
    covers_floor.1 (hg (floorOf c s).toList (by unfold base; simp))
  have hfloor : ∀ a b, floorOf c { s with segs := cut keep there s.segs, acked := a, committed := b } = floorOf c s := fun _ _ => rfl
  have hsub : ∀ x ∈ entries (cut keep there s.segs), x ∈ entries s.segs := by
    intro x hx
    rw [entries_cut] at hx
    exact (List.mem_filter.1 hx).1
  have hordc : Ord (entries (cut keep there s.segs)) := by
    rw [entries_cut]
    exact List.Pairwise.filter _ h.lg.ord
  have hgood : AllTxns (fun ts e => GoodPayload c.ext c.sch ts e ∧ ∀ w ∈ lastOnly (payloadWrites c.ext c.sch ts e),
      w ∈ s.committed.filter (fun w => decide (w.ts < T))) (evs (entries (cut keep there s.segs))) := by
    have hgood := pay_txns hpay hsub
    intro p hpm e he
    obtain ⟨q1, q2⟩ := hgood p hpm e he
    refine ⟨q1, fun w hw => List.mem_filter.2 ⟨q2 w hw, ?_⟩⟩
    obtain ⟨pre, id, post, h1, _⟩ := mem_committed.1 hpm
    have hmem : Event.commit id p.1 ∈ evs (entries (cut keep there s.segs)) := by rw [h1]; simp
    unfold evs at hmem
    obtain ⟨x, hx, hxe⟩ := List.mem_map.1 hmem
    obtain ⟨g, hg, y, hy, rfl⟩ := mem_entries.1 hx
    rw [payload_ts hw]
    simpa using hp2 g hg y hy id p.1 hxe
  have hleft : ∀ w ∈ leftInLog c s keep there, w ∈ s.committed.filter (fun w => decide (w.ts < T)) ∧
      ∃ g j, LoggedAt c.ext c.sch (entries (cut keep there s.segs)) w g j ∧ floorSeq (floorOf c s) ≤ g := by
    intro w hw
    unfold leftInLog at hw
    rw [replayed_from (floor := floorOf c s) (segs := cut keep there s.segs)
      (fun r hr x hx => (hfgood r hr).2 x (hsub x hx))] at hw
    obtain ⟨a, ha⟩ := since_suffix (fl := floorSeq (floorOf c s)) (ord_seg hordc)
    constructor
    · obtain ⟨p, hp, e, he, hw⟩ := mem_logBatches.1 hw
      rw [ha, evs_append] at hgood
      exact (allTxns_suffix hgood p hp e he).2 w hw
    · obtain ⟨g, j, hl⟩ := logged_of_batches hw
      obtain ⟨e, he⟩ := logged_mem hl
      refine ⟨g, j, by rw [ha]; exact logged_prepend a hl, ?_⟩
      unfold since at he
      simpa using (List.mem_filter.1 he).2
  have hever : ∀ l e, Lst s.db.kv c.table l e → ∀ f, s.db.files ⟨l, e.id⟩ = some f → ∀ w, Holds f w →
      w ∈ s.committed ∧ w.ts < T := fun l e he f hf w hw =>
    ⟨h.sub w (h.cont.listed l e he f hf w hw), hp3 l e (everListed_iff.2 he) f hf w hw⟩
  refine ⟨(s.committed.filter (fun w => decide (w.ts < T))).filter
    (fun w => decide (w ∈ acked ++ leftInLog c s keep there ∨ Ever c.table s.db w)), h.open_, h.inv, ?_, ?_, ?_, ?_, ?_, ?_⟩
  · refine ⟨?_, ?_, ?_, h.lg.frame1, ?_, fun x hx => h.lg.lt x (hsub x hx), ?_⟩
    · exact hp.rest
    · simp only [cut]
      exact List.Pairwise.filter _ (List.pairwise_map.2 h.lg.asc)
    · intro g hg
      obtain ⟨g', hg', rfl⟩ := List.mem_map.1 (List.mem_filter.1 hg).1
      exact h.lg.next g' hg'
    · exact hordc
    · exact hgood
  · intro r hr
    rw [hfloor] at hr
    refine ⟨?_, fun x hx => (hfgood r hr).2 x (hsub x hx)⟩
    obtain ⟨g, hg, h1, h2⟩ := hp.floor r (by simpa using hr)
    obtain ⟨y, hy⟩ := List.exists_mem_of_ne_nil _ h2
    exact ⟨_, mem_entries.2 ⟨g, hg, y, hy, rfl⟩, h1⟩
  · intro l e he f hf w hw
    obtain ⟨h1, h2⟩ := hever l e he f hf w hw
    refine List.mem_filter.2 ⟨List.mem_filter.2 ⟨h1, by simpa using h2⟩, ?_⟩
    simpa using Or.inr ⟨l, e, f, he, hf, hw⟩
  · intro w hw
    have hw := (List.mem_filter.1 hw).2
    simp only [decide_eq_true_eq] at hw
    rcases hw with hw | hw
    · rcases List.mem_append.1 hw with hw | hw
      swap
      · exact ⟨w, rfl, Nat.le_refl _, .inl (hleft w hw).2⟩
      obtain ⟨u, h1, h2, ⟨h3, h4⟩ | h3⟩ := hk w hw
      · refine ⟨u, h1, h2, .inl ?_⟩
        have hlog : ∃ g j, LoggedAt c.ext c.sch (entries s.segs) u g j ∧ AllCov (base c s) g := by
          rcases h3 with h3 | h3
          · obtain ⟨l, hl, hu⟩ := List.mem_flatten.1 h3
            obtain ⟨r, _, hr⟩ := forall₂_mem_right h.safe.runs hl
            obtain ⟨_, _, g, j, _, _, g3, g4⟩ := hr u hu
            exact ⟨g, j, g3, g4⟩
          · obtain ⟨_, _, g, j, _, _, g3, g4⟩ := h.safe.cur u h3
            exact ⟨g, j, g3, g4⟩
        obtain ⟨g, j, g3, g4⟩ := hlog
        have g5 := logged_cut (m := m) hm h.lg.ord g3 (by
          intro x hx hge id ts he e hu
          exact hN x hx hge id ts he u h4 (payload_ts hu))
        rw [← entries_cut] at g5
        exact ⟨g, j, g5, hfl g g4⟩
      · exact ⟨u, h1, h2, .inr h3⟩
    · obtain ⟨u, h1, h2, h3⟩ := ha w hw
      exact ⟨u, h2, h3, .inr h1⟩
  · intro w hw
    refine List.mem_filter.2 ⟨?_, decide_eq_true (.inl hw)⟩
    rcases List.mem_append.1 hw with hw | hw
    · exact List.mem_filter.2 ⟨hack w hw, by simpa using hp1 w hw⟩
    · exact (hleft w hw).1
  · exact fun w hw => (List.mem_filter.1 hw).1

theorem pay_open {ack : List (Ver K R)} {s : Sys A K R} {keep there : Nat → Bool} {cap : Nat} {pol : Nat → Bool}
    {st : Option WState} (hp : CalmPower c ack s keep there cap pol st) (hpay : Pay c s)
    (hw : (afterPower c ack s keep there cap pol st).writers = []) : Pay c (afterPower c ack s keep there cap pol st) := by
  have hs : (afterPower c ack s keep there cap pol st).segs = cut keep there s.segs := by
    change (crash c _ cap pol st).segs = _
    unfold crash
    split
    · rfl
    · split <;> rfl
  have hsub : ∀ x ∈ entries (cut keep there s.segs), x ∈ entries s.segs := by
    intro x hx
    rw [entries_cut] at hx
    exact (List.mem_filter.1 hx).1
  refine ⟨?_, by rw [hw]; simp⟩
  rw [hs]
  intro x hx y hy id ts he hpl
  obtain ⟨a, b⟩ := hpay.log x (hsub x hx) y (hsub y hy) id ts he hpl
  refine ⟨a, fun v hv => List.mem_filter.2 ⟨b v hv, ?_⟩⟩
  obtain ⟨g, hg, z, hz, rfl⟩ := mem_entries.1 hx
  rw [payload_ts hv]
  simpa using hp.log g hg z hz id ts he

theorem afterPower_eq (c : Ctx A K R) (ack : List (Ver K R)) (s : Sys A K R) 
    (keep there : Nat → Bool) (cap : Nat) (pol : Nat → Bool) (st : Option WState) :
    afterPower c ack s keep there cap pol st = crash c { s with
      segs := cut keep there s.segs
      acked := ack ++ leftInLog c s keep there
      committed := s.committed.filter (fun w => decide (w.ts < (powerLoss c s keep there cap pol st).clock)) } cap pol st :=
  (crash_ghost c { s with segs := cut keep there s.segs } _ _ cap pol st).symm

theorem st_power (hx : 0 < c.x.readRows) {s : Sys A K R} (h : St c s) {more : List (Durable.Op K R)} {keep there : Nat → Bool} {cap : Nat}
    {pol : Nat → Bool} {st : Option WState} (hc : CalmRun c s more) (hf : FreshRun c s more)
    (hrun : ∀ o ∈ more, Running o) (hm : ∀ i, i < s.nextFrame → keep i = true) (hp : CalmPower c s.acked (Durable.run c s more) keep there cap pol st) :
    St c (afterPower c s.acked (Durable.run c s more) keep there cap pol st) := by
  obtain ⟨hck, hpay, n, log, logs, cur, hd, ha⟩ := h
  obtain ⟨n', log', logs', cur', hd', hck', hpay', ha', hk, hN, hcom⟩ := run_keeps_all hx more hd hck hpay ha hc hf hrun
    (fun v hv => hv) (keeps_start hd) (newRecords_start hd (Nat.le_refl _) _)
  have hack : ∀ w ∈ s.acked, w ∈ (Durable.run c s more).committed := fun w hw => hcom w (hd.sub w (hd.acked w hw))
  generalize Durable.run c s more = t at *
  obtain ⟨l2, hcold⟩ := cold_power hd' hpay' ha' hk hN hm hack hp
  obtain ⟨l3, c3, hd3⟩ := d_open hcold cap pol st hp.pos hp.numbers hp.flat
  rw [← afterPower_eq] at hd3
  have hopen := hd3.open_
  have hw : (afterPower c s.acked t keep there cap pol st).writers = [] := by
    have := crash_writers c { t with segs := cut keep there t.segs } cap pol st hopen
    exact this
  refine ⟨⟨?_, ?_, by rw [hw]; exact .nil, by rw [hw]; simp⟩, pay_open hp hpay' hw, n', l3, [], c3, hd3, ?_⟩
  · intro a b ha hb
    exact hck'.fn a b (List.mem_filter.1 ha).1 (List.mem_filter.1 hb).1
  · intro v hv
    exact of_decide_eq_true (List.mem_filter.1 hv).2
  · obtain ⟨h1, h2⟩ := crash_db c { t with segs := cut keep there t.segs } cap pol st
    exact allDisk_db ha' h1 h2

theorem st_reached (hx : 0 < c.x.readRows) {s : Sys A K R} (h : Reached c s) : St c s := by
  induction h with
  | new cap sv h => exact st_new cap sv h
  | run ops _ hc hf ih => exact st_run hx ops ih hc hf
  | power more keep there cap pol st _ hc hf hno hm hp ih =>
    refine st_power hx ih hc hf ?_ hm hp
    intro o ho
    cases o with
    | crash a b d => exact absurd ho (hno a b d)
    | _ => trivial

end Tonbo.Lemmas.PowerLog
