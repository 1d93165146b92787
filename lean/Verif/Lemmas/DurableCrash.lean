import Verif.Lemmas.DurableFlush

/-!
# Crashes, and calm histories
-/

set_option linter.unusedSectionVars false

namespace Tonbo.Lemmas.Durable
open Tonbo.Model Tonbo.Model.Manifest Tonbo.Model.Lsm Tonbo.Model.Durable Tonbo.Spec Tonbo.Spec.Durable
open Tonbo.Model.Wal (Event Batch Sch commitCol WState)
open Tonbo.Spec.Wal (GoodPayload payloadWrites bodyOf payloadOf finishes logBatches)
open Tonbo.Lemmas.Lsm (Inv Cont OnDisk doneRuns At Lst inv_frame inv_reopen allocator_spec inv_new cont_new)
open Tonbo.Lemmas.Replay (Fine good_all loop_all)
open Tonbo.Lemmas.Mem (call_last rep_new Rep)
open Tonbo.Lemmas.Plan (forall₂_mem_right)

variable {A K R : Type} [LinearOrder K]

/-! ## The log as replay sees it -/

theorem logged_of_batches {ext : R → Option K} {sch : Sch A K R} {E : List (Ent A)} {w : Ver K R}
    (h : w ∈ logBatches ext sch (evs E)) : ∃ g n, LoggedAt ext sch E w g n := by
  obtain ⟨p, hp, e, he, hw⟩ := mem_logBatches.1 h
  obtain ⟨pre, id, post, h1, h2⟩ := mem_committed.1 hp
  rw [h2] at he
  obtain ⟨hpay, l1, l2, h3, h4⟩ := mem_body.1 he
  unfold evs at h1
  obtain ⟨E1, E2, rfl, h5, h6⟩ := List.map_eq_append_iff.1 h1
  obtain ⟨x, E3, rfl, h7, _⟩ := List.map_eq_cons_iff.1 h6
  rw [← h5] at h3
  obtain ⟨F1, F2, rfl, _, h9⟩ := List.map_eq_append_iff.1 h3
  obtain ⟨y, F3, rfl, h10, h11⟩ := List.map_eq_cons_iff.1 h9
  obtain ⟨g, n, e'⟩ := y
  obtain ⟨g', n', e''⟩ := x
  simp only at h7 h10
  subst h7 h10
  refine ⟨g, n, id, p.1, e', F1, F3, E3, g', n', by simp, hpay, ?_, hw⟩
  intro m hm
  exact h4 _ (by rw [← h11]; exact List.mem_map.2 ⟨m, hm, rfl⟩)

theorem logged_prepend {ext : R → Option K} {sch : Sch A K R} {E : List (Ent A)} {w : Ver K R} {g n : Nat}
    (a : List (Ent A)) (h : LoggedAt ext sch E w g n) : LoggedAt ext sch (a ++ E) w g n := by
  obtain ⟨id, ts, e, pre, mid, post, g', n', h1, h2⟩ := h
  exact ⟨id, ts, e, a ++ pre, mid, post, g', n', by rw [h1]; simp, h2⟩

/-- The number of the floor; nothing is below 0. -/
def floorSeq (f : Option WalRef) : Nat := match f with | none => 0 | some f => f.seq

theorem since_zero (E : List (Ent A)) : since 0 E = E := by
  unfold since
  exact List.filter_eq_self.2 (fun _ _ => by simp)

theorem replayed_since {floor : Option WalRef} {segs : List (LSeg A)}
    (h : ∀ r ∈ floor.toList, RefGood (entries segs) r) :
    replayed floor segs = evs (since (floorSeq floor) (entries segs)) := by
  rw [replayed_eq]
  congr 1
  unfold since
  apply List.filter_congr
  intro x hx
  cases floor with
  | none => simp [visited, floorSeq]
  | some f =>
    have hg := (h f (by simp)).2 x hx
    simp only [visited, floorSeq]
    by_cases h1 : x.1 < f.seq
    · rw [if_pos h1]
      exact (decide_eq_false (by omega)).symm
    · rw [if_neg h1]
      have h2 : f.seq ≤ x.1 := by omega
      by_cases h3 : x.1 = f.seq
      · rw [if_pos h3]
        simp [hg h2, h2]
      · rw [if_neg h3]
        simp [h2]

theorem covers_floor {floor : Option WalRef} {g : Nat} : Covers floor.toList g ↔ floorSeq floor ≤ g := by
  unfold Covers floorSeq
  cases floor <;> simp

/-! ## Memory that never freezes -/

theorem calls_longer {ext : R → Option K} : ∀ (ops : List (Mem.Op K R)) {t t' : Mem.Runs K R} {log : List (Ver K R)},
    Rep ext t.mem log → t.calls ext ops = (true, t') → t.runs.length ≤ t'.runs.length
  | [], t, t', _, _, h => by cases h; exact Nat.le_refl _
  | op :: ops, t, t', log, hr, h => by
    simp only [Mem.Runs.calls, Prod.mk.injEq, Bool.and_eq_true] at h
    obtain ⟨⟨h1, h2⟩, h3⟩ := h
    have hc : t.call ext op = (true, (t.call ext op).2) := Prod.ext h1 rfl
    have hcs : (t.call ext op).2.calls ext ops = (true, t') := Prod.ext h2 h3
    rcases call_last hr hc with ⟨g1, g2⟩ | ⟨m, g1, _, g2⟩
    · have := calls_longer ops g2 hcs
      rw [g1] at this
      exact this
    · have := calls_longer ops g2 hcs
      rw [g1] at this
      simp at this
      omega

theorem calls_flat {ext : R → Option K} : ∀ (ops : List (Mem.Op K R)) {t t' : Mem.Runs K R} {log : List (Ver K R)},
    Rep ext t.mem log → t.calls ext ops = (true, t') → t'.runs = [] →
    Rep ext t'.mem (log ++ ops.flatMap (batchWrites ext))
  | [], t, t', log, hr, h, _ => by cases h; simpa using hr
  | op :: ops, t, t', log, hr, h, hn => by
    simp only [Mem.Runs.calls, Prod.mk.injEq, Bool.and_eq_true] at h
    obtain ⟨⟨h1, h2⟩, h3⟩ := h
    have hc : t.call ext op = (true, (t.call ext op).2) := Prod.ext h1 rfl
    have hcs : (t.call ext op).2.calls ext ops = (true, t') := Prod.ext h2 h3
    rcases call_last hr hc with ⟨_, g2⟩ | ⟨m, g1, _, g2⟩
    · have := calls_flat ops g2 hcs hn
      rw [List.flatMap_cons, ← List.append_assoc]
      exact this
    · exfalso
      have := calls_longer ops g2 hcs
      rw [g1, hn] at this
      simp at this

/-! ## A crash -/

section
variable {c : Ctx A K R} {s : Sys A K R} {n : Nat} {log : List (Ver K R)} {logs : List (List (Ver K R))}
  {cur : List (Ver K R)} {w : Writer K R}

theorem resume_next (h : LogOk c s) (st : Option WState) :
    (∀ g ∈ s.segs, g.seq < (Wal.resume (tailOf s.segs) st).nextSegment) ∧
    1 ≤ (Wal.resume (tailOf s.segs) st).nextFrame := by
  have h1 := List.getLast?_eq_some_getLast h.ne
  obtain ⟨ys, hys⟩ := List.getLast?_eq_some_iff.1 h1
  have hasc := h.asc
  constructor
  · intro g hg
    have hle : g.seq ≤ (s.segs.getLast h.ne).seq := by
      rw [hys] at hg hasc
      rcases List.mem_append.1 hg with hg | hg
      · exact Nat.le_of_lt ((List.pairwise_append.1 hasc).2.2 g hg _ (by simp))
      · rw [List.mem_singleton.1 hg]
    have ht : tailOf s.segs = some ⟨⟨(s.segs.getLast h.ne).seq, [], []⟩, [],
        (s.segs.getLast h.ne).frames.getLast?.map (·.1),
        (s.segs.getLast h.ne).frames.getLast?.bind (fun p => eventId p.2)⟩ := by
      unfold tailOf
      rw [h1]
      rfl
    rw [ht]
    simp only [Wal.resume]
    cases st.bind (·.lastSegment) with
    | none => simp only; omega
    | some q =>
      simp only
      have := Nat.le_max_left ((s.segs.getLast h.ne).seq + 1) (q + 1)
      omega
  · simp only [Wal.resume]
    refine le_trans ?_ (Nat.le_max_right _ _)
    refine le_trans ?_ (Nat.le_max_right _ _)
    decide

/-- What is on the disk, when the process is not running. -/
structure Cold (c : Ctx A K R) (s : Sys A K R) (n : Nat) (log : List (Ver K R)) : Prop where
  open_ : s.dead = false
  inv : Inv c.ext c.x c.table n s.db
  lg : LogOk c s
  floor : ∀ r ∈ (floorOf c s).toList, RefGood (entries s.segs) r
  listed : ∀ l e, Lst s.db.kv c.table l e → ∀ f, s.db.files ⟨l, e.id⟩ = some f → ∀ w, Holds f w → w ∈ log
  cover : ∀ w ∈ log, ∃ u, u.key = w.key ∧ w.ts ≤ u.ts ∧
    ((∃ g m, LoggedAt c.ext c.sch (entries s.segs) u g m ∧ floorSeq (floorOf c s) ≤ g) ∨ OnDisk c.table n s.db u)
  acked : ∀ w ∈ s.acked, w ∈ log
  sub : ∀ w ∈ log, w ∈ s.committed

theorem cold_of_d (h : D c s n log logs cur) : Cold c s n log := by
  refine ⟨h.open_, h.inv, h.lg, h.refs _ (by unfold base; simp), h.cont.listed, ?_, h.acked, h.sub⟩
  have hfl : ∀ g, AllCov (base c s) g → floorSeq (floorOf c s) ≤ g := fun g hg =>
    covers_floor.1 (hg (floorOf c s).toList (by unfold base; simp))
  intro w hw
  obtain ⟨u, hu, h1, h2, _⟩ := h.cont.cover w hw
  refine ⟨u, h1, h2, ?_⟩
  rcases hu with hu | hu | hu
  · obtain ⟨l, hl, hu⟩ := List.mem_flatten.1 hu
    obtain ⟨r, _, hr⟩ := forall₂_mem_right h.safe.runs hl
    obtain ⟨_, _, g, m, _, _, g3, g4⟩ := hr u hu
    exact .inl ⟨g, m, g3, hfl g g4⟩
  · obtain ⟨_, _, g, m, _, _, g3, g4⟩ := h.safe.cur u hu
    exact .inl ⟨g, m, g3, hfl g g4⟩
  · exact .inr hu

theorem d_open (h : Cold c s n log) (cap : Nat) (pol : Nat → Bool) (st : Option WState) (hcap : 0 < cap)
    (hnum : ∀ g ∈ s.segs, ∀ p ∈ g.frames, p.1 < (Wal.resume (tailOf s.segs) st).nextFrame ∧
      evId p.2 < (Wal.resume (tailOf s.segs) st).nextId)
    (hflat : ∀ r ∈ Wal.replay c.ext c.sch pol (Mem.Runs.new cap) (replayed (floorOf c s) s.segs), r.1.runs = []) :
    ∃ log' cur', D c (crash c s cap pol st) n log' [] cur' := by
  obtain ⟨k, hk, _⟩ := allocator_spec h.inv
  have hfgood : ∀ r ∈ (floorOf c s).toList, RefGood (entries s.segs) r := h.floor
  have hrep := replayed_since hfgood
  obtain ⟨a, ha⟩ := since_suffix (fl := floorSeq (floorOf c s)) (ord_seg h.lg.ord)
  generalize hX : since (floorSeq (floorOf c s)) (entries s.segs) = X at hrep ha
  have hXmem : ∀ x ∈ X, x ∈ entries s.segs ∧ floorSeq (floorOf c s) ≤ x.1 := by
    intro x hx
    rw [← hX] at hx
    unfold since at hx
    simpa using List.mem_filter.1 hx
  have hgl : AllTxns (fun ts e => GoodPayload c.ext c.sch ts e ∧
      ∀ w ∈ lastOnly (payloadWrites c.ext c.sch ts e), w ∈ s.committed) (evs X) := by
    have := h.lg.good
    rw [ha, evs_append] at this
    exact allTxns_suffix this
  obtain ⟨rs, hrs, hfine⟩ := good_all (pol := pol) hcap (evs X) (fun p hp e he => (hgl p hp e he).1)
  have hreplay : Wal.replay c.ext c.sch pol (Mem.Runs.new cap) (replayed (floorOf c s) s.segs) = some (rs.mem, rs.last) := by
    unfold Wal.replay
    rw [hrep, hrs]
    rfl
  have hruns : rs.mem.runs = [] := hflat (rs.mem, rs.last) (by rw [hreplay]; rfl)
  obtain ⟨ops, ho1, _, ho2⟩ := (loop_all (evs X) hrs).mem
  have hmem := calls_flat ops (rep_new c.ext cap) ho1 hruns
  rw [List.nil_append, ho2] at hmem
  have hcom : ∀ w ∈ logBatches c.ext c.sch (evs X), w ∈ s.committed := by
    intro w hw
    obtain ⟨p, hp, e, he, hw⟩ := mem_logBatches.1 hw
    exact (hgl p hp e he).2 w hw
  have hlogd : ∀ w ∈ logBatches c.ext c.sch (evs X), ∃ g n, LoggedAt c.ext c.sch (entries s.segs) w g n ∧
      floorSeq (floorOf c s) ≤ g := by
    intro w hw
    obtain ⟨g, m, hl⟩ := logged_of_batches hw
    obtain ⟨e, he⟩ := logged_mem hl
    exact ⟨g, m, by rw [ha]; exact logged_prepend a hl, (hXmem _ he).2⟩
  have hback : ∀ w g m, LoggedAt c.ext c.sch (entries s.segs) w g m → floorSeq (floorOf c s) ≤ g →
      w ∈ logBatches c.ext c.sch (evs X) := by
    intro w g m hl hf
    have := logBatches_of_logged (logged_since hl (ord_seg h.lg.ord) hf)
    rw [hX] at this
    exact this
  have e : crash c s cap pol st =
      { s with
        db := { s.db with runs := rs.mem, next := k, flushing := .idle, jobs := [] }
        clock := Wal.recoveredClock rs.last (st.bind (·.lastCommit))
        nextId := (Wal.resume (tailOf s.segs) st).nextId
        nextFrame := (Wal.resume (tailOf s.segs) st).nextFrame
        nextSeg := (Wal.resume (tailOf s.segs) st).nextSegment
        range := Wal.initialRange (evs X).isEmpty ((floorOf c s).map (fun f => ⟨f.seq, f.first, f.last⟩))
        ranges := []
        writers := []
        flushCount := none } := by
    have hreplay' := hreplay
    rw [hrep] at hreplay'
    unfold crash reopen
    simp only [hk, hrep, hreplay', hruns]
    rfl
  rw [e]
  have hinv : Inv c.ext c.x c.table n { s.db with runs := rs.mem, next := k, flushing := .idle, jobs := [] } := by
    have h1 := inv_reopen h.inv cap
    have e1 : (Lsm.step c.ext c.x c.table s.db (.reopen cap)).2 =
        { s.db with runs := Mem.Runs.new cap, next := k, flushing := .idle, jobs := [] } := by
      unfold Lsm.step
      simp only [reopen, hk]
    rw [e1] at h1
    exact inv_frame h1 ⟨⟨_, hmem⟩, by simp only [hruns]; simp⟩ rfl (Nat.le_refl _) (fun _ _ => rfl) rfl rfl rfl
  refine ⟨log ++ logBatches c.ext c.sch (evs X), logBatches c.ext c.sch (evs X), h.open_, hinv, ?_, ?_, ?_,
    ⟨cap, rs.mem, hcap, hfine, rfl⟩, rfl, ?_, ?_, wsOk_nil, by simp, ?_, by simp⟩
  · refine ⟨by simp only [hruns]; exact .nil, hmem, ?_, by simp, Nat.zero_le _, ?_, ?_, ?_⟩
    · intro w hw
      exact List.mem_append_right _ (by simpa using hw)
    · exact fun l e he f hf w hw => List.mem_append_left _ (h.listed l e he f hf w hw)
    · intro p hp
      simp [Lsm.pendings] at hp
    · intro w hw
      rcases List.mem_append.1 hw with hw | hw
      · obtain ⟨u, h1, h2, hu⟩ := h.cover w hw
        refine ⟨u, ?_, h1, h2, fun h => h.elim⟩
        rcases hu with ⟨g, m, g3, g4⟩ | hu
        · exact .inr (.inl (hback u g m g3 g4))
        · exact .inr (.inr hu)
      · exact ⟨w, .inr (.inl hw), rfl, Nat.le_refl _, fun h => h.elim⟩
  · exact fun w hw => List.mem_append_left _ (h.acked w hw)
  · intro w hw
    rcases List.mem_append.1 hw with hw | hw
    · exact h.sub w hw
    · exact hcom w hw
  · obtain ⟨r1, r2⟩ := resume_next h.lg st
    refine ⟨h.lg.ne, h.lg.asc, r1, r2, h.lg.ord, ?_, h.lg.good⟩
    intro x hx
    obtain ⟨g, hg, p, hp, rfl⟩ := mem_entries.1 hx
    exact ⟨(h.lg.lt _ hx).1, hnum g hg p hp⟩
  · intro refs hr
    have hb : refs = (floorOf c s).toList := by
      unfold base at hr
      simp only [List.map_nil, List.mem_singleton] at hr
      rw [hr]
      congr 1
    rw [hb]
    exact hfgood
  · refine ⟨.nil, ?_, by simp⟩
    intro w hw
    obtain ⟨g, m, hl, hg⟩ := hlogd w hw
    have hne : (evs X).isEmpty = false := by
      cases hx : evs X with
      | nil => rw [hx] at hw; simp [logBatches, Wal.committedTxns] at hw
      | cons _ _ => rfl
    have hcov : AllCov (base c { s with
        db := { s.db with runs := rs.mem, next := k, flushing := .idle, jobs := [] }
        clock := Wal.recoveredClock rs.last (st.bind (·.lastCommit))
        nextId := (Wal.resume (tailOf s.segs) st).nextId
        nextFrame := (Wal.resume (tailOf s.segs) st).nextFrame
        nextSeg := (Wal.resume (tailOf s.segs) st).nextSegment
        range := Wal.initialRange (evs X).isEmpty ((floorOf c s).map (fun f => ⟨f.seq, f.first, f.last⟩))
        ranges := []
        writers := []
        flushCount := none }) g := by
      intro refs hr
      unfold base at hr
      simp only [List.map_nil, List.mem_singleton] at hr
      rw [hr]
      exact covers_floor.2 hg
    obtain ⟨ev, hev⟩ := logged_mem hl
    simp only [hne, Wal.initialRange, Bool.false_eq_true, if_false]
    cases hf : floorOf c s with
    | none => exact ⟨_, _, g, m, rfl, (h.lg.lt _ hev).1, hl, hcov⟩
    | some f =>
      refine ⟨_, _, g, m, rfl, ?_, hl, hcov⟩
      rw [hf] at hg hfgood
      exact (hfgood f (by simp)).2 _ hev hg

theorem d_crash (h : D c s n log logs cur) (cap : Nat) (pol : Nat → Bool) (st : Option WState) (hcap : 0 < cap)
    (hnum : ∀ g ∈ s.segs, ∀ p ∈ g.frames, p.1 < (Wal.resume (tailOf s.segs) st).nextFrame ∧
      evId p.2 < (Wal.resume (tailOf s.segs) st).nextId)
    (hflat : ∀ r ∈ Wal.replay c.ext c.sch pol (Mem.Runs.new cap) (replayed (floorOf c s) s.segs), r.1.runs = []) :
    ∃ log' cur', D c (crash c s cap pol st) n log' [] cur' :=
  d_open (cold_of_d h) cap pol st hcap hnum hflat

/-! ## Steps and histories -/

theorem d_advance (h : D c s n log logs cur) (i : Nat) (hlen : ∀ w ∈ s.writers[i]?,
      (w.phase = .applyUp → (s.db.runs.call c.ext w.putOp).2.runs.length = s.db.runs.runs.length) ∧
      (w.phase = .applyDel → (s.db.runs.call c.ext w.delOp).2.runs.length = s.db.runs.runs.length)) :
    ∃ n' log' logs' cur', D c (stepLive c s (.advance i)) n' log' logs' cur' := by
  simp only [stepLive]
  cases hi : s.writers[i]? with
  | none => exact ⟨n, log, logs, cur, h⟩
  | some w =>
    simp only
    have hw := hi
    obtain ⟨hl1, hl2⟩ := hlen w (by rw [hi]; rfl)
    cases hp : w.phase with
    | begin => exact ⟨_, _, _, _, d_begin h hw hp⟩
    | up => exact ⟨_, _, _, _, d_up h hw hp⟩
    | del => exact ⟨_, _, _, _, d_del h hw hp⟩
    | commit => exact ⟨_, _, _, _, d_commit h hw hp⟩
    | record => exact ⟨_, _, _, _, d_record h hw hp⟩
    | applyUp =>
      obtain ⟨_, _, _, hd⟩ := d_applyUp h hw hp (hl1 hp)
      exact ⟨_, _, _, _, hd⟩
    | applyDel =>
      obtain ⟨_, _, _, hd⟩ := d_applyDel h hw hp (hl2 hp)
      exact ⟨_, _, _, _, hd⟩
    | look => exact ⟨_, _, _, _, d_look h hw hp⟩
    | publish =>
      obtain ⟨_, hd⟩ := d_publish h hw hp
      exact ⟨_, _, _, _, hd⟩
    | prune => exact ⟨_, _, _, _, d_pruneStep h hw hp⟩
    | ack => exact ⟨_, _, _, _, d_ack h hw hp⟩

theorem d_step (h : D c s n log logs cur) (hx : 0 < c.x.readRows) (o : Durable.Op K R) (hcalm : Calm c s o)
    (hfun : Functional (· ∈ s.committed)) : ∃ n' log' logs' cur', D c (Durable.step c s o) n' log' logs' cur' := by
  unfold Durable.step
  rw [h.open_]
  simp only [Bool.false_eq_true, if_false]
  cases o with
  | write mode rows keys =>
    obtain ⟨h1, h2, h3, h4, h5, h6, h7⟩ := hcalm
    exact ⟨_, _, _, _, d_write h mode rows keys h1 h2 h3 h4 h5 h6 h7⟩
  | advance i => exact d_advance h i hcalm
  | cancel i => exact ⟨_, _, _, _, d_cancel h i⟩
  | rotate => exact ⟨_, _, _, _, d_rotate h⟩
  | freeze =>
    obtain ⟨_, _, _, hd⟩ := d_freeze h hcalm
    exact ⟨_, _, _, _, hd⟩
  | flushBegin =>
    simp only [stepLive]
    by_cases hb : s.flushCount = none ∧ s.db.flushing = .idle ∧ s.db.runs.runs ≠ []
    · simp only [if_pos hb]
      exact ⟨_, _, _, _, d_db h _ h.inv h.cont rfl rfl rfl⟩
    · simp only [if_neg hb]
      exact ⟨_, _, _, _, h⟩
  | flushWrite => exact ⟨_, _, _, _, d_flushWrite h hfun hcalm.1 hcalm.2⟩
  | flushPublish =>
    obtain ⟨_, hd⟩ := d_flushPublish h
    exact ⟨_, _, _, _, hd⟩
  | flushDrain =>
    obtain ⟨_, _, hd⟩ := d_flushDrain h
    exact ⟨_, _, _, _, hd⟩
  | prune => exact ⟨_, _, _, _, d_prune h⟩
  | start t head skip => exact ⟨_, _, _, _, d_start h hx t head skip⟩
  | finish i =>
    obtain ⟨_, hd⟩ := d_finish h i hcalm.1 hcalm.2
    exact ⟨_, _, _, _, hd⟩
  | crash cap pol st =>
    obtain ⟨_, _, hd⟩ := d_crash h cap pol st hcalm.1 hcalm.2.1 hcalm.2.2
    exact ⟨_, _, _, _, hd⟩

theorem moveRange_committed (s : Sys A K R) (t : Mem.Runs K R) : (moveRange s t).committed = s.committed := by
  unfold moveRange
  split <;> rfl

theorem applyStep_committed (c : Ctx A K R) (s : Sys A K R) (w : Writer K R) (b : Bool) (op : Mem.Op K R) (p : Phase) :
    (applyStep c s w b op p).1.committed = s.committed := by
  unfold applyStep
  split
  · exact moveRange_committed _ _
  · rfl

theorem prune_committed (c : Ctx A K R) (s : Sys A K R) : (prune c s).committed = s.committed := by
  unfold prune
  split <;> rfl

theorem frameStep_committed (s : Sys A K R) (w : Writer K R) (b : Bool) (e : Event A) (p : Phase) :
    (frameStep s w b e p).1.committed = s.committed := by
  unfold frameStep
  split <;> rfl

theorem advance_committed (c : Ctx A K R) (s : Sys A K R) (w : Writer K R) :
    ∀ v ∈ s.committed, v ∈ (advance c s w).1.committed := by
  intro v hv
  unfold advance
  cases w.phase with
  | begin => simp only [frameStep_committed]; exact hv
  | up => simp only [frameStep_committed]; exact hv
  | del => simp only [frameStep_committed]; exact hv
  | commit => exact List.mem_append_left _ hv
  | record =>
    simp only
    cases w.span <;> exact hv
  | applyUp => simp only [applyStep_committed]; exact hv
  | applyDel => simp only [applyStep_committed]; exact hv
  | look => exact hv
  | publish =>
    simp only
    by_cases hr : w.refs = []
    · rw [if_pos hr]; exact hv
    · rw [if_neg hr]
      rcases Manifest.apply s.db.kv c.table [.setWal w.refs] none with ⟨kv, _ | _⟩ <;> exact hv
  | prune => simp only [prune_committed]; exact hv
  | ack => exact hv

theorem begin_committed (c : Ctx A K R) (s : Sys A K R) (w : Writer K R) : (begin c s w).committed = s.committed := by
  unfold begin
  by_cases hm : w.mode = .fast
  · rw [if_pos hm]
    simp only
    cases (applyStep c s w w.hasUp w.putOp .begin).2 with
    | none => exact applyStep_committed _ _ _ _ _ _
    | some _ =>
      simp only
      cases (applyStep c (applyStep c s w w.hasUp w.putOp .begin).1 w w.hasDel w.delOp .begin).2 with
      | none => simp only [applyStep_committed]
      | some _ => simp only [applyStep_committed]
  · rw [if_neg hm]

theorem step_committed (c : Ctx A K R) (s : Sys A K R) (o : Durable.Op K R) :
    ∀ v ∈ s.committed, v ∈ (Durable.step c s o).committed := by
  intro v hv
  unfold Durable.step
  by_cases hd : s.dead = true
  · rw [if_pos hd]; exact hv
  rw [if_neg hd]
  cases o with
  | write mode rows keys =>
    change v ∈ (begin c _ _).committed
    rw [begin_committed]
    exact hv
  | advance i =>
    simp only [stepLive]
    cases s.writers[i]? with
    | none => exact hv
    | some w => exact advance_committed c s w v hv
  | freeze =>
    change v ∈ (moveRange s _).committed
    rw [moveRange_committed]
    exact hv
  | flushBegin =>
    simp only [stepLive]
    split <;> exact hv
  | flushWrite =>
    simp only [stepLive]
    cases s.flushCount <;> exact hv
  | prune =>
    change v ∈ (prune c s).committed
    rw [prune_committed]
    exact hv
  | crash cap pol st =>
    change v ∈ (crash c s cap pol st).committed
    unfold crash
    cases reopen cap c.table s.db with
    | error _ => exact hv
    | ok db =>
      simp only
      cases Wal.replay c.ext c.sch pol (Mem.Runs.new cap) (replayed (floorOf c s) s.segs) with
      | none => exact hv
      | some r => exact hv
  | _ => exact hv

theorem run_committed (c : Ctx A K R) : ∀ (ops : List (Durable.Op K R)) (s : Sys A K R),
    ∀ v ∈ s.committed, v ∈ (Durable.run c s ops).committed
  | [], _, _, hv => hv
  | o :: ops, s, v, hv => run_committed c ops (Durable.step c s o) v (step_committed c s o v hv)

theorem d_run (hx : 0 < c.x.readRows) : ∀ (ops : List (Durable.Op K R)) {s : Sys A K R} {n : Nat}
    {log : List (Ver K R)} {logs : List (List (Ver K R))} {cur : List (Ver K R)}, D c s n log logs cur →
    CalmRun c s ops → Functional (· ∈ (Durable.run c s ops).committed) →
    ∃ n' log' logs' cur', D c (Durable.run c s ops) n' log' logs' cur'
  | [], _, _, _, _, _, h, _, _ => ⟨_, _, _, _, h⟩
  | o :: ops, s, _, _, _, _, h, hc, hf => by
    obtain ⟨_, _, _, _, h1⟩ := d_step h hx o hc.1
      (fun a b ha hb => hf a b (run_committed c (o :: ops) s a ha) (run_committed c (o :: ops) s b hb))
    exact d_run hx ops h1 hc.2 hf

theorem d_new (c : Ctx A K R) (cap sv : Nat) (hcap : 0 < cap) : D c (Sys.new cap c.table sv) 0 [] [] [] := by
  have hE : entries (Sys.new cap c.table sv : Sys A K R).segs = [] := rfl
  have hinv := inv_new c.ext c.x cap c.table sv
  have hfl : floorOf c (Sys.new cap c.table sv) = none := by
    have hg : kget (Sys.new cap c.table sv : Sys A K R).db.kv (.walFloor c.table) = none := rfl
    unfold floorOf Manifest.walFloor
    rw [hg]
    rfl
  refine ⟨rfl, hinv, cont_new c.ext cap c.table sv False, by simp [Sys.new], by simp,
    ⟨cap, Mem.Runs.new cap, hcap, ⟨[], by simp, rfl⟩, rfl⟩, rfl,
    ⟨by simp [Sys.new], by simp [Sys.new], by simp [Sys.new], Nat.le_refl _, by rw [hE]; exact .nil, by rw [hE]; simp,
      by rw [hE]; intro p hp; simp [evs, Wal.committedTxns] at hp⟩, ?_, wsOk_nil, by simp [Sys.new], ?_, ?_⟩
  · intro refs hr
    unfold base at hr
    rw [hfl] at hr
    simp [Sys.new] at hr
    subst hr
    simp
  · exact ⟨.nil, (fun v hv => by cases hv), by simp [Sys.new]⟩
  · intro p k hp
    simp [Sys.new, Db.new] at hp

end

end Tonbo.Lemmas.Durable
