import Verif.Lemmas.PowerLog

/-!
# What the log says of a transaction, whatever else is in it
-/

set_option linter.unusedSectionVars false

namespace Tonbo.Lemmas.PowerLog
open Tonbo.Model Tonbo.Model.Manifest Tonbo.Model.Lsm Tonbo.Model.Durable Tonbo.Model.PowerLog Tonbo.Spec Tonbo.Spec.Durable
open Tonbo.Model.Wal (Event Batch Sch commitCol WState)
open Tonbo.Spec.Wal (GoodPayload payloadWrites bodyOf payloadOf finishes logBatches)
open Tonbo.Lemmas.Lsm Tonbo.Lemmas.Durable
open Tonbo.Lemmas.Replay (Fine good_all loop_all)
open Tonbo.Lemmas.Mem (rep_new Rep Imm.Rep)
open Tonbo.Lemmas.Plan (forall₂_mem_right)

variable {A K R : Type} [LinearOrder K] {c : Ctx A K R} {s : Sys A K R} {n : Nat} {log : List (Ver K R)}
  {logs : List (List (Ver K R))} {cur : List (Ver K R)} {w : Writer K R}

/-- The payloads of a transaction that has a commit record are good, and what they write was committed. Those of a
writer that has none are its own. Of any part of the log the same can be said. -/
structure Pay (c : Ctx A K R) (s : Sys A K R) : Prop where
  log : ∀ x ∈ entries s.segs, ∀ y ∈ entries s.segs, ∀ id ts, x.2.2 = .commit id ts → payloadOf id y.2.2 = true →
    GoodPayload c.ext c.sch ts y.2.2 ∧ ∀ v ∈ lastOnly (payloadWrites c.ext c.sch ts y.2.2), v ∈ s.committed
  wr : ∀ w ∈ s.writers, uncommitted w.phase = true → ∀ x ∈ entries s.segs, evId x.2.2 = w.id →
    (∀ id ts, x.2.2 ≠ .commit id ts) ∧
    (payloadOf (BitVec.ofNat 64 w.id) x.2.2 = true →
      (x.2.2 = w.upEvent c ∧ w.hasUp = true) ∨ (x.2.2 = w.delEvent c ∧ w.hasDel = true))

theorem payload_id {id : BitVec 64} {e : Event A} (h : payloadOf id e = true) : evId e = id.toNat := by
  cases e <;> simp_all [payloadOf, evId]

theorem pay_sub {s' : Sys A K R} (h : Pay c s) (h1 : ∀ x ∈ entries s'.segs, x ∈ entries s.segs)
    (h2 : ∀ v ∈ s.committed, v ∈ s'.committed) (h3 : ∀ w ∈ s'.writers, w ∈ s.writers) : Pay c s' := by
  refine ⟨fun x hx y hy id ts he hp => ?_, fun w hw hu x hx => h.wr w (h3 w hw) hu x (h1 x hx)⟩
  obtain ⟨a, b⟩ := h.log x (h1 x hx) y (h1 y hy) id ts he hp
  exact ⟨a, fun v hv => h2 v (b v hv)⟩

/-- What a writer adds to the log, and what it goes on as. -/
inductive Adds (c : Ctx A K R) (w : Writer K R) : Event A → Prop where
  | begin : Adds c w (.begin (BitVec.ofNat 64 w.id))
  | up (h : w.hasUp = true) (hp : w.phase ≠ .commit) : Adds c w (w.upEvent c)
  | del (h : w.hasDel = true) (hp : w.phase ≠ .commit) : Adds c w (w.delEvent c)
  | commit (h : w.phase = .commit) : Adds c w (.commit (BitVec.ofNat 64 w.id) (BitVec.ofNat 64 w.ts))

theorem frameStep_adds (h : LogOk c s) (w : Writer K R) (b : Bool) (e : Event A) (p : Phase) {x : Ent A}
    (hx : x ∈ entries (frameStep s w b e p).1.segs) : x ∈ entries s.segs ∨ (b = true ∧ x.2.2 = e) := by
  unfold frameStep at hx
  cases b
  · exact .inl hx
  · exact (push_entries h e hx).imp id (fun h => ⟨rfl, h⟩)

theorem advance_adds (h : LogOk c s) (w : Writer K R) {x : Ent A} (hx : x ∈ entries (advance c s w).1.segs) :
    x ∈ entries s.segs ∨ (uncommitted w.phase = true ∧ Adds c w x.2.2) := by
  unfold advance at hx
  cases hp : w.phase with
  | begin =>
    rw [hp] at hx
    rcases frameStep_adds h _ _ _ _ hx with hx | ⟨_, hx⟩
    · exact .inl hx
    · exact .inr ⟨rfl, by rw [hx]; exact .begin⟩
  | up =>
    rw [hp] at hx
    rcases frameStep_adds h _ _ _ _ hx with hx | ⟨hb, hx⟩
    · exact .inl hx
    · exact .inr ⟨rfl, by rw [hx]; exact .up hb (by simp [hp])⟩
  | del =>
    rw [hp] at hx
    rcases frameStep_adds h _ _ _ _ hx with hx | ⟨hb, hx⟩
    · exact .inl hx
    · exact .inr ⟨rfl, by rw [hx]; exact .del hb (by simp [hp])⟩
  | commit =>
    rw [hp] at hx
    rcases push_entries h _ hx with hx | hx
    · exact .inl hx
    · exact .inr ⟨rfl, by rw [hx]; exact .commit hp⟩
  | record =>
    rw [hp] at hx
    simp only at hx
    cases hs : w.span with
    | none => rw [hs] at hx; exact .inl hx
    | some sp => rw [hs] at hx; exact .inl hx
  | applyUp => rw [hp] at hx; simp only [applyStep_segs] at hx; exact .inl hx
  | applyDel => rw [hp] at hx; simp only [applyStep_segs] at hx; exact .inl hx
  | look => rw [hp] at hx; exact .inl hx
  | publish =>
    rw [hp] at hx
    simp only at hx
    by_cases hr : w.refs = []
    · rw [if_pos hr] at hx; exact .inl hx
    · rw [if_neg hr] at hx
      split at hx <;> exact .inl hx
  | prune => rw [hp] at hx; exact .inl (prune_entries hx)
  | ack => rw [hp] at hx; exact .inl hx

/-- A writer that has no commit record after a step had none before, and is the same. -/
theorem advance_next (c : Ctx A K R) (s : Sys A K R) (w : Writer K R) : ∀ w' ∈ (advance c s w).2,
    uncommitted w'.phase = true → uncommitted w.phase = true ∧ w.phase ≠ .commit ∧ w'.id = w.id ∧
      (w'.upEvent c : Event A) = w.upEvent c ∧ (w'.delEvent c : Event A) = w.delEvent c ∧
      w'.hasUp = w.hasUp ∧ w'.hasDel = w.hasDel := by
  intro w' hw hu
  have hw : (advance c s w).2 = some w' := hw
  have hfr : ∀ (b : Bool) (e : Event A) (p : Phase), (frameStep s w b e p).2 = some w' → w'.id = w.id ∧
      (w'.upEvent c : Event A) = w.upEvent c ∧ (w'.delEvent c : Event A) = w.delEvent c ∧
      w'.hasUp = w.hasUp ∧ w'.hasDel = w.hasDel := by
    intro b e p h
    unfold frameStep at h
    cases b <;> cases h <;> exact ⟨rfl, rfl, rfl, rfl, rfl⟩
  have hap : ∀ (b : Bool) (op : Mem.Op K R) (p : Phase), uncommitted p = false →
      (applyStep c s w b op p).2 = some w' → False := by
    intro b op p hpu h
    unfold applyStep at h
    cases b
    · cases h; rw [show uncommitted (w.at p).phase = uncommitted p from rfl, hpu] at hu; cases hu
    · simp only [if_true] at h
      split at h
      · cases h; rw [show uncommitted (w.at p).phase = uncommitted p from rfl, hpu] at hu; cases hu
      · cases h
  unfold advance at hw
  cases hp : w.phase with
  | begin => rw [hp] at hw; exact ⟨rfl, by simp, hfr _ _ _ hw⟩
  | up => rw [hp] at hw; exact ⟨rfl, by simp, hfr _ _ _ hw⟩
  | del => rw [hp] at hw; exact ⟨rfl, by simp, hfr _ _ _ hw⟩
  | commit => rw [hp] at hw; cases hw; cases hu
  | record =>
    rw [hp] at hw
    simp only at hw
    cases hs : w.span <;> rw [hs] at hw <;> cases hw <;> cases hu
  | applyUp => rw [hp] at hw; exact (hap _ _ _ rfl hw).elim
  | applyDel => rw [hp] at hw; exact (hap _ _ _ rfl hw).elim
  | look => rw [hp] at hw; cases hw; cases hu
  | publish =>
    rw [hp] at hw
    simp only at hw
    by_cases hr : w.refs = []
    · rw [if_pos hr] at hw; cases hw; cases hu
    · rw [if_neg hr] at hw
      rcases ha : Manifest.apply s.db.kv c.table [.setWal w.refs] none with ⟨kv, _ | _⟩ <;> rw [ha] at hw <;> cases hw
      cases hu
  | prune => rw [hp] at hw; cases hw; cases hu
  | ack => rw [hp] at hw; cases hw

theorem mem_setWriter {ws : List (Writer K R)} {i : Nat} {o : Option (Writer K R)} {x : Writer K R}
    (h : x ∈ setWriter ws i o) : o = some x ∨ ∃ j, j ≠ i ∧ ws[j]? = some x := by
  cases o with
  | none =>
    obtain ⟨j, hj⟩ := List.mem_iff_getElem?.1 h
    simp only [setWriter, List.getElem?_eraseIdx] at hj
    split at hj
    · exact .inr ⟨j, by omega, hj⟩
    · exact .inr ⟨j + 1, by omega, hj⟩
  | some w =>
    obtain ⟨j, hj⟩ := List.mem_iff_getElem?.1 h
    simp only [setWriter, List.getElem?_set] at hj
    split at hj
    · split at hj
      · cases hj; exact .inl rfl
      · cases hj
    · next hne => exact .inr ⟨j, fun h => hne h.symm, hj⟩

theorem adds_id {e : Event A} (h : Adds c w e) (hid : w.id < 2 ^ 64) : evId e = w.id := by
  cases h <;> simp only [evId, Writer.upEvent, Writer.delEvent, toNat_ofNat hid]

theorem pay_advance (h : D c s n log logs cur) (hp : Pay c s) {i : Nat} (hi : s.writers[i]? = some w) :
    Pay c { (advance c s w).1 with writers := setWriter s.writers i (advance c s w).2 } := by
  have hm := List.mem_of_getElem? hi
  have hok := h.writer w hm
  have hcom : ∀ v ∈ s.committed, v ∈ (advance c s w).1.committed := advance_committed c s w
  constructor
  · intro x hx y hy id ts he hpay
    change x ∈ entries (advance c s w).1.segs at hx
    change y ∈ entries (advance c s w).1.segs at hy
    change GoodPayload c.ext c.sch ts y.2.2 ∧ ∀ v ∈ lastOnly (payloadWrites c.ext c.sch ts y.2.2), v ∈ (advance c s w).1.committed
    rcases advance_adds h.lg w hx with hx | ⟨hu, hx⟩
    · rcases advance_adds h.lg w hy with hy | ⟨hu, hy⟩
      · obtain ⟨a, b⟩ := hp.log x hx y hy id ts he hpay
        exact ⟨a, fun v hv => hcom v (b v hv)⟩
      · have h1 := adds_id hy hok.id
        have h2 := payload_id hpay
        exact absurd he ((hp.wr w hm hu x hx (by rw [he]; simp only [evId]; omega)).1 id ts)
    · rw [he] at hx
      cases hx with
      | commit hph =>
        rcases advance_adds h.lg w hy with hy | ⟨_, hy⟩
        · have h2 := payload_id hpay
          rw [toNat_ofNat hok.id] at h2
          have e1 : (advance c s w).1.committed = s.committed ++ w.writes c := by
            unfold advance
            simp only [hph]
          rw [e1]
          rcases (hp.wr w hm hu y hy h2).2 hpay with ⟨e, hu⟩ | ⟨e, hu⟩
          · rw [e]
            refine ⟨up_good hok.dec hok.rows hok.keyed hu, ?_⟩
            rw [up_writes hok.dec hok.ts]
            intro v hv
            refine List.mem_append_right _ ?_
            unfold Writer.writes
            rw [if_pos hu]
            exact List.mem_append_left _ hv
          · rw [e]
            refine ⟨del_good hok.dec hu, ?_⟩
            rw [del_writes hok.dec hok.ts]
            intro v hv
            refine List.mem_append_right _ ?_
            unfold Writer.writes
            rw [if_pos hu]
            exact List.mem_append_right _ hv
        · exfalso
          generalize y.2.2 = e at hy hpay
          cases hy with
          | begin => simp [payloadOf] at hpay
          | up _ hne => exact hne hph
          | del _ hne => exact hne hph
          | commit _ => simp [payloadOf] at hpay
  · intro v hv hu x hx hid
    change x ∈ entries (advance c s w).1.segs at hx
    rcases mem_setWriter hv with hv | ⟨j, hj, hv⟩
    · obtain ⟨n1, n2, n3, n4, n5, n6, n7⟩ := advance_next c s w v hv hu
      rw [n3] at hid ⊢
      rw [n4, n5, n6, n7]
      rcases advance_adds h.lg w hx with hx | ⟨_, hx⟩
      · exact hp.wr w hm n1 x hx hid
      · generalize x.2.2 = e at hx
        cases hx with
        | begin => exact ⟨by simp, by simp [payloadOf]⟩
        | up hb _ => exact ⟨by simp [Writer.upEvent], fun _ => .inl ⟨rfl, hb⟩⟩
        | del hb _ => exact ⟨by simp [Writer.delEvent], fun _ => .inr ⟨rfl, hb⟩⟩
        | commit hb => exact absurd hb n2
    · have hvm := List.mem_of_getElem? hv
      rcases advance_adds h.lg w hx with hx | ⟨_, hx⟩
      · exact hp.wr v hvm hu x hx hid
      · have := adds_id hx hok.id
        exfalso
        have hne : v.id ≠ w.id := by
          have hpw := List.pairwise_iff_getElem.1 h.one.ids
          obtain ⟨h1, e1⟩ := List.getElem?_eq_some_iff.1 hi
          obtain ⟨h2, e2⟩ := List.getElem?_eq_some_iff.1 hv
          rcases Nat.lt_or_gt_of_ne hj with hl | hl
          · have := hpw j i h2 h1 hl
            rw [e1, e2] at this
            exact this
          · have := hpw i j h1 h2 hl
            rw [e1, e2] at this
            exact fun h => this h.symm
        omega

theorem pay_new (cap sv : Nat) : Pay c (Sys.new cap c.table sv : Sys A K R) := by
  constructor
  · intro x hx
    simp [Sys.new, entries] at hx
  · intro w hw
    simp [Sys.new] at hw

theorem pay_crash (hp : Pay c s) (cap : Nat) (pol : Nat → Bool) (st : Option WState) : Pay c (crash c s cap pol st) := by
  unfold crash
  split
  · exact pay_sub hp (fun _ h => h) (fun _ h => h) (fun _ h => h)
  · split
    · exact pay_sub hp (fun _ h => h) (fun _ h => h) (fun _ h => h)
    · exact pay_sub hp (fun _ h => h) (fun _ h => h) (by simp)

theorem pay_step (h : D c s n log logs cur) (hp : Pay c s) (o : Durable.Op K R) (hcalm : Calm c s o) :
    Pay c (Durable.step c s o) := by
  unfold Durable.step
  rw [h.open_]
  simp only [Bool.false_eq_true, if_false]
  cases o with
  | write mode rows keys =>
    change Pay c (Durable.begin c { s with clock := s.clock + 1, nextId := s.nextId + 1 } (newWriter s mode rows keys))
    unfold Durable.begin
    rw [if_neg (show ¬ (newWriter s mode rows keys).mode = .fast from hcalm.2.1)]
    refine ⟨hp.log, fun w hw hu x hx hid => ?_⟩
    rcases List.mem_append.1 hw with hw | hw
    · exact hp.wr w hw hu x hx hid
    · rw [List.mem_singleton.1 hw] at hid
      have := (h.lg.lt x hx).2.2
      have e : (newWriter s mode rows keys).id = s.nextId := rfl
      omega
  | advance i =>
    simp only [stepLive]
    cases hi : s.writers[i]? with
    | none => exact hp
    | some w => exact pay_advance h hp hi
  | cancel i => exact pay_sub hp (fun _ h => h) (fun _ h => h) (fun w hw => List.mem_of_mem_eraseIdx hw)
  | rotate =>
    refine pay_sub hp ?_ (fun _ h => h) (fun _ h => h)
    intro x hx
    change x ∈ entries (s.segs ++ [⟨s.nextSeg, []⟩]) at hx
    rw [entries_append] at hx
    simpa [entries] using hx
  | freeze =>
    change Pay c (moveRange s _)
    unfold moveRange
    split <;> exact pay_sub hp (fun _ h => h) (fun _ h => h) (fun _ h => h)
  | flushBegin =>
    simp only [stepLive]
    split <;> exact pay_sub hp (fun _ h => h) (fun _ h => h) (fun _ h => h)
  | flushWrite =>
    simp only [stepLive]
    split <;> exact pay_sub hp (fun _ h => h) (fun _ h => h) (fun _ h => h)
  | flushPublish => exact pay_sub hp (fun _ h => h) (fun _ h => h) (fun _ h => h)
  | flushDrain => exact pay_sub hp (fun _ h => h) (fun _ h => h) (fun _ h => h)
  | prune =>
    refine pay_sub hp (fun x hx => prune_entries hx) ?_ ?_ <;>
    · simp only [stepLive, prune]
      split <;> exact fun _ h => h
  | start t head skip => exact pay_sub hp (fun _ h => h) (fun _ h => h) (fun _ h => h)
  | finish i => exact pay_sub hp (fun _ h => h) (fun _ h => h) (fun _ h => h)
  | crash cap pol st => exact pay_crash hp cap pol st

/-- Of any part of the log. -/
theorem pay_txns (hp : Pay c s) {E : List (Ent A)} (hE : ∀ x ∈ E, x ∈ entries s.segs) :
    AllTxns (fun ts e => GoodPayload c.ext c.sch ts e ∧ ∀ w ∈ lastOnly (payloadWrites c.ext c.sch ts e), w ∈ s.committed)
      (evs E) := by
  intro p hpm e he
  obtain ⟨pre, id, post, h1, h2⟩ := mem_committed.1 hpm
  have hc : Event.commit id p.1 ∈ evs E := by rw [h1]; simp
  obtain ⟨x, hx, hxe⟩ := List.mem_map.1 hc
  rw [h2] at he
  unfold bodyOf at he
  obtain ⟨h3, h4⟩ := List.mem_filter.1 he
  have hy : e ∈ evs E := by
    rw [h1]
    exact List.mem_append_left _ (List.mem_reverse.1 ((List.takeWhile_sublist _).subset (List.mem_reverse.1 h3)))
  obtain ⟨y, hyE, rfl⟩ := List.mem_map.1 hy
  exact hp.log x (hE x hx) y (hE y hyE) id p.1 hxe h4

/-! ## The power loss -/

theorem replayed_from {floor : Option WalRef} {segs : List (LSeg A)}
    (h : ∀ r ∈ floor.toList, ∀ x ∈ entries segs, r.seq ≤ x.1 → r.first ≤ x.2.1) :
    replayed floor segs = evs (since (floorSeq floor) (entries segs)) := by
  rw [replayed_eq]
  congr 1
  unfold since
  apply List.filter_congr
  intro x hx
  cases floor with
  | none => simp [visited, floorSeq]
  | some f =>
    have hg := h f (by simp) x hx
    simp only [visited, floorSeq]
    by_cases h1 : x.1 < f.seq
    · rw [if_pos h1]
      exact (decide_eq_false (by omega)).symm
    · rw [if_neg h1]
      have h2 : f.seq ≤ x.1 := by omega
      by_cases h3 : x.1 = f.seq
      · rw [if_pos h3]
        simp [hg h2, h2]
      · rw [if_neg h3]
        simp [h2]

theorem power_state (h : D c s n log logs cur) (hpay : Pay c s) {acked com : List (Ver K R)} {m : Nat} {keep : Nat → Bool}
    (hm : ∀ i, i < m → keep i = true)
    (hk : Keeps c s n logs cur acked com) (hN : NewRecords s m com) {cap : Nat} (hcap : 0 < cap) (there : Nat → Bool) (pol : Nat → Bool)
    (st : Option WState) :
    ∃ logs' cur', (powerLoss c s keep there cap pol st).dead = false ∧ Inv c.ext c.x c.table n (powerLoss c s keep there cap pol st).db ∧
      List.Forall₂ (Imm.Rep c.ext) (powerLoss c s keep there cap pol st).db.runs.runs logs' ∧
      Rep c.ext (powerLoss c s keep there cap pol st).db.runs.mem cur' ∧
      (∀ w, w ∈ logs'.flatten ++ cur' ↔ w ∈ logBatches c.ext c.sch (replayed (floorOf c s) (cut keep there s.segs))) ∧
      (∀ w ∈ logBatches c.ext c.sch (replayed (floorOf c s) (cut keep there s.segs)), w ∈ s.committed) ∧
      (∀ u, OnDisk c.table n (powerLoss c s keep there cap pol st).db u ↔ OnDisk c.table n s.db u) ∧
      ∀ w ∈ acked, ∃ u, u.key = w.key ∧ w.ts ≤ u.ts ∧
        (u ∈ logBatches c.ext c.sch (replayed (floorOf c s) (cut keep there s.segs)) ∨ OnDisk c.table n s.db u) := by
  obtain ⟨k, hkn, _⟩ := allocator_spec h.inv
  have hfgood : ∀ r ∈ (floorOf c s).toList, RefGood (entries s.segs) r := h.refs _ (by unfold base; simp)
  have hrep := replayed_from (floor := floorOf c s) (segs := cut keep there s.segs) (by
    intro r hr x hx
    rw [entries_cut] at hx
    exact (hfgood r hr).2 x (List.mem_filter.1 hx).1)
  rw [entries_cut] at hrep
  have hordc : Ord ((entries s.segs).filter (fun x => keep x.2.1)) := List.Pairwise.filter _ h.lg.ord
  obtain ⟨a, ha⟩ := since_suffix (fl := floorSeq (floorOf c s)) (ord_seg hordc)
  generalize hX : since (floorSeq (floorOf c s)) ((entries s.segs).filter (fun x => keep x.2.1)) = X at hrep ha
  have hgl : AllTxns (fun ts e => GoodPayload c.ext c.sch ts e ∧
      ∀ w ∈ lastOnly (payloadWrites c.ext c.sch ts e), w ∈ s.committed) (evs X) := by
    have := pay_txns hpay (E := (entries s.segs).filter (fun x => keep x.2.1)) (fun x hx => (List.mem_filter.1 hx).1)
    rw [ha, evs_append] at this
    exact allTxns_suffix this
  obtain ⟨rs, hrs, hfine⟩ := good_all (pol := pol) hcap (evs X) (fun p hp e he => (hgl p hp e he).1)
  have hreplay : Wal.replay c.ext c.sch pol (Mem.Runs.new cap) (evs X) = some (rs.mem, rs.last) := by
    unfold Wal.replay
    rw [hrs]
    rfl
  obtain ⟨ops, ho1, _, ho2⟩ := (loop_all (evs X) hrs).mem
  have hmemok : MemOk c.ext rs.mem := by
    have := memOk_calls (ext := c.ext) ops (t := Mem.Runs.new cap) ⟨⟨_, rep_new c.ext cap⟩, by simp [Mem.Runs.new]⟩
    rw [ho1] at this
    exact this
  obtain ⟨logs', cur', r1, r2, r3⟩ := calls_rep ops (t := Mem.Runs.new cap) (logs := []) .nil (rep_new c.ext cap) ho1
  rw [ho2] at r3
  have hdb : (powerLoss c s keep there cap pol st).dead = false ∧
      (powerLoss c s keep there cap pol st).db = { s.db with runs := rs.mem, next := k, flushing := .idle, jobs := [] } := by
    have hf : floorOf c { s with segs := cut keep there s.segs } = floorOf c s := rfl
    unfold powerLoss crash reopen
    simp only [hkn, hf, hrep, hreplay]
    exact ⟨h.open_, trivial⟩
  obtain ⟨hdead, hdb⟩ := hdb
  have hinv : Inv c.ext c.x c.table n { s.db with runs := rs.mem, next := k, flushing := .idle, jobs := [] } := by
    have h1 := inv_reopen h.inv cap
    have e1 : (Lsm.step c.ext c.x c.table s.db (.reopen cap)).2 =
        { s.db with runs := Mem.Runs.new cap, next := k, flushing := .idle, jobs := [] } := by
      unfold Lsm.step
      simp only [reopen, hkn]
    rw [e1] at h1
    exact inv_frame h1 hmemok rfl (Nat.le_refl _) (fun _ _ => rfl) rfl rfl rfl
  refine ⟨logs', cur', hdead, by rw [hdb]; exact hinv, by rw [hdb]; exact r1, by rw [hdb]; exact r2, ?_, ?_, ?_, ?_⟩
  · rw [hrep]
    intro w
    rw [r3 w]
    simp
  · rw [hrep]
    intro w hw
    obtain ⟨p, hp, e, he, hw⟩ := mem_logBatches.1 hw
    exact (hgl p hp e he).2 w hw
  · rw [hdb]
    exact fun u => Iff.rfl
  · rw [hrep]
    intro w hw
    obtain ⟨u, h1, h2, ⟨h3, h4⟩ | h3⟩ := hk w hw
    · refine ⟨u, h1, h2, .inl ?_⟩
      have hlog : ∃ g j, LoggedAt c.ext c.sch (entries s.segs) u g j ∧ AllCov (base c s) g := by
        rcases h3 with h3 | h3
        · obtain ⟨l, hl, hu⟩ := List.mem_flatten.1 h3
          obtain ⟨r, _, hr⟩ := forall₂_mem_right h.safe.runs hl
          obtain ⟨_, _, g, j, _, _, g3, g4⟩ := hr u hu
          exact ⟨g, j, g3, g4⟩
        · obtain ⟨_, _, g, j, _, _, g3, g4⟩ := h.safe.cur u h3
          exact ⟨g, j, g3, g4⟩
      obtain ⟨g, j, g3, g4⟩ := hlog
      have g5 := logged_cut (m := m) hm h.lg.ord g3 (by
        intro x hx hge id ts he e hu
        exact hN x hx hge id ts he u h4 (payload_ts hu))
      have hf := covers_floor.1 (g4 (floorOf c s).toList (by unfold base; simp))
      have := logBatches_of_logged (logged_since g5 (ord_seg hordc) hf)
      rw [hX] at this
      exact this
    · exact ⟨u, h1, h2, .inr h3⟩

end Tonbo.Lemmas.PowerLog
