import Verif.Lemmas.WalTimer
import Verif.Props.C31_C33_Writer

/-!
# C64: How long a write may stay off the disk, and a segment open

**C64.** With the sync policy `IntervalTime(d)` everything written to the log is on the disk at most `d`
later, with `IntervalBytes(b)` less than `b` bytes are not, and with `segment_max_age = a` nothing stays in
the open segment for longer than `a`: whatever was written by a time `t` is on the disk (is in a sealed
segment) once the task has been scheduled at `t + d` (`t + a`) or later, for every history of commands,
rotations and passing time.

The time and the byte limit hold when the file is flushed for every command
(`synced_within_the_interval_partial`, `unsynced_bytes_are_bounded_partial`). With any other flush interval the
time limit fails for ever: what is in the buffer of the file is not reached by the timed fsync, and no timer
flushes the buffer (`an_idle_log_is_never_synced`). The default configuration (10 ms, 50 ms) is of this
kind. The age holds within one life of the process (`segments_close_at_their_age_partial`); every restart
starts it anew (`restarts_extend_the_age`).

The timed task does nothing but the steps of `Model/WalWriter.lean` (`timed_task_is_the_writer`), so the
theorems of C31 to C33 hold for it.
-/

namespace Tonbo.Props.C64
open Tonbo.Model Tonbo.Model.WalT Tonbo.Lemmas.WalW Tonbo.Lemmas.WalT

variable {F : Type}

/-- Every command has a frame (`encode_command` returns at least one). -/
def Encoded (ops : List (TOp F)) : Prop := ∀ ms, TOp.batch ms ∈ ops → ∀ m ∈ ms, m.frames ≠ []

/-- The process lives on. -/
def OneLife (ops : List (TOp F)) : Prop := TOp.restart ∉ ops

/-- The frames handed to the task, in order. -/
def submitted (ops : List (TOp F)) : List F := ops.flatMap framesOf

/-- All frames in the log, in order. -/
def logged (s : T F) : List F := (WalW.written s.w).map Prod.snd

/-- The frames a loss of power leaves. -/
def onDisk (s : T F) : List F := (WalW.afterPowerLoss s.w).map Prod.snd

/-- The frames in sealed segments. -/
def inSealed (s : T F) : List F := (s.w.completed.flatMap (fun c => c.1.all)).map Prod.snd

theorem encoded_cons {op : TOp F} {ops : List (TOp F)} (h : Encoded (op :: ops)) :
    Encoded ops ∧ ∀ ms, op = .batch ms → ∀ m ∈ ms, m.frames ≠ [] :=
  ⟨fun ms hm => h ms (List.mem_cons_of_mem _ hm), fun ms hm => h ms (hm ▸ List.mem_cons_self)⟩

/-! ## The timed task and the writer -/

/-- **C64**, the model: what the timed task does to the log and acknowledges is what the writer of
`Model/WalWriter.lean` does with the same commands in some history of its own, with a loss of power only
for a restart. -/
theorem timed_task_is_the_writer (c : TCfg) (size : F → Nat) (ops : List (TOp F)) :
    ∀ s : T F, ∃ wops : List (WalW.Op F),
      WalW.run c.plain size s.w wops = ((WalT.run c size s ops).1.w, (WalT.run c size s ops).2) ∧
      wops.flatMap cmdsOf = ops.flatMap msgsOf ∧ C31.NoPrune wops ∧ (OneLife ops → C31.Powered wops) := by
  induction ops with
  | nil => intro s; exact ⟨[], rfl, rfl, fun n h => (by cases h), fun _ h => (by cases h)⟩
  | cons op ops ih =>
    intro s
    obtain ⟨a, ha, hc, hp, hl⟩ := step_refines c size s op
    obtain ⟨b, hb, hc', hp', hl'⟩ := ih (WalT.step c size s op).1
    refine ⟨a ++ b, ?_, ?_, ?_, ?_⟩
    · rw [wrun_append, ha]
      simp only [hb]
      rfl
    · rw [List.flatMap_append, List.flatMap_cons, hc, hc']
    · intro n hn
      rcases List.mem_append.1 hn with hn | hn
      · exact hp n hn
      · exact hp' n hn
    · intro ho hn
      rcases List.mem_append.1 hn with hn | hn
      · exact ho (hl hn ▸ List.mem_cons_self)
      · exact hl' (fun h => ho (List.mem_cons_of_mem _ h)) hn

/-! ## The fsync -/

theorem reach_timed {c : TCfg} {i : Nat} (hr : c.retention = none) (hs : c.sync = .time i) (hf : c.flushEvery = 0)
    {size : F → Nat} (hz : ∀ f, 0 < size f) (ops : List (TOp F)) (he : Encoded ops) :
    ∀ {s : T F} {L : List F}, Timed i s L → ∃ L', Timed i (WalT.run c size s ops).1 L' := by
  induction ops with
  | nil => intro s L h; exact ⟨L, h⟩
  | cons op ops ih =>
    intro s L h
    have he' := encoded_cons he
    by_cases hn : op = .restart
    · subst hn
      exact ih he'.1 (restart_timed hr h.ok.kept)
    · exact ih he'.1 (step_timed hr hs hf hz h op he'.2 hn).1

theorem later_timed {c : TCfg} {i : Nat} (hr : c.retention = none) (hs : c.sync = .time i) (hf : c.flushEvery = 0)
    {size : F → Nat} (hz : ∀ f, 0 < size f) (ops : List (TOp F)) (he : Encoded ops) (ho : OneLife ops) (t : Nat) (A : List F) :
    ∀ {s : T F} {L : List F}, Timed i s L → Promised i t A s → A <+: L →
      ∃ L', Timed i (WalT.run c size s ops).1 L' ∧ Promised i t A (WalT.run c size s ops).1 ∧ A <+: L' := by
  induction ops with
  | nil => intro s L h hp hA; exact ⟨L, h, hp, hA⟩
  | cons op ops ih =>
    intro s L h hp hA
    have he' := encoded_cons he
    have hn : op ≠ .restart := fun h => ho (h ▸ List.mem_cons_self)
    obtain ⟨h1, h2, _⟩ := step_timed hr hs hf hz h op he'.2 hn
    exact ih he'.1 (fun h => ho (List.mem_cons_of_mem _ h)) h1 (h2 t A hp hA) (hA.trans (List.prefix_append _ _))

theorem disk_poll {c : TCfg} (hr : c.retention = none) {s : T F} {L : List F} (h : Ok s.w L) : disk s.w <+: disk (poll c s).w := by
  unfold poll
  by_cases hq : passed s.now s.timer = true
  · rw [if_pos hq, fire_w]
    unfold WalW.tick
    cases passed s.now s.rotateAt with
    | false => exact disk_timedSync h.kept _
    | true =>
      exact (disk_rotationRequest (cfg := c.plain) hr h.kept).trans
        (disk_timedSync (ok_rotationRequest (cfg := c.plain) hr h).kept _)
  · rw [if_neg hq]
    exact List.prefix_refl _

/-- **C64**, in part: with `IntervalTime(i)` and a flush for every command, what is in the log at some time is on
the disk as soon as the task is scheduled `i` later or after that, whatever happens in between and with any
restarts before. Missing: other flush intervals (`an_idle_log_is_never_synced`). -/
theorem synced_within_the_interval_partial (c : TCfg) (i : Nat) (hr : c.retention = none) (hs : c.sync = .time i)
    (hf : c.flushEvery = 0) (size : F → Nat) (hz : ∀ f, 0 < size f) (t0 : Nat) (ops later : List (TOp F))
    (he : Encoded ops) (he' : Encoded later) (ho : OneLife later) :
    let s1 := (WalT.run c size (T.start c WalW.W.new t0) ops).1
    let s2 := (WalT.run c size s1 later).1
    s1.now + i ≤ s2.now → logged s1 <+: onDisk (WalT.step c size s2 .wake).1 := by
  intro s1 s2 hle
  obtain ⟨L, hL⟩ := reach_timed hr hs hf hz ops he (new_timed c i t0)
  have hlog : logged s1 = L := written_ok hL.ok
  have hp : Promised i s1.now L s1 := by
    rcases Nat.eq_zero_or_pos s1.w.since with h0 | h0
    · exact Or.inl (by rw [hL.all h0]; exact List.prefix_refl _)
    · obtain ⟨e, hx⟩ := hL.set h0
      exact Or.inr ⟨e, hx, hL.soon e hx⟩
  obtain ⟨L', h1, h2, h3⟩ := later_timed hr hs hf hz later he' ho s1.now L hL hp (List.prefix_refl _)
  obtain ⟨k1, k2, k3, k4⟩ := poll_timed hr hs h1
  have e : WalT.step c size s2 .wake = (poll c s2, []) := by
    simp [WalT.step, show s2.w.dead = false from h1.ok.alive, show (poll c s2).w.dead = false from k1.ok.alive, WalT.live]
  rw [hlog, e]
  show L <+: disk (poll c s2).w
  rcases h2 with h2 | ⟨x, hx, hxle⟩
  · exact h2.trans (disk_poll hr h1.ok)
  · rw [k4 x hx (Nat.le_trans hxle hle)]; exact h3

/-- The task is only woken and time only passes. -/
def Idle (ops : List (TOp F)) : Prop := ∀ op ∈ ops, op = .wake ∨ ∃ d, op = .pass d

/-- **C64** is false when the flush interval is not zero: a frame written less than that interval after the
log was opened is acknowledged and then, as long as no other command comes, neither on the disk nor even
handed to the operating system, however often the task is scheduled and however much later. -/
theorem an_idle_log_is_never_synced (c : TCfg) (i : Nat) (hs : c.sync = .time i) (hf : 0 < c.flushEvery)
    (ha : c.maxAge = none) (size : F → Nat) (f : F) (commit : Option Nat) (hb : c.maxBytes = 0 ∨ size f < c.maxBytes)
    (t0 : Nat) (later : List (TOp F)) (hi : Idle later) :
    let s1 := WalT.step c size (T.start c WalW.W.new t0) (.batch [⟨[f], commit⟩])
    let s2 := (WalT.run c size s1.1 later).1
    s1.2 = [(1, 1)] ∧ logged s2 = [f] ∧ onDisk s2 = [] ∧ WalW.afterKill s2.w = [] := by
  have hdue : flushDue c (T.start c (WalW.W.new : WalW.W F) t0) = false := by
    unfold flushDue T.start recompute
    simp only [Nat.sub_self, decide_eq_false_iff_not]
    omega
  have hz : c.plain.flushZero = false := by
    simp only [TCfg.plain, beq_eq_false_iff_ne]
    omega
  have hfull : full c (0 + WalW.total size [f]) = false := by
    unfold full
    rw [decide_eq_false_iff_not, Classical.not_not]
    simpa [WalW.total] using Or.elim hb Or.inl (fun h => Or.inr (Or.inl h))
  intro s1 s2
  -- what the state looks like from then on
  have inv : ∀ (ops : List (TOp F)), Idle ops → ∀ s : T F, s.w.active = ⟨0, [], [], [(1, f)]⟩ → s.w.completed = [] →
      s.w.pruned = 0 → s.rotateAt = none →
      (WalT.run c size s ops).1.w.active = ⟨0, [], [], [(1, f)]⟩ ∧ (WalT.run c size s ops).1.w.completed = [] ∧
        (WalT.run c size s ops).1.w.pruned = 0 := by
    intro ops
    induction ops with
    | nil => intro _ s h1 h2 h3 _; exact ⟨h1, h2, h3⟩
    | cons op ops ih =>
      intro hi s h1 h2 h3 h4
      have hi' : Idle ops := fun o ho => hi o (List.mem_cons_of_mem _ ho)
      rcases hi op List.mem_cons_self with rfl | ⟨d, rfl⟩
      · have hp : (poll c s).w.active = ⟨0, [], [], [(1, f)]⟩ ∧ (poll c s).w.completed = [] ∧ (poll c s).w.pruned = 0 ∧
            (poll c s).rotateAt = none := by
          unfold poll
          by_cases hq : passed s.now s.timer = true
          · rw [if_pos hq]
            have hfr : fireRotate c s = s := by unfold fireRotate; rw [h4]; rfl
            unfold fire
            rw [hfr]
            unfold fireSync recompute
            by_cases hx : passed s.now s.syncAt = true ∧ s.w.dead = false
            · rw [if_pos hx]
              refine ⟨?_, ?_, ?_, h4⟩
              · simp only [WalW.timedSync]
                split_ifs
                · simp [WalW.syncNow, WalW.Seg.fsync, h1]
                · exact h1
              · simp only [WalW.timedSync]
                split_ifs
                · exact h2
                · exact h2
              · simp only [WalW.timedSync]
                split_ifs
                · exact h3
                · exact h3
            · rw [if_neg hx]
              exact ⟨h1, h2, h3, h4⟩
          · rw [if_neg hq]; exact ⟨h1, h2, h3, h4⟩
        have hst : (WalT.step c size s .wake).1 = s ∨ (WalT.step c size s .wake).1 = poll c s := by
          unfold WalT.step
          simp only
          by_cases hd : s.w.dead = true
          · rw [if_pos hd]; exact Or.inl rfl
          · rw [if_neg hd]
            by_cases hp : (poll c s).w.dead = true
            · rw [if_pos hp]; exact Or.inr rfl
            · rw [if_neg hp]; exact Or.inr rfl
        rcases hst with hst | hst
        · simpa [WalT.run, hst] using ih hi' s h1 h2 h3 h4
        · simpa [WalT.run, hst] using ih hi' (poll c s) hp.1 hp.2.1 hp.2.2.1 hp.2.2.2
      · exact ih hi' (WalT.step c size s (.pass d)).1 h1 h2 h3 h4
  have henq : WalW.enqueue c.plain size (WalW.W.new : WalW.W F) ⟨[f], commit, false⟩ =
      (WalW.recordCommit commit (WalW.writeFrames size WalW.W.new [f]), some (1, 1)) := by
    have hw : WalW.writeOut c.plain size WalW.W.new (⟨[f], commit, false⟩ : WalW.Cmd F) = WalW.writeFrames size WalW.W.new [f] := by
      rw [writeOut_eq]
      rw [show (WalW.W.new : WalW.W F).bytes = 0 from rfl, if_neg (by simpa using hfull)]
      unfold before WalW.flushIf
      rw [hz]
      rfl
    unfold WalW.enqueue
    rw [if_neg (by simp), hw]
    have hms : ∀ w : WalW.W F, WalW.maybeSync c.plain w = w := by
      intro w
      unfold WalW.maybeSync
      rw [plain_time hs]
    rw [if_neg (by simp [WalW.writeFrames, WalW.W.new]), hms]
    rfl
  have hstep : s1.2 = [(1, 1)] ∧ s1.1.w = WalW.recordCommit commit (WalW.writeFrames size WalW.W.new [f]) ∧ s1.1.rotateAt = none := by
    have hpoll : poll c (T.start c (WalW.W.new : WalW.W F) t0) = T.start c WalW.W.new t0 := rfl
    have hst : s1 = WalT.batch c size (T.start c WalW.W.new t0) [⟨[f], commit⟩] := rfl
    have hack : (handle c size (T.start c (WalW.W.new : WalW.W F) t0) ⟨[f], commit⟩).2.1 = some (1, 1) := by
      unfold handle
      simp only [hdue]
      rw [show (T.start c (WalW.W.new : WalW.W F) t0).w = WalW.W.new from rfl, henq]
    have hw : (handle c size (T.start c (WalW.W.new : WalW.W F) t0) ⟨[f], commit⟩).1.w =
        WalW.recordCommit commit (WalW.writeFrames size WalW.W.new [f]) := by
      unfold handle
      simp only [hdue]
      rw [show (T.start c (WalW.W.new : WalW.W F) t0).w = WalW.W.new from rfl, henq]
    have hrot : (handle c size (T.start c (WalW.W.new : WalW.W F) t0) ⟨[f], commit⟩).1.rotateAt = none := by
      show ageAfter c (T.start c (WalW.W.new : WalW.W F) t0) (0 + WalW.total size [f]) = none
      unfold ageAfter
      rw [hfull, ha]
      simp only [Bool.false_eq_true, if_false]
      split_ifs <;> rfl
    rw [hst]
    unfold WalT.batch
    rw [handleAll_some c size _ .keep ⟨[f], commit⟩ [] hack]
    refine ⟨rfl, ?_, ?_⟩
    · simp only [handleAll]
      rw [direct_w, hw]
    · simp only [handleAll]
      rw [(direct_aged _ _).1, hrot]
  obtain ⟨h1, h2, h3⟩ := hstep
  have hrc : ∀ w : WalW.W F, (WalW.recordCommit commit w).active = w.active ∧ (WalW.recordCommit commit w).completed = w.completed ∧
      (WalW.recordCommit commit w).pruned = w.pruned := by
    intro w
    unfold WalW.recordCommit
    split_ifs <;> exact ⟨rfl, rfl, rfl⟩
  obtain ⟨k1, k2, k3⟩ := inv later hi s1.1 (by rw [h2, (hrc _).1]; rfl) (by rw [h2, (hrc _).2.1]; rfl) (by rw [h2, (hrc _).2.2]; rfl) h3
  have hseg : WalW.segments s2.w = [⟨0, [], [], [(1, f)]⟩] := by
    rw [segments_kept k3, k2, k1]
    rfl
  refine ⟨h1, ?_, ?_, ?_⟩
  · unfold logged WalW.written
    rw [hseg]
    simp [WalW.Seg.all]
  · unfold onDisk WalW.afterPowerLoss
    rw [hseg]
    simp
  · unfold WalW.afterKill
    rw [hseg]
    simp

/-! ## The bytes that are not synced -/

/-- The bytes of the log a loss of power takes. -/
def unsynced (size : F → Nat) (w : WalW.W F) : Nat :=
  WalW.total size (((WalW.segments w).flatMap (fun g => g.flushed ++ g.buffered)).map Prod.snd)

/-- What is kept by every step with `IntervalBytes(b)` and a flush for every command. -/
structure Bounded (b : Nat) (size : F → Nat) (w : WalW.W F) (L : List F) : Prop where
  ok : Ok w L
  flushed : Flushed w
  done : SealedOnDisk w
  count : WalW.total size (w.active.flushed.map Prod.snd) ≤ w.since
  few : w.since < max b 1

theorem Bounded.unsynced {b : Nat} {size : F → Nat} {w : WalW.W F} {L : List F} (h : Bounded b size w L) :
    C64.unsynced size w < max b 1 := by
  refine Nat.lt_of_le_of_lt ?_ h.few
  refine Nat.le_trans (Nat.le_of_eq ?_) h.count
  unfold C64.unsynced
  rw [segments_kept h.ok.kept, List.flatMap_append]
  have e : (w.completed.map Prod.fst).flatMap (fun g => g.flushed ++ g.buffered) = [] := by
    rw [List.flatMap_eq_nil_iff]
    intro g hg
    obtain ⟨c, hc, rfl⟩ := List.mem_map.1 hg
    obtain ⟨h1, h2⟩ := h.done c hc
    rw [h1, h2]
    rfl
  rw [e]
  simp [h.flushed.2]

theorem bounded_rotate {cfg : WalW.Cfg} {b : Nat} (hr : cfg.retention = none) (hs : cfg.sync = .bytes b) {size : F → Nat}
    {w : WalW.W F} {L : List F} (h1 : Ok w L) (h2 : Flushed w) (h3 : SealedOnDisk w) : Bounded b size (WalW.rotate cfg w) L := by
  have hd : cfg.sync ≠ .disabled := by rw [hs]; exact fun h => by cases h
  refine ⟨ok_rotate hr h1, flushed_rotate hr h2, sealed_rotate hr hd h3, ?_, ?_⟩
  · unfold WalW.rotate
    rw [retain_none hr]
    exact Nat.zero_le _
  · rw [(since_rotate hr hd _).1]
    omega

theorem bounded_sync {b : Nat} {size : F → Nat} {w : WalW.W F} {L : List F} (h1 : Ok w L) (h2 : Flushed w) (h3 : SealedOnDisk w) :
    Bounded b size (WalW.syncNow w) L :=
  ⟨ok_syncNow h1, h2, h3, Nat.zero_le _, by show 0 < max b 1; omega⟩

theorem bounded_tick {cfg : WalW.Cfg} {b : Nat} (hr : cfg.retention = none) (hs : cfg.sync = .bytes b) {size : F → Nat}
    {w : WalW.W F} {L : List F} (h : Bounded b size w L) (r y : Bool) : Bounded b size (WalW.tick cfg w r y) L := by
  have h1 : Bounded b size (if r = true then WalW.rotationRequest cfg w else w) L := by
    cases r
    · exact h
    · simp only [if_true, WalW.rotationRequest]
      split_ifs
      · exact h
      · exact bounded_rotate hr hs h.ok h.flushed h.done
  unfold WalW.tick WalW.timedSync
  generalize (if r = true then WalW.rotationRequest cfg w else w) = v at h1 ⊢
  by_cases c : y = true ∧ 0 < v.since ∧ v.dead = false
  · rw [if_pos c]; exact bounded_sync h1.ok h1.flushed h1.done
  · rw [if_neg c]; exact h1

theorem bounded_enqueue {cfg : WalW.Cfg} {b : Nat} (hr : cfg.retention = none) (hs : cfg.sync = .bytes b) (size : F → Nat)
    {w : WalW.W F} {L : List F} (h : Bounded b size w L) (x : WalW.Cmd F) (hp : (cfg.flushZero || x.elapsed) = true) :
    Bounded b size (WalW.recordCommit x.commit (WalW.maybeSync cfg (WalW.writeOut cfg size w x))) (L ++ x.frames) := by
  have hd : cfg.sync ≠ .disabled := by rw [hs]; exact fun h => by cases h
  have h1 := ok_writeOut hr size h.ok x
  have h2 := flushed_writeOut hr size h.flushed x hp
  have h3 := sealed_writeOut hr hd size h.done x
  have h4 : WalW.total size ((WalW.writeOut cfg size w x).active.flushed.map Prod.snd) ≤ (WalW.writeOut cfg size w x).since := by
    unfold WalW.writeOut WalW.maybeRotate
    split_ifs
    · unfold WalW.flushIf
      rw [if_pos hp]
      have := h.count
      have hb := h.flushed.2
      simp only [WalW.Seg.flush, WalW.writeFrames, hb, List.nil_append, List.map_append, number_snd, C33.total_append]
      omega
    · exact (bounded_rotate hr hs (size := size) (ok_flushIf (ok_writeFrames size h.ok _) _)
        (by unfold WalW.flushIf; rw [if_pos hp]; exact ⟨h.flushed.1, rfl⟩) (sealed_flushIf h.done)).count
  have h5 : Bounded b size (WalW.maybeSync cfg (WalW.writeOut cfg size w x)) (L ++ x.frames) := by
    unfold WalW.maybeSync
    rw [hs]
    simp only
    split_ifs with hb
    · exact bounded_sync h1 h2 h3
    · exact ⟨h1, h2, h3, h4, by omega⟩
  refine ⟨ok_recordCommit h5.ok _, flushed_recordCommit h5.flushed, sealed_recordCommit h5.done, ?_, ?_⟩
  · unfold WalW.recordCommit
    split_ifs <;> exact h5.count
  · unfold WalW.recordCommit
    split_ifs <;> exact h5.few

/-- **C64**, in part: with `IntervalBytes(b)` and a flush for every command, after every step of every history a
loss of power takes less than `b` bytes of the log (none for `b = 0`). Missing: other flush
intervals. -/
theorem unsynced_bytes_are_bounded_partial (cfg : WalW.Cfg) (b : Nat) (hr : cfg.retention = none) (hs : cfg.sync = .bytes b)
    (size : F → Nat) (ops : List (WalW.Op F)) (he : C31.Encoded ops) (hp : C31.Prompt cfg ops) (hn : C31.NoPrune ops) :
    unsynced size (WalW.run cfg size WalW.W.new ops).1 < max b 1 := by
  have hd : cfg.sync ≠ .disabled := by rw [hs]; exact fun h => by cases h
  have key : ∀ (ops : List (WalW.Op F)), C31.Encoded ops → C31.Prompt cfg ops → C31.NoPrune ops → ∀ (w : WalW.W F) (L : List F),
      Bounded b size w L → ∃ L', Bounded b size (WalW.run cfg size w ops).1 L' := by
    intro ops
    induction ops with
    | nil => intro _ _ _ w L h; exact ⟨L, h⟩
    | cons op ops ih =>
      intro he hp hn w L h
      have hstep : ∃ L', Bounded b size (WalW.step cfg size w op).1 L' := by
        unfold WalW.step
        rw [h.ok.alive]
        simp only [Bool.false_eq_true, if_false]
        cases op with
        | batch cs =>
          have all : ∀ cs : List (WalW.Cmd F), (∀ c ∈ cs, c.frames ≠ []) → (∀ c ∈ cs, (cfg.flushZero || c.elapsed) = true) →
              ∀ (w : WalW.W F) (L : List F), Bounded b size w L → ∃ L', Bounded b size (WalW.enqueueAll cfg size w cs).1 L' := by
            intro cs
            induction cs with
            | nil => intro _ _ w L h; exact ⟨L, h⟩
            | cons x cs ih =>
              intro h1 h2 w L h
              have hx := bounded_enqueue hr hs size h x (h2 x List.mem_cons_self)
              obtain ⟨L', h'⟩ := ih (fun c hc => h1 c (List.mem_cons_of_mem _ hc)) (fun c hc => h2 c (List.mem_cons_of_mem _ hc)) _ _ hx
              refine ⟨L', ?_⟩
              simp only [WalW.enqueueAll, enqueue_alive hr size h.ok x (h1 x List.mem_cons_self)]
              exact h'
          exact all cs (he cs List.mem_cons_self) (hp cs List.mem_cons_self) w L h
        | rotate =>
          refine ⟨L, ?_⟩
          simp only [WalW.live, WalW.rotationRequest]
          split_ifs
          · exact h
          · exact bounded_rotate hr hs h.ok h.flushed h.done
        | tick r y => exact ⟨L, bounded_tick hr hs h r y⟩
        | shutdown =>
          refine ⟨L, ?_⟩
          simp only [WalW.live, WalW.finishSeg, if_neg hd]
          exact bounded_sync (ok_flushIf h.ok _) ⟨h.flushed.1, rfl⟩ h.done
        | drain =>
          refine ⟨L, ?_⟩
          have e : w.active.flush = w.active := by
            have := h.flushed.2
            unfold WalW.Seg.flush
            rw [this, List.append_nil]
            cases ha : w.active
            rw [ha] at this
            simp only at this
            simp [this]
          simp only [WalW.live, e]
          exact h
        | writeback => exact ⟨L, ⟨⟨h.ok.alive, h.ok.kept, (ok_syncNow h.ok).content⟩, h.flushed, h.done, Nat.zero_le _, h.few⟩⟩
        | prune n => exact absurd List.mem_cons_self (hn n)
        | powerLoss =>
          obtain ⟨h1, h2, h3, _, h5⟩ := reopen_ok hr size h.ok.kept
          refine ⟨_, ⟨h1, ⟨fun d hd => (h2.1 d hd).2, h2.2.2⟩, h2.1, ?_, ?_⟩⟩
          · simp only [WalW.live]
            rw [h5]
            exact Nat.zero_le _
          · simp only [WalW.live]
            rw [h3]
            omega
      obtain ⟨L', h'⟩ := hstep
      exact ih (C31.encoded_cons he) (C31.prompt_cons hp) (C31.noPrune_cons hn) _ L' h'
  obtain ⟨L, h⟩ := key ops he hp hn WalW.W.new [] ⟨⟨rfl, rfl, rfl⟩, ⟨fun c hc => (by cases hc), rfl⟩, fun c hc => (by cases hc),
    Nat.le_refl _, by show 0 < max b 1; omega⟩
  exact h.unsynced

/-! ## The age of a segment -/

theorem reach_aged {c : TCfg} {a : Nat} (hr : c.retention = none) (hs : c.maxAge = some a)
    {size : F → Nat} (hz : ∀ f, 0 < size f) (ops : List (TOp F)) (he : Encoded ops) :
    ∀ {s : T F} {L : List F}, Aged a s L → Armed s →
      ∃ L', Aged a (WalT.run c size s ops).1 L' ∧ Armed (WalT.run c size s ops).1 := by
  induction ops with
  | nil => intro s L h hm; exact ⟨L, h, hm⟩
  | cons op ops ih =>
    intro s L h hm
    have he' := encoded_cons he
    by_cases hn : op = .restart
    · subst hn
      obtain ⟨h1, h2⟩ := restart_aged hr hs hz (s := s) h.ok.kept
      exact ih he'.1 h1 h2
    · obtain ⟨h1, h2, _⟩ := step_aged hr hs hz h hm op he'.2 hn
      exact ih he'.1 h1 h2

theorem later_aged {c : TCfg} {a : Nat} (hr : c.retention = none) (hs : c.maxAge = some a)
    {size : F → Nat} (hz : ∀ f, 0 < size f) (ops : List (TOp F)) (he : Encoded ops) (ho : OneLife ops) (t : Nat) (A : List F) :
    ∀ {s : T F} {L : List F}, Aged a s L → Armed s → t ≤ s.now → Due a t A s → A <+: L →
      ∃ L', Aged a (WalT.run c size s ops).1 L' ∧ Armed (WalT.run c size s ops).1 ∧ Due a t A (WalT.run c size s ops).1 ∧ A <+: L' := by
  induction ops with
  | nil => intro s L h hm _ hp hA; exact ⟨L, h, hm, hp, hA⟩
  | cons op ops ih =>
    intro s L h hm ht hp hA
    have he' := encoded_cons he
    have hn : op ≠ .restart := fun h => ho (h ▸ List.mem_cons_self)
    obtain ⟨h1, h2, h3, h4⟩ := step_aged hr hs hz h hm op he'.2 hn
    exact ih he'.1 (fun h => ho (List.mem_cons_of_mem _ h)) h1 h2 (Nat.le_trans ht h4) (h3 t A ht hp hA)
      (hA.trans (List.prefix_append _ _))

/-- **C64**, in part: with `segment_max_age = a`, what is in the log at some time is in sealed segments as soon as
the task is scheduled `a` later or after that, if the process lives on. Missing: restarts in between
(`restarts_extend_the_age`). -/
theorem segments_close_at_their_age_partial (c : TCfg) (a : Nat) (hr : c.retention = none) (hs : c.maxAge = some a)
    (size : F → Nat) (hz : ∀ f, 0 < size f) (t0 : Nat) (ops later : List (TOp F))
    (he : Encoded ops) (he' : Encoded later) (ho : OneLife later) :
    let s1 := (WalT.run c size (T.start c WalW.W.new t0) ops).1
    let s2 := (WalT.run c size s1 later).1
    s1.now + a ≤ s2.now → logged s1 <+: inSealed (WalT.step c size s2 .wake).1 := by
  intro s1 s2 hle
  obtain ⟨L, hL, hm⟩ := reach_aged hr hs hz ops he (new_aged c a t0).1 (new_aged c a t0).2
  have hlog : logged s1 = L := written_ok hL.ok
  have hp : Due a s1.now L s1 := by
    rcases Nat.eq_zero_or_pos s1.w.bytes with h0 | h0
    · exact Or.inl (by rw [hL.all h0]; exact List.prefix_refl _)
    · obtain ⟨e, hx⟩ := hL.set h0
      exact Or.inr ⟨e, hx, hL.soon e hx⟩
  obtain ⟨L', h1, h2, h3, h4⟩ := later_aged hr hs hz later he' ho s1.now L hL hm (Nat.le_refl _) hp (List.prefix_refl _)
  obtain ⟨k1, k2, k3, k4, k5⟩ := poll_aged (c := c) hr h1 h2
  have e : WalT.step c size s2 .wake = (poll c s2, []) := by
    simp [WalT.step, show s2.w.dead = false from h1.ok.alive, show (poll c s2).w.dead = false from k1.ok.alive, WalT.live]
  rw [hlog, e]
  show L <+: sealedFrames (poll c s2).w
  rcases h3 with h3 | ⟨x, hx, hxle⟩
  · by_cases hq : ∃ x, s2.rotateAt = some x ∧ x ≤ s2.now
    · obtain ⟨x, hx, hxle⟩ := hq
      rw [k5 x hx hxle]; exact h4
    · have hst : sealedFrames (poll c s2).w = sealedFrames s2.w := by
        unfold poll
        split_ifs
        · have hnp : passed s2.now s2.rotateAt = false := by
            cases hy : s2.rotateAt with
            | none => rfl
            | some y =>
              simp only [passed, decide_eq_false_iff_not]
              exact fun k => hq ⟨y, hy, k⟩
          have hfr : fireRotate c s2 = s2 := by unfold fireRotate; rw [hnp]; rfl
          unfold fire
          rw [hfr]
          unfold fireSync sealedFrames
          by_cases hx : passed s2.now s2.syncAt = true ∧ s2.w.dead = false
          · rw [if_pos hx, show (recompute { s2 with w := WalW.timedSync true s2.w, syncAt := none }).w.completed = s2.w.completed
              from (timedSync_eq true s2.w).2.1]
          · rw [if_neg hx]; rfl
        · rfl
      rw [hst]; exact h3
  · rw [k5 x hx (Nat.le_trans hxle hle)]; exact h4

/-- A restart just before the age is reached, again and again; the task is scheduled every time. -/
def restarts (a : Nat) : Nat → List (TOp F)
  | 0 => []
  | n + 1 => [.pass (a - 1), .wake, .restart, .wake] ++ restarts a n

/-- **C64** is false over restarts: with restarts more frequent than the age of a segment, a frame stays in the
open segment for any number of restarts, that is, for any time. -/
theorem restarts_extend_the_age (c : TCfg) (a : Nat) (hr : c.retention = none) (ha : c.maxAge = some (a + 1))
    (hs : c.sync = .always) (hf : c.flushEvery = 0) (size : F → Nat) (f : F) (hz : 0 < size f) (commit : Option Nat)
    (hb : c.maxBytes = 0 ∨ size f < c.maxBytes) (t0 n : Nat) :
    let s := (WalT.run c size (T.start c WalW.W.new t0) (.batch [⟨[f], commit⟩] :: restarts (a + 1) n)).1
    s.now = t0 + n * a ∧ s.w.active.all = [(1, f)] ∧ inSealed s = [] := by
  have hfull : full c (0 + WalW.total size [f]) = false := by
    unfold full
    rw [decide_eq_false_iff_not, Classical.not_not]
    simpa [WalW.total] using Or.elim hb Or.inl (fun h => Or.inr (Or.inl h))
  have hfz : c.plain.flushZero = true := by simp [TCfg.plain, hf]
  have hsy : c.plain.sync = .always := by simp [TCfg.plain, hs, TSync.plain]
  -- the state between two restarts
  have loop : ∀ (n : Nat) (s : T F), s.w.active = ⟨s.w.active.seq, [(1, f)], [], []⟩ → s.w.completed = [] → s.w.dead = false →
      s.rotateAt = some (s.now + (a + 1)) → s.syncAt = none → s.timer = s.rotateAt → s.w.pruned = 0 →
      (WalT.run c size s (restarts (a + 1) n)).1.now = s.now + n * a ∧
      (WalT.run c size s (restarts (a + 1) n)).1.w.active.all = [(1, f)] ∧
      (WalT.run c size s (restarts (a + 1) n)).1.w.completed = [] := by
    intro n
    induction n with
    | zero =>
      intro s h1 h2 h3 h4 h5 h6 h7
      refine ⟨by simp [restarts, WalT.run], ?_, h2⟩
      show s.w.active.all = _
      rw [h1]; rfl
    | succ n ih =>
      intro s h1 h2 h3 h4 h5 h6 h7
      have e1 : ∀ t : T F, t.rotateAt = some (s.now + (a + 1)) → t.timer = t.rotateAt → t.now ≤ s.now + a → poll c t = t := by
        intro t k1 k2 k3
        unfold poll
        rw [k2, k1, if_neg]
        simp only [passed, decide_eq_true_eq]
        omega
      have hwake : ∀ t : T F, t.w.dead = false → poll c t = t → WalT.step c size t .wake = (t, []) := by
        intro t k1 k2
        simp [WalT.step, k1, k2, WalT.live]
      -- time passes, the task is scheduled
      generalize hA : ({ s with now := s.now + a } : T F) = s1
      have g1 : WalT.step c size s (.pass (a + 1 - 1)) = (s1, []) := by rw [← hA]; rfl
      have hs1 : s1.w = s.w ∧ s1.now = s.now + a := by rw [← hA]; exact ⟨rfl, rfl⟩
      have g2 : WalT.step c size s1 .wake = (s1, []) := by
        refine hwake s1 (by rw [hs1.1]; exact h3) (e1 s1 ?_ ?_ ?_)
        · rw [← hA]; exact h4
        · rw [← hA]; exact h6
        · rw [hs1.2]
      -- the restart
      obtain ⟨q1, q2, q3, q4, q5⟩ := reopen_ok (cfg := c.plain) hr size (w := s1.w) (by rw [hs1.1]; exact h7)
      have hact : (WalW.reopen c.plain size s1.w).active = ⟨s.w.active.seq, [(1, f)], [], []⟩ := by
        rw [q5, hs1.1, h1]; rfl
      have hcomp : (WalW.reopen c.plain size s1.w).completed = [] := by
        unfold WalW.reopen
        rw [retain_none hr]
        simp [hs1.1, h2]
      have hbytes : 0 < (WalW.reopen c.plain size s1.w).bytes := by
        rw [q4, hs1.1, h1]
        simpa [WalW.total] using hz
      generalize hB : T.start c (WalW.reopen c.plain size s1.w) s1.now = s2
      have g3 : WalT.step c size s1 .restart = (s2, []) := by rw [← hB]; rfl
      have hs2 : s2.w = WalW.reopen c.plain size s1.w ∧ s2.now = s.now + a ∧ s2.rotateAt = some (s.now + a + (a + 1)) ∧
          s2.syncAt = none ∧ s2.timer = s2.rotateAt := by
        rw [← hB, ← hs1.2]
        unfold T.start recompute
        simp only [if_pos hbytes, ha, Option.map_some]
        simp [earliest]
      have g4 : WalT.step c size s2 .wake = (s2, []) := by
        refine hwake s2 (by rw [hs2.1]; exact q1.alive) ?_
        unfold poll
        rw [hs2.2.2.2.2, hs2.2.2.1, hs2.2.1, if_neg]
        simp only [passed, decide_eq_true_eq]
        omega
      obtain ⟨r1, r2, r3⟩ := ih s2 (by rw [hs2.1, hact]) (by rw [hs2.1]; exact hcomp) (by rw [hs2.1]; exact q1.alive)
        (by rw [hs2.2.2.1, hs2.2.1]) hs2.2.2.2.1 hs2.2.2.2.2 (by rw [hs2.1]; exact q1.kept)
      have erun : (WalT.run c size s (restarts (a + 1) (n + 1))).1 = (WalT.run c size s2 (restarts (a + 1) n)).1 := by
        simp only [restarts, List.cons_append, List.nil_append, WalT.run, g1, g2, g3, g4]
      rw [erun]
      refine ⟨?_, r2, r3⟩
      rw [r1, hs2.2.1, Nat.succ_mul]
      omega
  intro s
  -- the write
  have henq : (WalW.enqueue c.plain size (WalW.W.new : WalW.W F) ⟨[f], commit, flushDue c (T.start c (WalW.W.new : WalW.W F) t0)⟩) =
      (WalW.recordCommit commit (WalW.syncNow (WalW.flushIf true (WalW.writeFrames size WalW.W.new [f]))), some (1, 1)) := by
    have hw : WalW.writeOut c.plain size WalW.W.new (⟨[f], commit, flushDue c (T.start c (WalW.W.new : WalW.W F) t0)⟩ : WalW.Cmd F) =
        WalW.flushIf true (WalW.writeFrames size WalW.W.new [f]) := by
      rw [writeOut_eq]
      rw [show (WalW.W.new : WalW.W F).bytes = 0 from rfl, if_neg (by simpa using hfull)]
      unfold before
      rw [hfz, Bool.true_or]
    unfold WalW.enqueue
    rw [if_neg (by simp), hw]
    have hms : ∀ w : WalW.W F, WalW.maybeSync c.plain w = WalW.syncNow w := by
      intro w
      unfold WalW.maybeSync
      rw [hsy]
    rw [if_neg (by simp [WalW.writeFrames, WalW.flushIf, WalW.W.new]), hms]
    rfl
  have hack : (handle c size (T.start c (WalW.W.new : WalW.W F) t0) ⟨[f], commit⟩).2.1 = some (1, 1) := by
    unfold handle
    rw [show (T.start c (WalW.W.new : WalW.W F) t0).w = WalW.W.new from rfl, henq]
  have hw : (handle c size (T.start c (WalW.W.new : WalW.W F) t0) ⟨[f], commit⟩).1.w =
      WalW.recordCommit commit (WalW.syncNow (WalW.flushIf true (WalW.writeFrames size WalW.W.new [f]))) := by
    unfold handle
    rw [show (T.start c (WalW.W.new : WalW.W F) t0).w = WalW.W.new from rfl, henq]
  have hrot : (handle c size (T.start c (WalW.W.new : WalW.W F) t0) ⟨[f], commit⟩).1.rotateAt = some (t0 + (a + 1)) := by
    show ageAfter c (T.start c (WalW.W.new : WalW.W F) t0) (0 + WalW.total size [f]) = _
    unfold ageAfter
    rw [hfull, ha]
    simp only [Bool.false_eq_true, if_false]
    rw [if_pos]
    · rfl
    · exact ⟨rfl, by simpa [WalW.total] using hz⟩
  generalize hA : (WalT.step c size (T.start c (WalW.W.new : WalW.W F) t0) (.batch [⟨[f], commit⟩])).1 = s1
  have hs1 : s1.w = WalW.recordCommit commit (WalW.syncNow (WalW.flushIf true (WalW.writeFrames size WalW.W.new [f]))) ∧
      s1.rotateAt = some (t0 + (a + 1)) ∧ s1.now = t0 ∧ s1.syncAt = none ∧ s1.timer = s1.rotateAt := by
    have hst : s1 = (WalT.batch c size (T.start c WalW.W.new t0) [⟨[f], commit⟩]).1 := by rw [← hA]; rfl
    unfold WalT.batch at hst
    rw [handleAll_some c size _ .keep ⟨[f], commit⟩ [] hack] at hst
    simp only [handleAll] at hst
    have hdir : (handle c size (T.start c (WalW.W.new : WalW.W F) t0) ⟨[f], commit⟩).2.2 = .cancel := by
      show (if full c (0 + WalW.total size [f]) = true then Directive.cancel else syncDirective c (0 + WalW.total size [f])) = _
      rw [hfull]
      simp [syncDirective, hs]
    rw [hdir] at hst
    subst hst
    refine ⟨by rw [direct_w, hw], by rw [(direct_aged _ _).1, hrot], rfl, rfl, ?_⟩
    rw [(direct_aged _ _).2.2]
    show earliest none _ = _
    rw [(direct_aged _ _).1, hrot]
    rfl
  have hrc : ∀ w : WalW.W F, (WalW.recordCommit commit w).active = w.active ∧ (WalW.recordCommit commit w).completed = w.completed ∧
      (WalW.recordCommit commit w).pruned = w.pruned ∧ (WalW.recordCommit commit w).dead = w.dead := by
    intro w
    unfold WalW.recordCommit
    split_ifs <;> exact ⟨rfl, rfl, rfl, rfl⟩
  obtain ⟨r1, r2, r3⟩ := loop n s1 (by rw [hs1.1, (hrc _).1]; rfl) (by rw [hs1.1, (hrc _).2.1]; rfl) (by rw [hs1.1, (hrc _).2.2.2]; rfl)
    (by rw [hs1.2.1, hs1.2.2.1]) hs1.2.2.2.1 hs1.2.2.2.2 (by rw [hs1.1, (hrc _).2.2.1]; rfl)
  have erun : s = (WalT.run c size s1 (restarts (a + 1) n)).1 := by rw [← hA]; rfl
  refine ⟨by rw [erun, r1, hs1.2.2.1], by rw [erun, r2], ?_⟩
  unfold inSealed
  rw [erun, r3]
  rfl

/-! ## Examples -/

/-- `IntervalTime(50)`, a flush for every command, segments of at most a thousand bytes or 200 units of time. -/
def cfgEx : TCfg := ⟨1000, some 200, 0, .time 50, none, true⟩

/-- Frames of 30 bytes. -/
def sizeEx : Nat → Nat := fun _ => 30

def opsEx : List (TOp Nat) := [.batch [⟨[1, 2], none⟩], .pass 20, .batch [⟨[3], some 7⟩]]

def laterEx : List (TOp Nat) := [.pass 10, .batch [⟨[4], none⟩], .pass 45]

example : Encoded opsEx ∧ Encoded laterEx ∧ OneLife laterEx := by
  refine ⟨?_, ?_, ?_⟩
  · intro ms h m hm
    simp only [opsEx, List.mem_cons, TOp.batch.injEq, reduceCtorEq, List.not_mem_nil, or_false, false_or] at h
    rcases h with rfl | rfl <;> simp only [List.mem_singleton] at hm <;> subst hm <;> simp
  · intro ms h m hm
    simp only [laterEx, List.mem_cons, TOp.batch.injEq, reduceCtorEq, List.not_mem_nil, or_false, false_or] at h
    subst h
    simp only [List.mem_singleton] at hm
    subst hm
    simp
  · intro h; simp [laterEx] at h

/-- The third frame, written at 20, is on the disk at 75; before the task was scheduled nothing was. -/
example :
    let s1 := (WalT.run cfgEx sizeEx (T.start cfgEx WalW.W.new 0) opsEx).1
    let s2 := (WalT.run cfgEx sizeEx s1 laterEx).1
    (s1.now, s2.now) = (20, 75) ∧ logged s1 = [1, 2, 3] ∧ onDisk s1 = [] ∧ onDisk s2 = [] ∧
      onDisk (WalT.step cfgEx sizeEx s2 .wake).1 = [1, 2, 3, 4] := by
  decide +kernel

/-- The same log after the age of its segment. -/
example :
    let s1 := (WalT.run cfgEx sizeEx (T.start cfgEx WalW.W.new 0) opsEx).1
    let s2 := (WalT.run cfgEx sizeEx s1 (laterEx ++ [.pass 145])).1
    s2.now = 220 ∧ inSealed s2 = [] ∧ inSealed (WalT.step cfgEx sizeEx s2 .wake).1 = [1, 2, 3, 4] := by
  decide +kernel

/-- The default configuration: a second command less than 10 units after the first stays in the buffer. -/
example :
    let c : TCfg := ⟨67108864, none, 10, .time 50, none, false⟩
    let s := (WalT.run c sizeEx (T.start c (WalW.W.new : WalW.W Nat) 0)
      [.pass 20, .batch [⟨[1], none⟩], .pass 1, .batch [⟨[2], none⟩], .pass 1000000, .wake]).1
    logged s = [1, 2] ∧ onDisk s = [1] := by
  decide +kernel

/-- A byte limit of 100: three frames of 30 bytes may be off the disk, four not. -/
example :
    let c : WalW.Cfg := ⟨0, true, .bytes 100, none, false⟩
    let s (n : Nat) := (WalW.run c sizeEx (WalW.W.new : WalW.W Nat) [.batch (List.replicate n ⟨[5], none, true⟩)]).1
    unsynced sizeEx (s 3) = 90 ∧ unsynced sizeEx (s 4) = 0 ∧ unsynced sizeEx (s 5) = 30 := by
  decide +kernel

end Tonbo.Props.C64
