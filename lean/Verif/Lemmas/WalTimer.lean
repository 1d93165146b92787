import Verif.Model.WalTimer
import Verif.Lemmas.WalW

/-!
# Lemmas on the deadlines of the log writer
-/

namespace Tonbo.Lemmas.WalT
open Tonbo.Model Tonbo.Model.WalT Tonbo.Lemmas.WalW

variable {F : Type}

/-! ## The work of the timed task is the work of the writer -/

theorem recompute_w (s : T F) : (recompute s).w = s.w := rfl

theorem direct_w (s : T F) (d : Directive) : (direct s d).w = s.w := by
  cases d with
  | keep => rfl
  | cancel => rfl
  | schedule i => unfold direct; cases s.syncAt <;> rfl

theorem fireRotate_w (c : TCfg) (s : T F) :
    (fireRotate c s).w = if passed s.now s.rotateAt then WalW.rotationRequest c.plain s.w else s.w := by
  unfold fireRotate WalW.rotationRequest turnOver
  cases passed s.now s.rotateAt with
  | false => rfl
  | true => simp only [if_true]; split_ifs <;> rfl

theorem fireRotate_sync (c : TCfg) (s : T F) : (fireRotate c s).syncAt = s.syncAt ∧ (fireRotate c s).now = s.now := by
  unfold fireRotate turnOver
  split_ifs <;> exact ⟨rfl, rfl⟩

theorem fire_w (c : TCfg) (s : T F) : (fire c s).w = WalW.tick c.plain s.w (passed s.now s.rotateAt) (passed s.now s.syncAt) := by
  unfold fire WalW.tick
  rw [recompute_w, ← fireRotate_w]
  unfold fireSync
  rw [(fireRotate_sync c s).1, (fireRotate_sync c s).2]
  cases hp : passed s.now s.syncAt with
  | false =>
    rw [if_neg (by simp)]
    simp [WalW.timedSync]
  | true =>
    cases hd : (fireRotate c s).w.dead with
    | false => simp
    | true => simp [WalW.timedSync, hd]

theorem handleAll_some (c : TCfg) (size : F → Nat) (s : T F) (d : Directive) (m : Msg F) (ms : List (Msg F)) {a : Nat × Nat}
    (h : (handle c size s m).2.1 = some a) :
    handleAll c size s d (m :: ms) =
      ((handleAll c size (handle c size s m).1 (handle c size s m).2.2 ms).1,
        ((handleAll c size (handle c size s m).1 (handle c size s m).2.2 ms).2.1).map (a :: ·),
        (handleAll c size (handle c size s m).1 (handle c size s m).2.2 ms).2.2) := by
  rcases hh : handle c size s m with ⟨s', o, d'⟩
  rw [hh] at h
  simp only at h
  subst h
  simp only [handleAll, hh]

/-- The commands of a batch as the writer sees them. -/
theorem handleAll_w (c : TCfg) (size : F → Nat) (ms : List (Msg F)) :
    ∀ (s : T F) (d : Directive), ∃ cs : List (WalW.Cmd F),
      cs.map (fun x => (x.frames, x.commit)) = ms.map (fun m => (m.frames, m.commit)) ∧
      (handleAll c size s d ms).1.w = (WalW.enqueueAll c.plain size s.w cs).1 ∧
      (handleAll c size s d ms).2.1 = (WalW.enqueueAll c.plain size s.w cs).2 := by
  induction ms with
  | nil => intro s d; exact ⟨[], rfl, rfl, rfl⟩
  | cons m ms ih =>
    intro s d
    cases he : WalW.enqueue c.plain size s.w ⟨m.frames, m.commit, flushDue c s⟩ with
    | mk w' a =>
      cases a with
      | none =>
        refine ⟨⟨m.frames, m.commit, flushDue c s⟩ :: ms.map (fun m => ⟨m.frames, m.commit, false⟩), ?_, ?_, ?_⟩
        · simp
        · simp [handleAll, handle, WalW.enqueueAll, he]
        · simp [handleAll, handle, WalW.enqueueAll, he]
      | some a =>
        obtain ⟨cs, h1, h2, h3⟩ := ih (handle c size s m).1 (handle c size s m).2.2
        have hw : (handle c size s m).1.w = w' := by simp [handle, he]
        rw [hw] at h2 h3
        refine ⟨⟨m.frames, m.commit, flushDue c s⟩ :: cs, by simp [h1], ?_, ?_⟩
        · rw [handleAll_some c size s d m ms (a := a) (by simp [handle, he])]
          simp only [WalW.enqueueAll, he, ← h2]
        · rw [handleAll_some c size s d m ms (a := a) (by simp [handle, he])]
          simp only [WalW.enqueueAll, he, ← h3]

theorem rotateNow_w (c : TCfg) (s : T F) : (rotateNow c s).w = WalW.rotationRequest c.plain s.w := by
  unfold rotateNow WalW.rotationRequest
  split_ifs
  · rfl
  · rw [direct_w]; rfl

theorem wrun_append (cfg : WalW.Cfg) (size : F → Nat) (a b : List (WalW.Op F)) (s : WalW.W F) :
    WalW.run cfg size s (a ++ b) =
      ((WalW.run cfg size (WalW.run cfg size s a).1 b).1,
        (WalW.run cfg size s a).2 ++ (WalW.run cfg size (WalW.run cfg size s a).1 b).2) := by
  induction a generalizing s with
  | nil => simp [WalW.run]
  | cons x a ih => simp [WalW.run, ih, List.append_assoc]

/-- What the timed task is asked to write. -/
def msgsOf : TOp F → List (List F × Option Nat)
  | .batch ms => ms.map (fun m => (m.frames, m.commit))
  | _ => []

/-- What the writer is asked to write. -/
def cmdsOf : WalW.Op F → List (List F × Option Nat)
  | .batch cs => cs.map (fun m => (m.frames, m.commit))
  | _ => []

theorem poll_run (c : TCfg) (size : F → Nat) (s : T F) (hd : s.w.dead = false) :
    ∃ a : List (WalW.Op F), WalW.run c.plain size s.w a = ((poll c s).w, []) ∧
      (∀ o ∈ a, ∃ r y, o = .tick r y) := by
  unfold poll
  split_ifs with h
  · refine ⟨[.tick (passed s.now s.rotateAt) (passed s.now s.syncAt)], ?_, fun o ho => ⟨_, _, List.mem_singleton.1 ho⟩⟩
    simp [WalW.run, WalW.step, hd, WalW.live, fire_w]
  · exact ⟨[], rfl, by simp⟩

/-- One step of the timed task is some steps of the writer. -/
theorem step_refines (c : TCfg) (size : F → Nat) (s : T F) (op : TOp F) :
    ∃ a : List (WalW.Op F), WalW.run c.plain size s.w a = ((WalT.step c size s op).1.w, (WalT.step c size s op).2) ∧
      a.flatMap cmdsOf = msgsOf op ∧ (∀ n, WalW.Op.prune n ∉ a) ∧ (WalW.Op.powerLoss ∈ a → op = .restart) := by
  have hdead : s.w.dead = true → ∀ ms : List (Msg F),
      WalW.run c.plain size s.w [.batch (ms.map (fun m => ⟨m.frames, m.commit, false⟩))] = (s.w, []) := by
    intro hd ms
    simp [WalW.run, WalW.step, hd]
  have hpoll : s.w.dead = false → ∀ x : WalW.Op F, (∀ n, x ≠ .prune n) → x ≠ .powerLoss →
      ∃ a : List (WalW.Op F), WalW.run c.plain size s.w a =
        WalW.run c.plain size (poll c s).w [x] ∧ a.flatMap cmdsOf = cmdsOf x ∧ (∀ n, WalW.Op.prune n ∉ a) ∧
          WalW.Op.powerLoss ∉ a := by
    intro hd x h1 h2
    obtain ⟨a, ha, ht⟩ := poll_run c size s hd
    refine ⟨a ++ [x], ?_, ?_, ?_, ?_⟩
    · rw [wrun_append, ha]; simp [WalW.run]
    · rw [List.flatMap_append]
      have : a.flatMap cmdsOf = [] := by
        rw [List.flatMap_eq_nil_iff]
        intro o ho
        obtain ⟨r, y, rfl⟩ := ht o ho
        rfl
      rw [this]; simp
    · intro n hn
      rcases List.mem_append.1 hn with hn | hn
      · obtain ⟨r, y, he⟩ := ht _ hn; cases he
      · exact h1 n (List.mem_singleton.1 hn).symm
    · intro hn
      rcases List.mem_append.1 hn with hn | hn
      · obtain ⟨r, y, he⟩ := ht _ hn; cases he
      · exact h2 (List.mem_singleton.1 hn).symm
  cases op with
  | pass d => exact ⟨[], rfl, rfl, by simp, by simp⟩
  | restart =>
    refine ⟨[.powerLoss], ?_, rfl, by simp, by simp⟩
    have : WalW.step c.plain size s.w .powerLoss = (WalW.reopen c.plain size s.w, []) := by
      unfold WalW.step
      cases s.w.dead <;> rfl
    simp [WalW.run, this, WalT.step, T.start, recompute_w]
  | wake =>
    unfold WalT.step
    simp only
    by_cases hd : s.w.dead = true
    · rw [if_pos hd]; exact ⟨[], rfl, rfl, by simp, by simp⟩
    · rw [if_neg hd]
      obtain ⟨a, ha, ht⟩ := poll_run c size s (by simpa using hd)
      refine ⟨a, ?_, ?_, ?_, ?_⟩
      · rw [ha]
        by_cases hp : (poll c s).w.dead = true
        · rw [if_pos hp]
        · rw [if_neg hp]; rfl
      · rw [List.flatMap_eq_nil_iff.2]
        · rfl
        · intro o ho
          obtain ⟨r, y, rfl⟩ := ht o ho
          rfl
      · intro n hn; obtain ⟨r, y, he⟩ := ht _ hn; cases he
      · intro hn; obtain ⟨r, y, he⟩ := ht _ hn; cases he
  | rotate =>
    unfold WalT.step
    simp only
    by_cases hd : s.w.dead = true
    · rw [if_pos hd]; exact ⟨[], rfl, rfl, by simp, by simp⟩
    · rw [if_neg hd]
      obtain ⟨a, ha, h1, h2, h3⟩ := hpoll (by simpa using hd) .rotate (by intro n h; cases h) (by intro h; cases h)
      refine ⟨a, ?_, h1, h2, fun h => absurd h h3⟩
      rw [ha]
      by_cases hp : (poll c s).w.dead = true
      · rw [if_pos hp]; simp [WalW.run, WalW.step, hp]
      · rw [if_neg hp]
        simp only [Bool.not_eq_true] at hp
        simp [WalW.run, WalW.step, hp, WalW.live, WalT.live, rotateNow_w]
  | batch ms =>
    unfold WalT.step
    simp only
    by_cases hd : s.w.dead = true
    · rw [if_pos hd]
      exact ⟨_, hdead hd ms, by simp [cmdsOf, msgsOf], by simp, by simp⟩
    · rw [if_neg hd]
      obtain ⟨cs, e1, e2, e3⟩ := handleAll_w c size ms (poll c s) .keep
      obtain ⟨a, ha, h1, h2, h3⟩ := hpoll (by simpa using hd) (.batch cs) (by intro n h; cases h) (by intro h; cases h)
      refine ⟨a, ?_, by rw [h1]; exact e1, h2, fun h => absurd h h3⟩
      rw [ha]
      by_cases hp : (poll c s).w.dead = true
      · rw [if_pos hp]; simp [WalW.run, WalW.step, hp]
      · rw [if_neg hp]
        simp only [Bool.not_eq_true] at hp
        simp [WalW.run, WalW.step, hp, WalW.live, WalT.live, WalT.batch, direct_w, e2, e3]

/-! ## What is on the disk -/

/-- The frames on the disk, without their numbers. -/
def disk (w : WalW.W F) : List F := (WalW.afterPowerLoss w).map Prod.snd

theorem disk_kept {w : WalW.W F} (h : w.pruned = 0) :
    disk w = (w.completed.flatMap (fun c => c.1.synced)).map Prod.snd ++ w.active.synced.map Prod.snd := by
  unfold disk WalW.afterPowerLoss
  rw [segments_kept h]
  simp [List.flatMap_append, List.flatMap_map]

theorem disk_syncNow {w : WalW.W F} (h : w.pruned = 0) : disk w <+: disk (WalW.syncNow w) := by
  rw [disk_kept h, disk_kept (w := WalW.syncNow w) h]
  simp only [WalW.syncNow, WalW.Seg.fsync, List.map_append, ← List.append_assoc]
  exact List.prefix_append _ _

theorem disk_flushIf {w : WalW.W F} (h : w.pruned = 0) (b : Bool) : disk (WalW.flushIf b w) = disk w := by
  unfold WalW.flushIf
  split_ifs
  · rw [disk_kept h, disk_kept (w := { w with active := w.active.flush }) h]
    rfl
  · rfl

theorem disk_rotate {cfg : WalW.Cfg} (hr : cfg.retention = none) {w : WalW.W F} (h : w.pruned = 0) :
    disk w <+: disk (WalW.rotate cfg w) := by
  unfold WalW.rotate
  rw [retain_none hr]
  have h1 : (WalW.finishSeg cfg w).pruned = 0 := by
    unfold WalW.finishSeg
    split_ifs <;> simpa [WalW.flushIf, WalW.syncNow] using h
  have h2 : disk w <+: disk (WalW.finishSeg cfg w) := by
    unfold WalW.finishSeg
    split_ifs
    · rw [disk_flushIf h]; exact List.prefix_refl _
    · have h3 : (WalW.flushIf true w).pruned = 0 := h
      have h4 := disk_syncNow h3
      rwa [disk_flushIf h] at h4
  have h3 : disk (WalW.openNext (WalW.finishSeg cfg w)) = disk (WalW.finishSeg cfg w) := by
    rw [disk_kept h1, disk_kept (w := WalW.openNext (WalW.finishSeg cfg w)) h1]
    simp [WalW.openNext, WalW.Seg.new]
  rwa [h3]

theorem disk_maybeSync {cfg : WalW.Cfg} {w : WalW.W F} (h : w.pruned = 0) : disk w <+: disk (WalW.maybeSync cfg w) := by
  unfold WalW.maybeSync
  split
  · exact disk_syncNow h
  · split_ifs
    · exact disk_syncNow h
    · exact List.prefix_refl _
  · exact List.prefix_refl _
  · exact List.prefix_refl _

theorem disk_recordCommit (o : Option Nat) (w : WalW.W F) : disk (WalW.recordCommit o w) = disk w := by
  unfold WalW.recordCommit
  split_ifs <;> rfl

theorem disk_writeOut {cfg : WalW.Cfg} (hr : cfg.retention = none) (size : F → Nat) {w : WalW.W F} (h : w.pruned = 0)
    (x : WalW.Cmd F) : disk w <+: disk (WalW.writeOut cfg size w x) := by
  have h1 : (WalW.writeFrames size w x.frames).pruned = 0 := h
  have h2 : (WalW.flushIf (cfg.flushZero || x.elapsed) (WalW.writeFrames size w x.frames)).pruned = 0 := by
    unfold WalW.flushIf
    split_ifs <;> exact h
  have h3 : disk (WalW.flushIf (cfg.flushZero || x.elapsed) (WalW.writeFrames size w x.frames)) = disk w := by
    rw [disk_flushIf h1, disk_kept h1, disk_kept h]
    rfl
  unfold WalW.writeOut WalW.maybeRotate
  split_ifs
  · rw [h3]; exact List.prefix_refl _
  · rw [← h3]; exact disk_rotate hr h2

theorem disk_timedSync {w : WalW.W F} (h : w.pruned = 0) (b : Bool) : disk w <+: disk (WalW.timedSync b w) := by
  unfold WalW.timedSync
  by_cases c : b = true ∧ 0 < w.since ∧ w.dead = false
  · rw [if_pos c]; exact disk_syncNow h
  · rw [if_neg c]; exact List.prefix_refl _

theorem disk_rotationRequest {cfg : WalW.Cfg} (hr : cfg.retention = none) {w : WalW.W F} (h : w.pruned = 0) :
    disk w <+: disk (WalW.rotationRequest cfg w) := by
  unfold WalW.rotationRequest
  split_ifs
  · exact List.prefix_refl _
  · exact disk_rotate hr h

theorem disk_all {w : WalW.W F} {L : List F} (h : Ok w L) (h1 : SealedOnDisk w) (h2 : OnDisk w.active) : disk w = L :=
  clean_afterPowerLoss h ⟨h1, h2⟩

/-! ## The invariant of the task -/

/-- A living task that has written `L`: everything is flushed, sealed segments are on the disk, and so is the
open one unless bytes are counted as not synced; then a deadline is set. The sleep is for the earlier
deadline. -/
structure Timed (i : Nat) (s : T F) (L : List F) : Prop where
  ok : Ok s.w L
  flushed : Flushed s.w
  done : SealedOnDisk s.w
  clean : s.w.since = 0 → s.w.active.flushed = []
  set : 0 < s.w.since → ∃ e, s.syncAt = some e
  soon : ∀ e, s.syncAt = some e → e ≤ s.now + i
  armed : s.timer = earliest s.syncAt s.rotateAt

theorem Timed.all {i : Nat} {s : T F} {L : List F} (h : Timed i s L) (h0 : s.w.since = 0) : disk s.w = L :=
  disk_all h.ok h.done ⟨h.clean h0, h.flushed.2⟩

/-- The parts of the invariant that do not mention the clocks. -/
structure Written (w : WalW.W F) (L : List F) : Prop where
  ok : Ok w L
  flushed : Flushed w
  done : SealedOnDisk w
  clean : w.since = 0 → w.active.flushed = []

theorem Written.all {w : WalW.W F} {L : List F} (h : Written w L) (h0 : w.since = 0) : disk w = L :=
  disk_all h.ok h.done ⟨h.clean h0, h.flushed.2⟩

theorem Timed.written {i : Nat} {s : T F} {L : List F} (h : Timed i s L) : Written s.w L :=
  ⟨h.ok, h.flushed, h.done, h.clean⟩

theorem since_rotate {cfg : WalW.Cfg} (hr : cfg.retention = none) (hd : cfg.sync ≠ .disabled) (w : WalW.W F) :
    (WalW.rotate cfg w).since = 0 ∧ (WalW.rotate cfg w).bytes = 0 := by
  unfold WalW.rotate WalW.finishSeg
  rw [retain_none hr, if_neg hd]
  exact ⟨rfl, rfl⟩

theorem written_rotate {cfg : WalW.Cfg} (hr : cfg.retention = none) (hd : cfg.sync ≠ .disabled) {w : WalW.W F} {L : List F}
    (h : Written w L) : Written (WalW.rotate cfg w) L := by
  refine ⟨ok_rotate hr h.ok, flushed_rotate hr h.flushed, sealed_rotate hr hd h.done, fun _ => ?_⟩
  unfold WalW.rotate
  rw [retain_none hr]
  rfl

theorem written_timedSync {w : WalW.W F} {L : List F} (h : Written w L) : Written (WalW.timedSync true w) L ∧
    (WalW.timedSync true w).since = 0 := by
  unfold WalW.timedSync
  by_cases c : (true : Bool) = true ∧ 0 < w.since ∧ w.dead = false
  · rw [if_pos c]
    exact ⟨⟨ok_syncNow h.ok, h.flushed, h.done, fun _ => rfl⟩, rfl⟩
  · rw [if_neg c]
    refine ⟨h, ?_⟩
    rcases Nat.eq_zero_or_pos w.since with h0 | h0
    · exact h0
    · exact absurd ⟨rfl, h0, h.ok.alive⟩ c

theorem plain_time {c : TCfg} {i : Nat} (hs : c.sync = .time i) : c.plain.sync = .time := by
  simp [TCfg.plain, hs, TSync.plain]

theorem full_eq (c : TCfg) (w : WalW.W F) : WalW.maybeRotate c.plain w = if full c w.bytes then WalW.rotate c.plain w else w := by
  unfold WalW.maybeRotate full
  by_cases h : c.maxBytes = 0 ∨ w.bytes < c.maxBytes ∨ w.bytes = 0
  · rw [if_pos (show c.plain.maxBytes = 0 ∨ w.bytes < c.plain.maxBytes ∨ w.bytes = 0 from h), if_neg (by rw [decide_eq_true_iff]; exact fun k => k h)]
  · rw [if_neg (show ¬ (c.plain.maxBytes = 0 ∨ w.bytes < c.plain.maxBytes ∨ w.bytes = 0) from h), if_pos (decide_eq_true h)]

/-- The state before the question whether to rotate. -/
def before (c : TCfg) (size : F → Nat) (w : WalW.W F) (x : WalW.Cmd F) : WalW.W F :=
  WalW.flushIf (c.plain.flushZero || x.elapsed) (WalW.writeFrames size w x.frames)

theorem before_eq (c : TCfg) (size : F → Nat) (w : WalW.W F) (x : WalW.Cmd F) :
    (before c size w x).bytes = w.bytes + WalW.total size x.frames ∧
    (before c size w x).since = w.since + WalW.total size x.frames ∧
    (before c size w x).completed = w.completed ∧
    (before c size w x).active.all = w.active.all ++ WalW.number w.next x.frames := by
  unfold before WalW.flushIf
  split_ifs <;> simp [WalW.writeFrames, WalW.Seg.flush, WalW.Seg.all]

theorem writeOut_eq (c : TCfg) (size : F → Nat) (w : WalW.W F) (x : WalW.Cmd F) :
    WalW.writeOut c.plain size w x =
      if full c (w.bytes + WalW.total size x.frames) then WalW.rotate c.plain (before c size w x) else before c size w x := by
  rw [← (before_eq c size w x).1]
  exact full_eq c (before c size w x)

theorem total_pos {size : F → Nat} (hz : ∀ f, 0 < size f) {fs : List F} (h : fs ≠ []) : 0 < WalW.total size fs := by
  cases fs with
  | nil => exact absurd rfl h
  | cons f fs =>
    have := hz f
    simp only [WalW.total, List.map_cons, List.sum_cons]
    omega

theorem plain_retention (c : TCfg) : c.plain.retention = c.retention := rfl

theorem handle_ack {c : TCfg} (hr : c.retention = none) (size : F → Nat) {s : T F} {L : List F} (h : Ok s.w L) (m : Msg F)
    (hm : m.frames ≠ []) : ∃ a, (handle c size s m).2.1 = some a := by
  refine ⟨(s.w.next, s.w.next + m.frames.length - 1), ?_⟩
  · unfold handle
    rw [enqueue_alive (by exact hr) size h ⟨m.frames, m.commit, flushDue c s⟩ hm]

theorem handle_w {c : TCfg} (hr : c.retention = none) (size : F → Nat) {s : T F} {L : List F} (h : Ok s.w L) (m : Msg F)
    (hm : m.frames ≠ []) : (handle c size s m).1.w =
      WalW.recordCommit m.commit (WalW.maybeSync c.plain (WalW.writeOut c.plain size s.w ⟨m.frames, m.commit, flushDue c s⟩)) := by
  unfold handle
  rw [enqueue_alive (by exact hr) size h ⟨m.frames, m.commit, flushDue c s⟩ hm]

/-! ## A batch and the deadline for the fsync -/

/-- A directive and the state it is meant for. -/
def Fits (i : Nat) (s : T F) (d : Directive) : Prop :=
  (d = .cancel ∧ s.w.since = 0) ∨ d = .schedule i ∨ (d = .keep ∧ (0 < s.w.since → ∃ e, s.syncAt = some e))

theorem handle_timed {c : TCfg} {i : Nat} (hr : c.retention = none) (hs : c.sync = .time i) (hf : c.flushEvery = 0)
    {size : F → Nat} (hz : ∀ f, 0 < size f) {s : T F} {L : List F} (h : Written s.w L) (m : Msg F) (hm : m.frames ≠ []) :
    Written (handle c size s m).1.w (L ++ m.frames) ∧ disk s.w <+: disk (handle c size s m).1.w ∧
    (handle c size s m).1.syncAt = s.syncAt ∧ (handle c size s m).1.now = s.now ∧
    Fits i (handle c size s m).1 (handle c size s m).2.2 := by
  have hd : c.plain.sync ≠ .disabled := by rw [plain_time hs]; exact fun h => by cases h
  have hw := handle_w hr size h.ok m hm
  have hp : ((c.plain.flushZero || (flushDue c s)) : Bool) = true := by simp [TCfg.plain, hf]
  have hms : ∀ w : WalW.W F, WalW.maybeSync c.plain w = w := by
    intro w
    unfold WalW.maybeSync
    rw [plain_time hs]
  have hrc : ∀ w : WalW.W F, (WalW.recordCommit m.commit w).since = w.since ∧ (WalW.recordCommit m.commit w).active = w.active := by
    intro w
    unfold WalW.recordCommit
    split_ifs <;> exact ⟨rfl, rfl⟩
  rw [hms] at hw
  generalize hx : (⟨m.frames, m.commit, flushDue c s⟩ : WalW.Cmd F) = x at hw
  have hxf : x.frames = m.frames := by rw [← hx]
  have hxe : x.elapsed = flushDue c s := by rw [← hx]
  rw [← hxe] at hp
  rw [← hxf] at hm
  rw [← hxf]
  have hwr := writeOut_eq c size s.w x
  have e := before_eq c size s.w x
  have hpos := total_pos hz hm
  refine ⟨?_, ?_, rfl, rfl, ?_⟩
  · rw [hw]
    refine ⟨ok_recordCommit (ok_writeOut (by exact hr) size h.ok x) _, flushed_recordCommit
      (flushed_writeOut (by exact hr) size h.flushed x hp), sealed_recordCommit (sealed_writeOut (by exact hr) hd size h.done x), ?_⟩
    rw [(hrc _).1, (hrc _).2, hwr]
    by_cases hfu : full c (s.w.bytes + WalW.total size x.frames) = true
    · rw [if_pos hfu]
      intro _
      unfold WalW.rotate
      rw [retain_none (by exact hr)]
      rfl
    · rw [if_neg hfu, e.2.1]
      intro h0
      have : 0 < WalW.total size x.frames := hpos
      omega
  · rw [hw, disk_recordCommit]
    exact disk_writeOut (by exact hr) size h.ok.kept x
  · unfold Fits
    rw [hw, (hrc _).1, hwr]
    have e3 : (handle c size s m).2.2 = if full c (s.w.bytes + WalW.total size m.frames) then .cancel
        else syncDirective c (s.w.since + WalW.total size m.frames) := rfl
    rw [e3, ← hxf]
    by_cases hfu : full c (s.w.bytes + WalW.total size x.frames) = true
    · rw [if_pos hfu, if_pos hfu]
      exact Or.inl ⟨rfl, (since_rotate (by exact hr) hd _).1⟩
    · rw [if_neg hfu]
      refine Or.inr (Or.inl ?_)
      unfold syncDirective
      rw [hs]
      simp only
      rw [if_pos (by omega)]

theorem handleAll_timed {c : TCfg} {i : Nat} (hr : c.retention = none) (hs : c.sync = .time i) (hf : c.flushEvery = 0)
    {size : F → Nat} (hz : ∀ f, 0 < size f) (ms : List (Msg F)) (hm : ∀ m ∈ ms, m.frames ≠ []) :
    ∀ {s : T F} {L : List F} {d : Directive}, Written s.w L → Fits i s d →
    Written (handleAll c size s d ms).1.w (L ++ ms.flatMap (·.frames)) ∧ disk s.w <+: disk (handleAll c size s d ms).1.w ∧
    (handleAll c size s d ms).1.syncAt = s.syncAt ∧ (handleAll c size s d ms).1.now = s.now ∧
    Fits i (handleAll c size s d ms).1 (handleAll c size s d ms).2.2 := by
  induction ms with
  | nil =>
    intro s L d h hd
    exact ⟨by simpa [handleAll] using h, List.prefix_refl _, rfl, rfl, hd⟩
  | cons m ms ih =>
    intro s L d h hd
    obtain ⟨a, ha⟩ := handle_ack hr size h.ok m (hm m List.mem_cons_self)
    rw [handleAll_some c size s d m ms ha]
    obtain ⟨h1, h2, h3, h4, h5⟩ := handle_timed hr hs hf hz h m (hm m List.mem_cons_self)
    obtain ⟨k1, k2, k3, k4, k5⟩ := ih (fun x hx => hm x (List.mem_cons_of_mem _ hx)) h1 h5
    refine ⟨by simpa [List.append_assoc] using k1, h2.trans k2, k3.trans h3, k4.trans h4, k5⟩

/-- A deadline for the frames `A` written by time `t`, or they are on the disk. -/
def Promised (i t : Nat) (A : List F) (s : T F) : Prop := A <+: disk s.w ∨ ∃ e, s.syncAt = some e ∧ e ≤ t + i

theorem direct_timed {i : Nat} {s : T F} {L : List F} (h : Written s.w L) (hsoon : ∀ e, s.syncAt = some e → e ≤ s.now + i)
    {d : Directive} (hd : Fits i s d) : Timed i (direct s d) L ∧
      (∀ t A, Promised i t A s → A <+: L → Promised i t A (direct s d)) ∧ (direct s d).now = s.now := by
  rcases hd with ⟨rfl, h0⟩ | rfl | ⟨rfl, h0⟩
  · refine ⟨⟨h.ok, h.flushed, h.done, h.clean, ?_, ?_, rfl⟩, ?_, rfl⟩
    · intro h1; exact absurd h1 (by show ¬ 0 < s.w.since; omega)
    · intro e he; cases he
    · intro t A _ hA
      exact Or.inl (by rw [show disk (direct s .cancel).w = L from h.all h0]; exact hA)
  · cases hsy : s.syncAt with
    | none =>
      have e : direct s (.schedule i) = recompute { s with syncAt := some (s.now + i) } := by simp [direct, hsy]
      rw [e]
      refine ⟨⟨h.ok, h.flushed, h.done, h.clean, fun _ => ⟨_, rfl⟩, ?_, rfl⟩, ?_, rfl⟩
      · intro e he
        cases he
        exact Nat.le_refl _
      · intro t A hp _
        rcases hp with hp | ⟨e, he, _⟩
        · exact Or.inl hp
        · rw [hsy] at he; cases he
    | some x =>
      have e : direct s (.schedule i) = recompute { s with syncAt := some (min x (s.now + i)) } := by simp [direct, hsy]
      rw [e]
      refine ⟨⟨h.ok, h.flushed, h.done, h.clean, fun _ => ⟨_, rfl⟩, ?_, rfl⟩, ?_, rfl⟩
      · intro e he
        cases he
        exact Nat.min_le_right _ _
      · intro t A hp _
        rcases hp with hp | ⟨e, he, hle⟩
        · exact Or.inl hp
        · rw [hsy] at he
          cases he
          exact Or.inr ⟨_, rfl, Nat.le_trans (Nat.min_le_left _ _) hle⟩
  · refine ⟨⟨h.ok, h.flushed, h.done, h.clean, h0, hsoon, rfl⟩, fun t A hp _ => hp, rfl⟩

theorem fire_timed {c : TCfg} {i : Nat} (hr : c.retention = none) (hs : c.sync = .time i) {s : T F} {L : List F}
    (h : Timed i s L) : Timed i (fire c s) L ∧ (∀ t A, Promised i t A s → A <+: L → Promised i t A (fire c s)) ∧
      (fire c s).now = s.now ∧ (passed s.now s.syncAt = true → disk (fire c s).w = L) := by
  have hd : c.plain.sync ≠ .disabled := by rw [plain_time hs]; exact fun h => by cases h
  -- the rotation
  have hw : Written (fireRotate c s).w L ∧ disk s.w <+: disk (fireRotate c s).w ∧
      (0 < (fireRotate c s).w.since → 0 < s.w.since) := by
    rw [fireRotate_w]
    cases passed s.now s.rotateAt with
    | false => exact ⟨h.written, List.prefix_refl _, id⟩
    | true =>
      simp only [if_true]
      unfold WalW.rotationRequest
      split_ifs
      · exact ⟨h.written, List.prefix_refl _, id⟩
      · refine ⟨written_rotate (by exact hr) hd h.written, disk_rotate (by exact hr) h.ok.kept, ?_⟩
        rw [(since_rotate (by exact hr) hd _).1]
        exact fun h => absurd h (Nat.lt_irrefl 0)
  obtain ⟨h1, h2, h3⟩ := hw
  have es := fireRotate_sync c s
  unfold fire fireSync
  rw [es.1, es.2]
  cases hp : passed s.now s.syncAt with
  | true =>
    rw [if_pos ⟨rfl, h1.ok.alive⟩]
    obtain ⟨k1, k2⟩ := written_timedSync h1
    refine ⟨⟨k1.ok, k1.flushed, k1.done, k1.clean, ?_, ?_, rfl⟩, ?_, rfl, ?_⟩
    · intro h0
      have h0' : 0 < (WalW.timedSync true (fireRotate c s).w).since := h0
      rw [k2] at h0'
      exact absurd h0' (Nat.lt_irrefl 0)
    · intro e he; cases he
    · intro t A _ hA
      refine Or.inl ?_
      show A <+: disk (WalW.timedSync true (fireRotate c s).w)
      rw [k1.all k2]; exact hA
    · intro _; exact k1.all k2
  | false =>
    rw [if_neg (by simp)]
    refine ⟨⟨h1.ok, h1.flushed, h1.done, h1.clean, ?_, ?_, rfl⟩, ?_, es.2, ?_⟩
    · intro h0
      obtain ⟨e, he⟩ := h.set (h3 h0)
      exact ⟨e, es.1.trans he⟩
    · intro e he
      have := h.soon e (es.1.symm.trans he)
      rw [show (recompute (fireRotate c s)).now = s.now from es.2]
      exact this
    · intro t A hpr _
      rcases hpr with hpr | ⟨e, he, hle⟩
      · exact Or.inl (hpr.trans h2)
      · exact Or.inr ⟨e, es.1.trans he, hle⟩
    · intro h; cases h

theorem passed_earliest {now e : Nat} {a b : Option Nat} (h : a = some e ∨ b = some e) (he : e ≤ now) :
    passed now (earliest a b) = true := by
  rcases h with rfl | rfl
  · cases b with
    | none => simpa [earliest, passed] using he
    | some y => simp only [earliest, passed, decide_eq_true_eq]; omega
  · cases a with
    | none => simpa [earliest, passed] using he
    | some y => simp only [earliest, passed, decide_eq_true_eq]; omega

theorem poll_timed {c : TCfg} {i : Nat} (hr : c.retention = none) (hs : c.sync = .time i) {s : T F} {L : List F}
    (h : Timed i s L) : Timed i (poll c s) L ∧ (∀ t A, Promised i t A s → A <+: L → Promised i t A (poll c s)) ∧
      (poll c s).now = s.now ∧ (∀ e, s.syncAt = some e → e ≤ s.now → disk (poll c s).w = L) := by
  obtain ⟨h1, h2, h3, h4⟩ := fire_timed hr hs h
  unfold poll
  by_cases hp : passed s.now s.timer = true
  · rw [if_pos hp]
    refine ⟨h1, h2, h3, fun e he hle => h4 ?_⟩
    rw [he]
    simpa [passed] using hle
  · rw [if_neg hp]
    refine ⟨h, fun t A hp _ => hp, rfl, fun e he hle => ?_⟩
    rw [h.armed] at hp
    exact absurd (passed_earliest (Or.inl he) hle) hp

/-- The frames an operation hands to the task. -/
def framesOf : TOp F → List F
  | .batch ms => ms.flatMap (·.frames)
  | _ => []

theorem step_timed {c : TCfg} {i : Nat} (hr : c.retention = none) (hs : c.sync = .time i) (hf : c.flushEvery = 0)
    {size : F → Nat} (hz : ∀ f, 0 < size f) {s : T F} {L : List F} (h : Timed i s L) (op : TOp F)
    (he : ∀ ms, op = .batch ms → ∀ m ∈ ms, m.frames ≠ []) (hn : op ≠ .restart) :
    Timed i (WalT.step c size s op).1 (L ++ framesOf op) ∧
      (∀ t A, Promised i t A s → A <+: L → Promised i t A (WalT.step c size s op).1) ∧ s.now ≤ (WalT.step c size s op).1.now := by
  have hd : c.plain.sync ≠ .disabled := by rw [plain_time hs]; exact fun h => by cases h
  obtain ⟨p1, p2, p3, _⟩ := poll_timed hr hs h
  have ha := h.ok.alive
  have hpa := p1.ok.alive
  cases op with
  | pass d =>
    refine ⟨⟨by simpa [framesOf, WalT.step] using h.ok, h.flushed, h.done, h.clean, h.set, ?_, h.armed⟩, fun t A hp _ => hp,
      Nat.le_add_right _ _⟩
    intro e hx
    have := h.soon e hx
    simp only [WalT.step]
    omega
  | restart => exact absurd rfl hn
  | wake =>
    have e : WalT.step c size s .wake = (poll c s, []) := by simp [WalT.step, ha, hpa, WalT.live]
    rw [e]
    exact ⟨by simpa [framesOf] using p1, p2, Nat.le_of_eq p3.symm⟩
  | rotate =>
    have e : WalT.step c size s .rotate = (rotateNow c (poll c s), []) := by simp [WalT.step, ha, hpa, WalT.live]
    rw [e]
    unfold rotateNow
    by_cases hb : (poll c s).w.bytes = 0
    · rw [if_pos hb]
      refine ⟨⟨by simpa [framesOf, recompute] using p1.ok, p1.flushed, p1.done, p1.clean, p1.set, p1.soon, rfl⟩, p2, Nat.le_of_eq p3.symm⟩
    · rw [if_neg hb]
      have hw : Written (turnOver c (poll c s)).w L := written_rotate (by exact hr) hd p1.written
      obtain ⟨k1, k2, k3⟩ := direct_timed (i := i) (s := turnOver c (poll c s)) hw p1.soon
        (d := .cancel) (Or.inl ⟨rfl, (since_rotate (by exact hr) hd _).1⟩)
      refine ⟨by simpa [framesOf] using k1, ?_, ?_⟩
      · intro t A hp hA
        refine k2 t A ?_ hA
        rcases p2 t A hp hA with hq | hq
        · exact Or.inl (hq.trans (disk_rotate (by exact hr) p1.ok.kept))
        · exact Or.inr hq
      · rw [k3]; exact Nat.le_of_eq p3.symm
  | batch ms =>
    have e : WalT.step c size s (.batch ms) = WalT.batch c size (poll c s) ms := by simp [WalT.step, ha, hpa, WalT.live]
    rw [e]
    unfold WalT.batch
    obtain ⟨q1, q2, q3, q4, q5⟩ := handleAll_timed hr hs hf hz ms (he ms rfl) (s := poll c s) (d := .keep) p1.written
      (Or.inr (Or.inr ⟨rfl, p1.set⟩))
    have hsoon : ∀ e, (handleAll c size (poll c s) .keep ms).1.syncAt = some e →
        e ≤ (handleAll c size (poll c s) .keep ms).1.now + i := by
      intro e hx
      rw [q3] at hx
      rw [q4]
      exact p1.soon e hx
    obtain ⟨k1, k2, k3⟩ := direct_timed q1 hsoon q5
    refine ⟨k1, ?_, ?_⟩
    · intro t A hp hA
      refine k2 t A ?_ (hA.trans (List.prefix_append _ _))
      rcases p2 t A hp hA with hq | ⟨e, hx, hle⟩
      · exact Or.inl (hq.trans q2)
      · exact Or.inr ⟨e, q3.trans hx, hle⟩
    · show s.now ≤ (direct _ _).now
      rw [k3, q4]; exact Nat.le_of_eq p3.symm

theorem reopen_ok {cfg : WalW.Cfg} (hr : cfg.retention = none) (size : F → Nat) {w : WalW.W F} (h : w.pruned = 0) :
    Ok (WalW.reopen cfg size w) (disk w) ∧ Clean (WalW.reopen cfg size w) ∧ (WalW.reopen cfg size w).since = 0 ∧
      (WalW.reopen cfg size w).bytes = WalW.total size (w.active.synced.map Prod.snd) ∧
      (WalW.reopen cfg size w).active = w.active.lose := by
  unfold WalW.reopen
  rw [retain_none hr, h]
  refine ⟨⟨rfl, rfl, ?_⟩, ⟨?_, rfl, rfl⟩, rfl, rfl, rfl⟩
  · rw [disk_kept h]
    have e3 : (w.completed.map Prod.fst).filter (fun g : WalW.Seg F => decide (0 ≤ g.seq)) = w.completed.map Prod.fst :=
      List.filter_eq_self.2 (by simp)
    simp only [e3, List.flatMap_map, WalW.Seg.lose, WalW.Seg.all, List.append_nil, List.map_append]
  · intro c hm
    simp only [List.mem_map] at hm
    obtain ⟨g, _, rfl⟩ := hm
    exact ⟨rfl, rfl⟩

theorem restart_timed {c : TCfg} {i : Nat} (hr : c.retention = none) {size : F → Nat} {s : T F} (h : s.w.pruned = 0) :
    Timed i (WalT.step c size s .restart).1 (disk s.w) := by
  obtain ⟨h1, h2, h3, _, _⟩ := reopen_ok (cfg := c.plain) (by exact hr) size h
  refine ⟨h1, ⟨fun d hd => (h2.1 d hd).2, h2.2.2⟩, h2.1, fun _ => h2.2.1, ?_, ?_, rfl⟩
  · intro h0
    rw [show (WalT.step c size s .restart).1.w.since = 0 from h3] at h0
    exact absurd h0 (Nat.lt_irrefl 0)
  · intro e he
    cases he

theorem new_timed (c : TCfg) (i t0 : Nat) : Timed i (T.start c (WalW.W.new : WalW.W F) t0) [] := by
  refine ⟨⟨rfl, rfl, rfl⟩, ⟨?_, rfl⟩, ?_, fun _ => rfl, ?_, ?_, rfl⟩
  · intro d hd; cases hd
  · intro d hd; cases hd
  · intro h; exact absurd h (Nat.lt_irrefl 0)
  · intro e he; cases he

/-! ## The age of a segment -/

/-- The frames of sealed segments. -/
def sealedFrames (w : WalW.W F) : List F := (w.completed.flatMap (fun c => c.1.all)).map Prod.snd

theorem ok_split {w : WalW.W F} {L : List F} (h : Ok w L) : L = sealedFrames w ++ w.active.all.map Prod.snd := by
  rw [← h.content]
  simp [sealedFrames]

/-- A living task that has written `L`, whose open segment has a deadline once it holds a byte. -/
structure Aged (a : Nat) (s : T F) (L : List F) : Prop where
  ok : Ok s.w L
  empty : s.w.bytes = 0 → s.w.active.all = []
  set : 0 < s.w.bytes → ∃ e, s.rotateAt = some e
  soon : ∀ e, s.rotateAt = some e → e ≤ s.now + a

theorem Aged.all {a : Nat} {s : T F} {L : List F} (h : Aged a s L) (h0 : s.w.bytes = 0) : sealedFrames s.w = L := by
  rw [ok_split h.ok, h.empty h0]
  simp

/-- A deadline for the segments with the frames `A` written by time `t`, or these are sealed. -/
def Due (a t : Nat) (A : List F) (s : T F) : Prop := A <+: sealedFrames s.w ∨ ∃ e, s.rotateAt = some e ∧ e ≤ t + a

theorem rotate_eq {cfg : WalW.Cfg} (hr : cfg.retention = none) {w : WalW.W F} {L : List F} (h : Ok w L) :
    (WalW.rotate cfg w).bytes = 0 ∧ (WalW.rotate cfg w).active.all = [] ∧ sealedFrames (WalW.rotate cfg w) = L := by
  have h1 := ok_rotate hr h
  have h2 : (WalW.rotate cfg w).bytes = 0 ∧ (WalW.rotate cfg w).active.all = [] := by
    unfold WalW.rotate
    rw [retain_none hr]
    exact ⟨rfl, rfl⟩
  refine ⟨h2.1, h2.2, ?_⟩
  have := ok_split h1
  rw [h2.2] at this
  simpa using this.symm

theorem maybeSync_eq (cfg : WalW.Cfg) (w : WalW.W F) : (WalW.maybeSync cfg w).bytes = w.bytes ∧
    (WalW.maybeSync cfg w).completed = w.completed ∧ (WalW.maybeSync cfg w).active.all = w.active.all := by
  have h : (WalW.syncNow w).bytes = w.bytes ∧ (WalW.syncNow w).completed = w.completed ∧
      (WalW.syncNow w).active.all = w.active.all := ⟨rfl, rfl, seg_fsync_all _⟩
  unfold WalW.maybeSync
  split
  · exact h
  · split_ifs
    · exact h
    · exact ⟨rfl, rfl, rfl⟩
  · exact ⟨rfl, rfl, rfl⟩
  · exact ⟨rfl, rfl, rfl⟩

theorem recordCommit_eq (o : Option Nat) (w : WalW.W F) : (WalW.recordCommit o w).bytes = w.bytes ∧
    (WalW.recordCommit o w).completed = w.completed ∧ (WalW.recordCommit o w).active = w.active := by
  unfold WalW.recordCommit
  split_ifs <;> exact ⟨rfl, rfl, rfl⟩

theorem handle_aged {c : TCfg} {a : Nat} (hr : c.retention = none) (hs : c.maxAge = some a)
    {size : F → Nat} (hz : ∀ f, 0 < size f) {s : T F} {L : List F} (h : Aged a s L) (m : Msg F) (hm : m.frames ≠ []) :
    Aged a (handle c size s m).1 (L ++ m.frames) ∧
    (∀ t A, t ≤ s.now → Due a t A s → A <+: L → Due a t A (handle c size s m).1) ∧ (handle c size s m).1.now = s.now := by
  have hw := handle_w hr size h.ok m hm
  generalize hx : (⟨m.frames, m.commit, flushDue c s⟩ : WalW.Cmd F) = x at hw
  have hxf : x.frames = m.frames := by rw [← hx]
  have hwr := writeOut_eq c size s.w x
  have e := before_eq c size s.w x
  have hpos := total_pos hz hm
  have hok := ok_recordCommit (ok_maybeSync (cfg := c.plain) (ok_writeOut (cfg := c.plain) (by exact hr) size h.ok x)) m.commit
  have hbo : Ok (before c size s.w x) (L ++ x.frames) := ok_flushIf (ok_writeFrames size h.ok _) _
  rw [← hw, hxf] at hok
  have eb : (handle c size s m).1.w.bytes = (WalW.writeOut c.plain size s.w x).bytes := by
    rw [hw, (recordCommit_eq _ _).1, (maybeSync_eq _ _).1]
  have ec : (handle c size s m).1.w.completed = (WalW.writeOut c.plain size s.w x).completed := by
    rw [hw, (recordCommit_eq _ _).2.1, (maybeSync_eq _ _).2.1]
  have ea : (handle c size s m).1.w.active.all = (WalW.writeOut c.plain size s.w x).active.all := by
    rw [hw, (recordCommit_eq _ _).2.2, (maybeSync_eq _ _).2.2]
  have er : (handle c size s m).1.rotateAt = ageAfter c s (s.w.bytes + WalW.total size m.frames) := rfl
  rw [hxf] at hwr
  by_cases hfu : full c (s.w.bytes + WalW.total size m.frames) = true
  · rw [if_pos hfu] at hwr
    obtain ⟨r1, r2, r3⟩ := rotate_eq (cfg := c.plain) (by exact hr) hbo
    have ern : (handle c size s m).1.rotateAt = none := by rw [er]; unfold ageAfter; rw [if_pos hfu]
    refine ⟨⟨hok, fun _ => ?_, fun h0 => ?_, fun y hy => ?_⟩, fun t A _ _ hA => Or.inl ?_, rfl⟩
    · rw [ea, hwr, r2]
    · rw [eb, hwr, r1] at h0; exact absurd h0 (Nat.lt_irrefl 0)
    · rw [ern] at hy; cases hy
    · unfold sealedFrames
      rw [ec, hwr]
      rw [show ((WalW.rotate c.plain (before c size s.w x)).completed.flatMap (fun c => c.1.all)).map Prod.snd = L ++ x.frames from r3]
      exact hA.trans (List.prefix_append _ _)
  · rw [if_neg hfu] at hwr
    have hbpos : (handle c size s m).1.w.bytes ≠ 0 := by
      rw [eb, hwr, e.1, hxf]; omega
    have hs1 : sealedFrames (handle c size s m).1.w = sealedFrames s.w := by
      unfold sealedFrames
      rw [ec, hwr, e.2.2.1]
    by_cases h0 : s.w.bytes = 0
    · have ern : (handle c size s m).1.rotateAt = some (s.now + a) := by
        rw [er]; unfold ageAfter
        rw [if_neg hfu, if_pos ⟨h0, by omega⟩, hs]
      refine ⟨⟨hok, fun hb => absurd hb hbpos, fun _ => ⟨_, ern⟩, fun y hy => ?_⟩, fun t A ht _ hA => Or.inl ?_, rfl⟩
      · rw [ern] at hy; cases hy; exact Nat.le_refl _
      · rw [hs1, h.all h0]; exact hA
    · have ern : (handle c size s m).1.rotateAt = s.rotateAt := by
        rw [er]; unfold ageAfter
        rw [if_neg hfu, if_neg (fun k => h0 k.1)]
      refine ⟨⟨hok, fun hb => absurd hb hbpos, fun _ => ?_, fun y hy => ?_⟩, fun t A _ hd _ => ?_, rfl⟩
      · rw [ern]; exact h.set (Nat.pos_of_ne_zero h0)
      · rw [ern] at hy; exact h.soon y hy
      · rcases hd with hd | ⟨y, hy, hle⟩
        · exact Or.inl (by rw [hs1]; exact hd)
        · exact Or.inr ⟨y, ern.trans hy, hle⟩

theorem handleAll_aged {c : TCfg} {a : Nat} (hr : c.retention = none) (hs : c.maxAge = some a)
    {size : F → Nat} (hz : ∀ f, 0 < size f) (ms : List (Msg F)) (hm : ∀ m ∈ ms, m.frames ≠ []) :
    ∀ {s : T F} {L : List F} {d : Directive}, Aged a s L →
    Aged a (handleAll c size s d ms).1 (L ++ ms.flatMap (·.frames)) ∧
    (∀ t A, t ≤ s.now → Due a t A s → A <+: L → Due a t A (handleAll c size s d ms).1) ∧
    (handleAll c size s d ms).1.now = s.now := by
  induction ms with
  | nil =>
    intro s L d h
    exact ⟨by simpa [handleAll] using h, fun t A _ hd _ => hd, rfl⟩
  | cons m ms ih =>
    intro s L d h
    obtain ⟨k, hk⟩ := handle_ack hr size h.ok m (hm m List.mem_cons_self)
    rw [handleAll_some c size s d m ms hk]
    obtain ⟨h1, h2, h3⟩ := handle_aged hr hs hz h m (hm m List.mem_cons_self)
    obtain ⟨k1, k2, k3⟩ := ih (fun x hx => hm x (List.mem_cons_of_mem _ hx)) (d := (handle c size s m).2.2) h1
    refine ⟨by simpa [List.append_assoc] using k1, fun t A ht hd hA => ?_, k3.trans h3⟩
    exact k2 t A (by rw [h3]; exact ht) (h2 t A ht hd hA) (hA.trans (List.prefix_append _ _))

theorem direct_aged (s : T F) (d : Directive) : (direct s d).rotateAt = s.rotateAt ∧ (direct s d).now = s.now ∧
    (direct s d).timer = earliest (direct s d).syncAt (direct s d).rotateAt := by
  cases d with
  | keep => exact ⟨rfl, rfl, rfl⟩
  | cancel => exact ⟨rfl, rfl, rfl⟩
  | schedule i => unfold direct; cases s.syncAt <;> exact ⟨rfl, rfl, rfl⟩

theorem Aged.move {a : Nat} {s s' : T F} {L : List F} (h : Aged a s L) (hw : s'.w = s.w) (hr : s'.rotateAt = s.rotateAt)
    (hn : s'.now = s.now) : Aged a s' L :=
  ⟨by rw [hw]; exact h.ok, by rw [hw]; exact h.empty, by rw [hw, hr]; exact h.set, by rw [hr, hn]; exact h.soon⟩

theorem Due.move {a t : Nat} {A : List F} {s s' : T F} (h : Due a t A s) (hw : s'.w = s.w) (hr : s'.rotateAt = s.rotateAt) :
    Due a t A s' := by
  unfold Due
  rw [hw, hr]
  exact h

theorem timedSync_eq (b : Bool) (w : WalW.W F) : (WalW.timedSync b w).bytes = w.bytes ∧
    (WalW.timedSync b w).completed = w.completed ∧ (WalW.timedSync b w).active.all = w.active.all := by
  unfold WalW.timedSync
  by_cases c : b = true ∧ 0 < w.since ∧ w.dead = false
  · rw [if_pos c]; exact ⟨rfl, rfl, seg_fsync_all _⟩
  · rw [if_neg c]; exact ⟨rfl, rfl, rfl⟩

theorem turnOver_aged {c : TCfg} {a : Nat} (hr : c.retention = none) {s : T F} {L : List F} (h : Aged a s L) :
    Aged a (turnOver c s) L ∧ sealedFrames (turnOver c s).w = L := by
  obtain ⟨r1, r2, r3⟩ := rotate_eq (cfg := c.plain) (by exact hr) h.ok
  refine ⟨⟨ok_rotate (by exact hr) h.ok, fun _ => r2, fun h0 => ?_, fun y hy => by cases hy⟩, r3⟩
  rw [show (turnOver c s).w.bytes = 0 from r1] at h0
  exact absurd h0 (Nat.lt_irrefl 0)

theorem fire_aged {c : TCfg} {a : Nat} (hr : c.retention = none) {s : T F} {L : List F}
    (h : Aged a s L) : Aged a (fire c s) L ∧ (∀ t A, Due a t A s → A <+: L → Due a t A (fire c s)) ∧
      (fire c s).now = s.now ∧ (passed s.now s.rotateAt = true → sealedFrames (fire c s).w = L) ∧
      (fire c s).timer = earliest (fire c s).syncAt (fire c s).rotateAt := by
  have h1 : Aged a (fireRotate c s) L ∧ (∀ t A, Due a t A s → A <+: L → Due a t A (fireRotate c s)) ∧
      (fireRotate c s).now = s.now ∧ (passed s.now s.rotateAt = true → sealedFrames (fireRotate c s).w = L) := by
    unfold fireRotate
    cases hp : passed s.now s.rotateAt with
    | false => exact ⟨h, fun t A hd _ => hd, rfl, fun h => by cases h⟩
    | true =>
      simp only [if_true]
      by_cases hb : s.w.bytes = 0
      · rw [if_pos hb]
        refine ⟨⟨h.ok, h.empty, fun h0 => absurd h0 (by show ¬ 0 < s.w.bytes; omega), fun y hy => by cases hy⟩, ?_, rfl, ?_⟩
        · intro t A _ hA
          exact Or.inl (by show A <+: sealedFrames s.w; rw [h.all hb]; exact hA)
        · intro _; exact h.all hb
      · rw [if_neg hb]
        obtain ⟨k1, k2⟩ := turnOver_aged (c := c) hr h
        exact ⟨k1, fun t A _ hA => Or.inl (by rw [k2]; exact hA), rfl, fun _ => k2⟩
  obtain ⟨k1, k2, k3, k4⟩ := h1
  have h5 : (fireSync (fireRotate c s)).rotateAt = (fireRotate c s).rotateAt ∧ (fireSync (fireRotate c s)).now = (fireRotate c s).now ∧
      (fireSync (fireRotate c s)).w.bytes = (fireRotate c s).w.bytes ∧
      (fireSync (fireRotate c s)).w.completed = (fireRotate c s).w.completed ∧
      (fireSync (fireRotate c s)).w.active.all = (fireRotate c s).w.active.all ∧
      Ok (fireSync (fireRotate c s)).w L := by
    unfold fireSync
    by_cases hp : passed (fireRotate c s).now (fireRotate c s).syncAt = true ∧ (fireRotate c s).w.dead = false
    · rw [if_pos hp]
      obtain ⟨e1, e2, e3⟩ := timedSync_eq true (fireRotate c s).w
      exact ⟨rfl, rfl, e1, e2, e3, ok_timedSync k1.ok⟩
    · rw [if_neg hp]
      exact ⟨rfl, rfl, rfl, rfl, rfl, k1.ok⟩
  obtain ⟨e1, e2, e3, e4, e5, e6⟩ := h5
  have es : sealedFrames (fire c s).w = sealedFrames (fireRotate c s).w := by
    show sealedFrames (fireSync (fireRotate c s)).w = _
    unfold sealedFrames
    rw [e4]
  refine ⟨⟨e6, ?_, ?_, ?_⟩, ?_, e2.trans k3, ?_, rfl⟩
  · intro h0
    show (fireSync (fireRotate c s)).w.active.all = []
    rw [e5]
    exact k1.empty (e3.symm.trans h0)
  · intro h0
    have h0' : 0 < (fireSync (fireRotate c s)).w.bytes := h0
    rw [e3] at h0'
    obtain ⟨y, hy⟩ := k1.set h0'
    exact ⟨y, e1.trans hy⟩
  · intro y hy
    have := k1.soon y (e1.symm.trans hy)
    show y ≤ (fireSync (fireRotate c s)).now + a
    rw [e2]; exact this
  · intro t A hd hA
    rcases k2 t A hd hA with hq | ⟨y, hy, hle⟩
    · exact Or.inl (by rw [es]; exact hq)
    · exact Or.inr ⟨y, e1.trans hy, hle⟩
  · intro hp; rw [es]; exact k4 hp

/-- The sleep is for the earlier deadline. -/
def Armed (s : T F) : Prop := s.timer = earliest s.syncAt s.rotateAt

theorem poll_aged {c : TCfg} {a : Nat} (hr : c.retention = none) {s : T F} {L : List F}
    (h : Aged a s L) (hm : Armed s) : Aged a (poll c s) L ∧ Armed (poll c s) ∧
      (∀ t A, Due a t A s → A <+: L → Due a t A (poll c s)) ∧
      (poll c s).now = s.now ∧ (∀ e, s.rotateAt = some e → e ≤ s.now → sealedFrames (poll c s).w = L) := by
  obtain ⟨h1, h2, h3, h4, h5⟩ := fire_aged (c := c) hr h
  unfold poll
  by_cases hp : passed s.now s.timer = true
  · rw [if_pos hp]
    refine ⟨h1, h5, h2, h3, fun e he hle => h4 ?_⟩
    rw [he]
    simpa [passed] using hle
  · rw [if_neg hp]
    refine ⟨h, hm, fun t A hp _ => hp, rfl, fun e he hle => ?_⟩
    rw [hm] at hp
    exact absurd (passed_earliest (Or.inr he) hle) hp

theorem step_aged {c : TCfg} {a : Nat} (hr : c.retention = none) (hs : c.maxAge = some a)
    {size : F → Nat} (hz : ∀ f, 0 < size f) {s : T F} {L : List F} (h : Aged a s L) (hm : Armed s) (op : TOp F)
    (he : ∀ ms, op = .batch ms → ∀ m ∈ ms, m.frames ≠ []) (hn : op ≠ .restart) :
    Aged a (WalT.step c size s op).1 (L ++ framesOf op) ∧ Armed (WalT.step c size s op).1 ∧
      (∀ t A, t ≤ s.now → Due a t A s → A <+: L → Due a t A (WalT.step c size s op).1) ∧
      s.now ≤ (WalT.step c size s op).1.now := by
  obtain ⟨p1, p5, p2, p3, _⟩ := poll_aged (c := c) hr h hm
  have ha := h.ok.alive
  have hpa := p1.ok.alive
  cases op with
  | pass d =>
    refine ⟨⟨by simpa [framesOf, WalT.step] using h.ok, h.empty, h.set, ?_⟩, hm, fun t A _ hp _ => hp,
      Nat.le_add_right _ _⟩
    intro e hx
    have := h.soon e hx
    simp only [WalT.step]
    omega
  | restart => exact absurd rfl hn
  | wake =>
    have e : WalT.step c size s .wake = (poll c s, []) := by simp [WalT.step, ha, hpa, WalT.live]
    rw [e]
    exact ⟨by simpa [framesOf] using p1, p5, fun t A _ => p2 t A, Nat.le_of_eq p3.symm⟩
  | rotate =>
    have e : WalT.step c size s .rotate = (rotateNow c (poll c s), []) := by simp [WalT.step, ha, hpa, WalT.live]
    rw [e]
    unfold rotateNow
    by_cases hb : (poll c s).w.bytes = 0
    · rw [if_pos hb]
      exact ⟨by simpa [framesOf] using p1.move (s' := recompute (poll c s)) rfl rfl rfl, rfl,
        fun t A _ hd hA => (p2 t A hd hA).move rfl rfl, Nat.le_of_eq p3.symm⟩
    · rw [if_neg hb]
      obtain ⟨k1, k2⟩ := turnOver_aged (c := c) hr p1
      obtain ⟨d1, d2, d3⟩ := direct_aged (turnOver c (poll c s)) .cancel
      refine ⟨by simpa [framesOf] using k1.move (direct_w _ .cancel) d1 d2, d3, ?_, ?_⟩
      · intro t A _ _ hA
        refine Or.inl ?_
        show A <+: sealedFrames (direct (turnOver c (poll c s)) .cancel).w
        rw [direct_w, k2]
        exact hA
      · show s.now ≤ (direct (turnOver c (poll c s)) .cancel).now
        rw [d2]
        exact Nat.le_of_eq p3.symm
  | batch ms =>
    have e : WalT.step c size s (.batch ms) = WalT.batch c size (poll c s) ms := by simp [WalT.step, ha, hpa, WalT.live]
    rw [e]
    unfold WalT.batch
    obtain ⟨q1, q2, q3⟩ := handleAll_aged hr hs hz ms (he ms rfl) (d := .keep) p1
    obtain ⟨d1, d2, d3⟩ := direct_aged (handleAll c size (poll c s) .keep ms).1 (handleAll c size (poll c s) .keep ms).2.2
    refine ⟨q1.move (direct_w _ _) d1 d2, d3, ?_, ?_⟩
    · intro t A ht hp hA
      exact (q2 t A (by rw [p3]; exact ht) (p2 t A hp hA) hA).move (direct_w _ _) d1
    · show s.now ≤ (direct _ _).now
      rw [d2, q3]; exact Nat.le_of_eq p3.symm

theorem restart_aged {c : TCfg} {a : Nat} (hr : c.retention = none) (hs : c.maxAge = some a) {size : F → Nat}
    (hz : ∀ f, 0 < size f) {s : T F} (h : s.w.pruned = 0) :
    Aged a (WalT.step c size s .restart).1 (disk s.w) ∧ Armed (WalT.step c size s .restart).1 := by
  obtain ⟨h1, _, _, h4, h5⟩ := reopen_ok (cfg := c.plain) (by exact hr) size h
  have er : (WalT.step c size s .restart).1.rotateAt =
      if 0 < (WalW.reopen c.plain size s.w).bytes then some (s.now + a) else none := by
    simp only [WalT.step, T.start, recompute, hs, Option.map_some]
  refine ⟨⟨h1, ?_, ?_, ?_⟩, rfl⟩
  · intro h0
    have h0' : (WalW.reopen c.plain size s.w).bytes = 0 := h0
    show (WalW.reopen c.plain size s.w).active.all = []
    rw [h4] at h0'
    rw [h5]
    cases hx : s.w.active.synced with
    | nil => simp [WalW.Seg.lose, WalW.Seg.all, hx]
    | cons f fs =>
      rw [hx] at h0'
      have := hz f.2
      simp only [WalW.total, List.map_cons, List.sum_cons] at h0'
      omega
  · intro h0
    rw [er, if_pos (show 0 < (WalW.reopen c.plain size s.w).bytes from h0)]
    exact ⟨_, rfl⟩
  · intro y hy
    rw [er] at hy
    split_ifs at hy
    cases hy
    exact Nat.le_refl _

theorem new_aged (c : TCfg) (a t0 : Nat) : Aged a (T.start c (WalW.W.new : WalW.W F) t0) [] ∧
    Armed (T.start c (WalW.W.new : WalW.W F) t0) := by
  refine ⟨⟨⟨rfl, rfl, rfl⟩, fun _ => rfl, ?_, ?_⟩, rfl⟩
  · intro h; exact absurd h (Nat.lt_irrefl 0)
  · intro e he; cases he

end Tonbo.Lemmas.WalT
