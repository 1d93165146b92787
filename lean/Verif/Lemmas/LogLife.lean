import Verif.Lemmas.WalRules
import Verif.Lemmas.WalTail
import Verif.Props.C25_C27_Frame
import Verif.Props.C28_Replay
import Verif.Spec.LifeView

/-!
# A log through sessions and crashes
-/

namespace Tonbo.Lemmas.LogLife
open Tonbo.Model Tonbo.Model.Wal Tonbo.Model.LogLife Tonbo.Spec Tonbo.Spec.Wal Tonbo.Spec.Life
open Tonbo.Lemmas.WalRules Tonbo.Lemmas.WalTail Tonbo.Lemmas.FrameWalk

variable {A : Type}

/-! ## The writer -/

/-- Nothing of the file can be lost. -/
def Sure (d : Crash) (g : WalW.Seg Frame) : Prop := safe d g = g.all

/-- All frames of the log. -/
def body (w : WalW.W Frame) : List (Nat × Frame) := w.completed.flatMap (fun c => c.1.all) ++ w.active.all

/-- The frames that surely survive, if the sealed files do. -/
def sure (d : Crash) (w : WalW.W Frame) : List Frame :=
  (w.completed.flatMap (fun c => c.1.all) ++ safe d w.active).map Prod.snd

structure Sound (d : Crash) (B : List Frame) (w : WalW.W Frame) (L : List Frame) : Prop where
  kept : w.pruned = 0
  content : (body w).map Prod.snd = L
  done : ∀ c ∈ w.completed, Sure d c.1
  pos : ∀ p ∈ body w, 1 ≤ p.1
  next : 1 ≤ w.next
  ord : (w.completed.map (fun c => c.1.seq) ++ [w.active.seq]).Pairwise (· < ·)
  after : w.active.seq < w.nextSeg
  base : B <+: sure d w

theorem safe_all (d : Crash) (g : WalW.Seg Frame) : safe d g <+: g.all := by
  cases d with
  | power => exact ⟨g.flushed ++ g.buffered, by simp [safe, WalW.Seg.all]⟩
  | kill => exact ⟨g.buffered, by simp [safe, WalW.Seg.all]⟩

theorem safe_flush (d : Crash) (g : WalW.Seg Frame) : safe d g <+: safe d g.flush := by
  cases d with
  | power => exact List.prefix_rfl
  | kill => exact ⟨g.buffered, by simp [safe, WalW.Seg.flush]⟩

theorem safe_fsync (d : Crash) (g : WalW.Seg Frame) : safe d g <+: safe d g.fsync := by
  cases d with
  | power => exact ⟨g.flushed, by simp [safe, WalW.Seg.fsync]⟩
  | kill => exact ⟨[], by simp [safe, WalW.Seg.fsync]⟩

theorem sure_mono {d : Crash} {w w' : WalW.W Frame} (h1 : w'.completed = w.completed) (h2 : safe d w.active <+: safe d w'.active) :
    sure d w <+: sure d w' := by
  unfold sure
  rw [h1]
  exact List.IsPrefix.map _ ((List.prefix_append_right_inj _).2 h2)

theorem sure_body (d : Crash) (w : WalW.W Frame) : sure d w <+: (body w).map Prod.snd := by
  exact List.IsPrefix.map _ ((List.prefix_append_right_inj _).2 (safe_all d w.active))

theorem sure_eq {d : Crash} {w : WalW.W Frame} (h : Sure d w.active) : sure d w = (body w).map Prod.snd := by
  unfold sure body
  rw [h]

theorem sure_new (d : Crash) (n : Nat) : Sure d (WalW.Seg.new n) := by
  cases d <;> rfl

theorem sure_flush' {d : Crash} {g : WalW.Seg Frame} (h : Sure d g) : Sure d g.flush := by
  unfold Sure at *
  cases d with
  | power =>
    simp only [safe, WalW.Seg.all, WalW.Seg.flush] at *
    rw [List.append_nil]
    rw [List.append_assoc] at h
    exact h
  | kill => simp [safe, WalW.Seg.all, WalW.Seg.flush]

theorem sure_fsync' {d : Crash} {g : WalW.Seg Frame} (h : Sure d g) : Sure d g.fsync := by
  unfold Sure at *
  cases d with
  | power =>
    simp only [safe, WalW.Seg.all, WalW.Seg.fsync] at *
    have := congrArg List.length h
    simp only [List.length_append] at this
    have hb : g.buffered = [] := List.eq_nil_of_length_eq_zero (by omega)
    simp [hb]
  | kill =>
    simp only [safe, WalW.Seg.all, WalW.Seg.fsync] at *
    simpa using h

section Ops
variable {d : Crash} {B L : List Frame} {w : WalW.W Frame} {cfg : WalW.Cfg}

theorem sound_write (h : Sound d B w L) (fs : List Frame) : Sound d B (WalW.writeFrames frameSize w fs) (L ++ fs) := by
  have hb : body (WalW.writeFrames frameSize w fs) = body w ++ WalW.number w.next fs := by
    simp [body, WalW.writeFrames, WalW.Seg.all, List.append_assoc]
  refine ⟨h.kept, ?_, h.done, ?_, Nat.le_trans h.next (Nat.le_add_right _ _), h.ord, h.after, ?_⟩
  · rw [hb, List.map_append, h.content, WalW.number_snd]
  · intro p hp
    rw [hb] at hp
    rcases List.mem_append.1 hp with hp | hp
    · exact h.pos p hp
    · have := List.mem_map_of_mem (f := Prod.fst) hp
      rw [WalW.number_fst, List.mem_range'] at this
      obtain ⟨i, _, e⟩ := this
      have := h.next
      omega
  · have : sure d (WalW.writeFrames frameSize w fs) = sure d w := by cases d <;> rfl
    rw [this]
    exact h.base

/-- Another state of the open file with the same frames. -/
theorem sound_active (h : Sound d B w L) {w' : WalW.W Frame} (h1 : w'.completed = w.completed) (h2 : w'.active.all = w.active.all)
    (h3 : w'.active.seq = w.active.seq) (h4 : safe d w.active <+: safe d w'.active) (h5 : w'.pruned = w.pruned)
    (h6 : w'.next = w.next) (h7 : w'.nextSeg = w.nextSeg) : Sound d B w' L := by
  have hb : body w' = body w := by unfold body; rw [h1, h2]
  exact ⟨by rw [h5]; exact h.kept, by rw [hb]; exact h.content, by rw [h1]; exact h.done, by rw [hb]; exact h.pos,
    by rw [h6]; exact h.next, by rw [h1, h3]; exact h.ord, by rw [h3, h7]; exact h.after, h.base.trans (sure_mono h1 h4)⟩

theorem sound_flush (h : Sound d B w L) : Sound d B { w with active := w.active.flush } L :=
  sound_active h rfl (WalW.seg_flush_all _) rfl (safe_flush d _) rfl rfl rfl

theorem sound_fsync (h : Sound d B w L) : Sound d B { w with active := w.active.fsync } L :=
  sound_active h rfl (WalW.seg_fsync_all _) rfl (safe_fsync d _) rfl rfl rfl

theorem sound_dead (h : Sound d B w L) : Sound d B { w with dead := true } L :=
  sound_active h rfl rfl rfl List.prefix_rfl rfl rfl rfl

theorem sound_syncNow (h : Sound d B w L) : Sound d B (WalW.syncNow w) L :=
  sound_active h rfl (WalW.seg_fsync_all _) rfl (safe_fsync d _) rfl rfl rfl

theorem sound_flushIf (h : Sound d B w L) (b : Bool) : Sound d B (WalW.flushIf b w) L := by
  unfold WalW.flushIf
  split_ifs
  · exact sound_flush h
  · exact h

theorem sound_finish (h : Sound d B w L) : Sound d B (WalW.finishSeg cfg w) L := by
  unfold WalW.finishSeg
  split_ifs
  · exact sound_flushIf h true
  · exact sound_syncNow (sound_flushIf h true)

theorem finish_sure (hk : d = .power → cfg.sync ≠ .disabled) (w : WalW.W Frame) : Sure d (WalW.finishSeg cfg w).active := by
  unfold WalW.finishSeg Sure
  cases d with
  | power =>
    rw [if_neg (hk rfl)]
    simp [safe, WalW.syncNow, WalW.flushIf, WalW.Seg.fsync, WalW.Seg.flush, WalW.Seg.all]
  | kill =>
    split_ifs <;> simp [safe, WalW.syncNow, WalW.flushIf, WalW.Seg.fsync, WalW.Seg.flush, WalW.Seg.all]

theorem sound_openNext (h : Sound d B w L) (hs : Sure d w.active) : Sound d B (WalW.openNext w) L := by
  have hb : body (WalW.openNext w) = body w := by simp [body, WalW.openNext, WalW.Seg.new, WalW.Seg.all]
  refine ⟨h.kept, by rw [hb]; exact h.content, ?_, by rw [hb]; exact h.pos, h.next, ?_, Nat.lt_succ_self _, ?_⟩
  · intro c hc
    simp only [WalW.openNext, List.mem_append, List.mem_singleton] at hc
    rcases hc with hc | rfl
    · exact h.done c hc
    · exact hs
  · simp only [WalW.openNext, WalW.Seg.new, List.map_append, List.map_cons, List.map_nil]
    rw [List.pairwise_append]
    refine ⟨h.ord, by simp, ?_⟩
    intro a ha b hb
    rw [List.mem_singleton] at hb
    subst hb
    rcases List.mem_append.1 ha with ha' | ha'
    · have := (List.pairwise_append.1 h.ord).2.2 a ha' w.active.seq (by simp)
      exact Nat.lt_trans this h.after
    · rw [List.mem_singleton] at ha'
      subst ha'
      exact h.after
  · rw [sure_eq (sure_new d _ : Sure d (WalW.openNext w).active), hb]
    exact h.base.trans (sure_body d w)

theorem sound_maybeSync (h : Sound d B w L) : Sound d B (WalW.maybeSync cfg w) L := by
  unfold WalW.maybeSync
  split
  · exact sound_syncNow h
  · split_ifs
    · exact sound_syncNow h
    · exact h
  · exact h
  · exact h

variable (hr : cfg.retention = none) (hk : d = .power → cfg.sync ≠ .disabled)
include hr hk

theorem sound_rotate (h : Sound d B w L) : Sound d B (WalW.rotate cfg w) L := by
  unfold WalW.rotate
  rw [WalW.retain_none hr]
  exact sound_openNext (sound_finish h) (finish_sure hk w)

theorem sound_rotation (h : Sound d B w L) : Sound d B (WalW.rotationRequest cfg w) L := by
  unfold WalW.rotationRequest
  split_ifs
  · exact h
  · exact sound_rotate hr hk h

theorem sound_tick (h : Sound d B w L) (r y : Bool) : Sound d B (WalW.tick cfg w r y) L := by
  have h1 : Sound d B (if r = true then WalW.rotationRequest cfg w else w) L := by
    cases r
    · exact h
    · exact sound_rotation hr hk h
  unfold WalW.tick WalW.timedSync
  generalize (if r = true then WalW.rotationRequest cfg w else w) = t at h1
  by_cases c : y = true ∧ 0 < t.since ∧ t.dead = false
  · rw [if_pos c]; exact sound_syncNow h1
  · rw [if_neg c]; exact h1

theorem sound_writeOut (h : Sound d B w L) (c : WalW.Cmd Frame) : Sound d B (WalW.writeOut cfg frameSize w c) (L ++ c.frames) := by
  have h1 := sound_flushIf (sound_write h c.frames) (cfg.flushZero || c.elapsed)
  unfold WalW.writeOut WalW.maybeRotate
  split_ifs
  · exact h1
  · exact sound_rotate hr hk h1

end Ops

theorem dead_rotate {cfg : WalW.Cfg} (hr : cfg.retention = none) {w : WalW.W Frame} : (WalW.rotate cfg w).dead = w.dead := by
  unfold WalW.rotate
  rw [WalW.retain_none hr]
  unfold WalW.finishSeg WalW.flushIf
  split_ifs <;> rfl

theorem sure_rotate {d : Crash} {cfg : WalW.Cfg} (hr : cfg.retention = none) {w : WalW.W Frame} : Sure d (WalW.rotate cfg w).active := by
  unfold WalW.rotate
  rw [WalW.retain_none hr]
  exact sure_new d _

theorem dead_rotation {cfg : WalW.Cfg} (hr : cfg.retention = none) {w : WalW.W Frame} :
    (WalW.rotationRequest cfg w).dead = w.dead := by
  unfold WalW.rotationRequest
  split_ifs
  · rfl
  · exact dead_rotate hr

theorem dead_tick {cfg : WalW.Cfg} (hr : cfg.retention = none) {w : WalW.W Frame} (r y : Bool) :
    (WalW.tick cfg w r y).dead = w.dead := by
  have h1 : (if r = true then WalW.rotationRequest cfg w else w).dead = w.dead := by
    cases r
    · rfl
    · exact dead_rotation hr
  unfold WalW.tick WalW.timedSync
  generalize (if r = true then WalW.rotationRequest cfg w else w) = t at h1
  by_cases c : y = true ∧ 0 < t.since ∧ t.dead = false
  · rw [if_pos c]; exact h1
  · rw [if_neg c]; exact h1

theorem sure_rotation {d : Crash} {cfg : WalW.Cfg} (hr : cfg.retention = none) {w : WalW.W Frame} (h : Sure d w.active) :
    Sure d (WalW.rotationRequest cfg w).active := by
  unfold WalW.rotationRequest
  split_ifs
  · exact h
  · exact sure_rotate hr

theorem sure_tick {d : Crash} {cfg : WalW.Cfg} (hr : cfg.retention = none) {w : WalW.W Frame} (h : Sure d w.active) (r y : Bool) :
    Sure d (WalW.tick cfg w r y).active := by
  have h1 : Sure d (if r = true then WalW.rotationRequest cfg w else w).active := by
    cases r
    · exact h
    · exact sure_rotation hr h
  unfold WalW.tick WalW.timedSync
  generalize (if r = true then WalW.rotationRequest cfg w else w) = t at h1
  by_cases c : y = true ∧ 0 < t.since ∧ t.dead = false
  · rw [if_pos c]; exact sure_fsync' h1
  · rw [if_neg c]; exact h1

/-! ## The rules -/

structure Alive (d : Crash) (full : Prop) (B : List Frame) (w : WalW.W Frame) (fs : List Frame) : Prop where
  sound : Sound d B w (B ++ fs)
  alive : w.dead = false
  full : full → Sure d w.active

structure Ended (d : Crash) (full : Prop) (B : List Frame) (w : WalW.W Frame) (fs more : List Frame) : Prop where
  sound : Sound d B w (B ++ fs ++ more)
  full : full → B ++ fs <+: sure d w

/-- The commands of a session. -/
def Right (full : Prop) (cfg : WalW.Cfg) (c : WalW.Cmd Frame) : Prop :=
  c.frames ≠ [] ∧ (full → (cfg.flushZero || c.elapsed) = true)

theorem alive_ended {d : Crash} {full : Prop} {B : List Frame} {w : WalW.W Frame} {fs : List Frame} (h : Alive d full B w fs) :
    Ended d full B w fs [] := by
  refine ⟨by rw [List.append_nil]; exact h.sound, fun hf => ?_⟩
  rw [sure_eq (h.full hf), h.sound.content]
  exact List.prefix_rfl

theorem enqueue_one {d : Crash} {full : Prop} {B : List Frame} {cfg : WalW.Cfg} (hr : cfg.retention = none)
    (hk : d = .power → cfg.sync ≠ .disabled) (hp : full → d = .power → cfg.sync = .always) {w : WalW.W Frame} {fs : List Frame}
    (h : Alive d full B w fs) (c : WalW.Cmd Frame) (hc : Right full cfg c) :
    ∃ w' a, WalW.enqueue cfg frameSize w c = (w', some a) ∧ Alive d full B w' (fs ++ c.frames) := by
  have hdead : (WalW.writeOut cfg frameSize w c).dead = false := by
    have h1 : (WalW.flushIf (cfg.flushZero || c.elapsed) (WalW.writeFrames frameSize w c.frames)).dead = false := by
      unfold WalW.flushIf
      split_ifs <;> exact h.alive
    unfold WalW.writeOut WalW.maybeRotate
    by_cases hx : cfg.maxBytes = 0 ∨ (WalW.flushIf (cfg.flushZero || c.elapsed) (WalW.writeFrames frameSize w c.frames)).bytes < cfg.maxBytes ∨
        (WalW.flushIf (cfg.flushZero || c.elapsed) (WalW.writeFrames frameSize w c.frames)).bytes = 0
    · rw [if_pos hx]; exact h1
    · rw [if_neg hx, dead_rotate hr]; exact h1
  have hs := sound_maybeSync (cfg := cfg) (sound_writeOut hr hk h.sound c)
  refine ⟨WalW.recordCommit c.commit (WalW.maybeSync cfg (WalW.writeOut cfg frameSize w c)),
    (w.next, w.next + c.frames.length - 1), ?_, ?_⟩
  · unfold WalW.enqueue
    rw [if_neg hc.1, hdead]
    rfl
  · have hrec : ∀ {w : WalW.W Frame}, Sound d B w (B ++ fs ++ c.frames) → Sound d B (WalW.recordCommit c.commit w) (B ++ fs ++ c.frames) := by
      intro w hw
      unfold WalW.recordCommit
      split_ifs
      · exact sound_active hw rfl rfl rfl List.prefix_rfl rfl rfl rfl
      · exact hw
    have hact : ∀ w : WalW.W Frame, (WalW.recordCommit c.commit w).active = w.active ∧ (WalW.recordCommit c.commit w).dead = w.dead := by
      intro w
      unfold WalW.recordCommit
      split_ifs <;> exact ⟨rfl, rfl⟩
    refine ⟨by rw [← List.append_assoc]; exact hrec hs, ?_, fun hf => ?_⟩
    · rw [(hact _).2]
      unfold WalW.maybeSync
      split
      · exact hdead
      · split_ifs <;> exact hdead
      · exact hdead
      · exact hdead
    · rw [(hact _).1]
      have hb : (WalW.writeOut cfg frameSize w c).active.buffered = [] := by
        unfold WalW.writeOut WalW.maybeRotate
        rw [hc.2 hf]
        split_ifs
        · rfl
        · unfold WalW.rotate
          rw [WalW.retain_none hr]
          rfl
      cases d with
      | power =>
        unfold WalW.maybeSync
        rw [hp hf rfl]
        unfold Sure
        simp [safe, WalW.syncNow, WalW.Seg.fsync, WalW.Seg.all, hb]
      | kill =>
        have hb' : (WalW.maybeSync cfg (WalW.writeOut cfg frameSize w c)).active.buffered = [] := by
          unfold WalW.maybeSync
          split
          · exact hb
          · split_ifs <;> exact hb
          · exact hb
          · exact hb
        unfold Sure
        simp [safe, WalW.Seg.all, hb']

theorem enqueue_all {d : Crash} {full : Prop} {B : List Frame} {cfg : WalW.Cfg} (hr : cfg.retention = none)
    (hk : d = .power → cfg.sync ≠ .disabled) (hp : full → d = .power → cfg.sync = .always) :
    ∀ (cs : List (WalW.Cmd Frame)) {w : WalW.W Frame} {fs : List Frame}, Alive d full B w fs → (∀ c ∈ cs, Right full cfg c) →
      ∃ w' as, WalW.enqueueAll cfg frameSize w cs = (w', some as) ∧ Alive d full B w' (fs ++ cs.flatMap (·.frames))
  | [], w, fs, h, _ => ⟨w, [], rfl, by simpa using h⟩
  | c :: cs, w, fs, h, hc => by
    obtain ⟨w1, a, e1, h1⟩ := enqueue_one hr hk hp h c (hc c (by simp))
    obtain ⟨w2, as, e2, h2⟩ := enqueue_all hr hk hp cs h1 (fun x hx => hc x (List.mem_cons_of_mem _ hx))
    refine ⟨w2, a :: as, ?_, ?_⟩
    · simp only [WalW.enqueueAll, e1, e2]
      rfl
    · rw [List.flatMap_cons, ← List.append_assoc]
      exact h2

theorem rules {d : Crash} {full : Prop} {B : List Frame} {cfg : WalW.Cfg} (hr : cfg.retention = none)
    (hk : d = .power → cfg.sync ≠ .disabled) (hp : full → d = .power → cfg.sync = .always) :
    Rules cfg frameSize (Right full cfg) (Alive d full B) (Ended d full B) where
  tick r y h := ⟨by rw [dead_tick hr]; exact h.alive,
    ⟨sound_tick hr hk h.sound r y, by rw [dead_tick hr]; exact h.alive, fun hf => sure_tick hr (h.full hf) r y⟩⟩
  rotate h := ⟨by rw [dead_rotation hr]; exact h.alive,
    ⟨sound_rotation hr hk h.sound, by rw [dead_rotation hr]; exact h.alive, fun hf => sure_rotation hr (h.full hf)⟩⟩
  finish {w fs} h := by
    refine ⟨sound_finish h.sound, ?_, fun _ => finish_sure hk w⟩
    unfold WalW.finishSeg WalW.flushIf
    split_ifs <;> exact h.alive
  drain h := ⟨sound_flush h.sound, h.alive, fun hf => sure_flush' (h.full hf)⟩
  writeback h := ⟨sound_fsync h.sound, h.alive, fun hf => sure_fsync' (h.full hf)⟩
  drain' h := ⟨sound_flush h.sound, fun hf => (h.full hf).trans (sure_mono rfl (safe_flush d _))⟩
  writeback' h := ⟨sound_fsync h.sound, fun hf => (h.full hf).trans (sure_mono rfl (safe_fsync d _))⟩
  dead h := ⟨sound_dead h.sound, fun hf => (h.full hf).trans (sure_mono rfl List.prefix_rfl)⟩
  fail h := alive_ended h
  enqueue cs h hc := enqueue_all hr hk hp cs h hc
  partly {w fs} cs n k h hc := by
    obtain ⟨w1, as, e1, h1⟩ := enqueue_all hr hk hp (cs.take n) h (fun c hx => hc c (List.take_subset _ _ hx))
    have hpre : (cs.take n).flatMap (·.frames) <+: cs.flatMap (·.frames) := by
      conv_rhs => rw [← List.take_append_drop n cs]
      rw [List.flatMap_append]
      exact List.prefix_append _ _
    have hful : ∀ hf : full, B ++ fs <+: sure d w1 := by
      intro hf
      rw [sure_eq (h1.full hf), h1.sound.content, ← List.append_assoc]
      exact List.prefix_append _ _
    unfold WalQ.partly
    rw [e1]
    cases hd : cs.drop n with
    | nil => exact ⟨_, hpre, ⟨by rw [List.append_assoc]; exact h1.sound, hful⟩⟩
    | cons c rest =>
      refine ⟨(cs.take n).flatMap (·.frames) ++ c.frames.take k, ?_, ⟨?_, ?_⟩⟩
      · conv_rhs => rw [← List.take_append_drop n cs, hd]
        rw [List.flatMap_append, List.flatMap_cons]
        refine (List.prefix_append_right_inj _).2 ((List.take_prefix _ _).trans (List.prefix_append _ _))
      · have := sound_write h1.sound (c.frames.take k)
        simpa [List.append_assoc] using this
      · intro hf
        have : sure d (WalW.writeFrames frameSize w1 (c.frames.take k)) = sure d w1 := by cases d <;> rfl
        rw [this]
        exact hful hf

end Tonbo.Lemmas.LogLife
