import Mathlib.Tactic.SplitIfs
import Verif.Model.WalWriter

/-!
# Lemmas on the log writer
-/

namespace Tonbo.Lemmas.WalW
open Tonbo.Model.WalW

variable {F : Type}

theorem number_snd (n : Nat) (fs : List F) : (number n fs).map Prod.snd = fs := by
  induction fs generalizing n with
  | nil => rfl
  | cons f fs ih => simp [number, ih]

theorem number_fst (n : Nat) (fs : List F) : (number n fs).map Prod.fst = List.range' n fs.length := by
  induction fs generalizing n with
  | nil => rfl
  | cons f fs ih => simp [number, ih, List.range'_succ]

theorem seg_flush_all (g : Seg F) : g.flush.all = g.all := by simp [Seg.flush, Seg.all]

theorem seg_fsync_all (g : Seg F) : g.fsync.all = g.all := by simp [Seg.fsync, Seg.all]

/-- A living writer without pruned files, and the frames it has written. -/
structure Ok (s : W F) (L : List F) : Prop where
  alive : s.dead = false
  kept : s.pruned = 0
  content : ((s.completed.flatMap (fun c => c.1.all)) ++ s.active.all).map Prod.snd = L

/-- Nothing of the segment is outside the disk. -/
def OnDisk (g : Seg F) : Prop := g.flushed = [] ∧ g.buffered = []

/-- All sealed segments are on the disk. -/
def SealedOnDisk (s : W F) : Prop := ∀ c ∈ s.completed, OnDisk c.1

/-- Everything flushed. -/
def Flushed (s : W F) : Prop := (∀ c ∈ s.completed, c.1.buffered = []) ∧ s.active.buffered = []

theorem segments_kept {s : W F} (h : s.pruned = 0) : segments s = s.completed.map Prod.fst ++ [s.active] := by
  unfold segments
  rw [h]
  simp

theorem written_ok {s : W F} {L : List F} (h : Ok s L) : (written s).map Prod.snd = L := by
  unfold written
  rw [segments_kept h.kept, ← h.content]
  simp [List.flatMap_append, List.flatMap_map]

theorem ok_writeFrames (size : F → Nat) {s : W F} {L : List F} (h : Ok s L) (fs : List F) :
    Ok (writeFrames size s fs) (L ++ fs) := by
  refine ⟨h.alive, h.kept, ?_⟩
  rw [← h.content]
  simp [writeFrames, Seg.all, number_snd]

theorem ok_flushIf {s : W F} {L : List F} (h : Ok s L) (b : Bool) : Ok (flushIf b s) L := by
  unfold flushIf
  split_ifs
  · exact ⟨h.alive, h.kept, by rw [← h.content, ← seg_flush_all s.active]⟩
  · exact h

theorem ok_syncNow {s : W F} {L : List F} (h : Ok s L) : Ok (syncNow s) L :=
  ⟨h.alive, h.kept, by rw [← h.content, ← seg_fsync_all s.active]; rfl⟩

theorem ok_finishSeg {cfg : Cfg} {s : W F} {L : List F} (h : Ok s L) : Ok (finishSeg cfg s) L := by
  unfold finishSeg
  split_ifs
  · exact ok_flushIf h _
  · exact ok_syncNow (ok_flushIf h _)

theorem ok_openNext {s : W F} {L : List F} (h : Ok s L) : Ok (openNext s) L := by
  refine ⟨h.alive, h.kept, ?_⟩
  rw [← h.content]
  simp [openNext, Seg.new, Seg.all]

theorem retain_none {cfg : Cfg} (hr : cfg.retention = none) (s : W F) : retain cfg s = s := by
  unfold retain
  rw [hr]

theorem ok_rotate {cfg : Cfg} (hr : cfg.retention = none) {s : W F} {L : List F} (h : Ok s L) : Ok (rotate cfg s) L := by
  unfold rotate
  rw [retain_none hr]
  exact ok_openNext (ok_finishSeg h)

theorem ok_maybeRotate {cfg : Cfg} (hr : cfg.retention = none) {s : W F} {L : List F} (h : Ok s L) :
    Ok (maybeRotate cfg s) L := by
  unfold maybeRotate
  split_ifs
  · exact h
  · exact ok_rotate hr h

theorem ok_maybeSync {cfg : Cfg} {s : W F} {L : List F} (h : Ok s L) : Ok (maybeSync cfg s) L := by
  unfold maybeSync
  split
  · exact ok_syncNow h
  · split_ifs
    · exact ok_syncNow h
    · exact h
  · exact h
  · exact h

theorem ok_recordCommit {s : W F} {L : List F} (h : Ok s L) (c : Option Nat) : Ok (recordCommit c s) L := by
  unfold recordCommit
  split_ifs
  · exact ⟨h.alive, h.kept, h.content⟩
  · exact h

theorem ok_writeOut {cfg : Cfg} (hr : cfg.retention = none) (size : F → Nat) {s : W F} {L : List F} (h : Ok s L) (c : Cmd F) :
    Ok (writeOut cfg size s c) (L ++ c.frames) :=
  ok_maybeRotate hr (ok_flushIf (ok_writeFrames size h _) _)

theorem enqueue_alive {cfg : Cfg} (hr : cfg.retention = none) (size : F → Nat) {s : W F} {L : List F} (h : Ok s L) (c : Cmd F)
    (hc : c.frames ≠ []) :
    enqueue cfg size s c = (recordCommit c.commit (maybeSync cfg (writeOut cfg size s c)),
      some (s.next, s.next + c.frames.length - 1)) := by
  unfold enqueue
  rw [if_neg hc, if_neg]
  rw [(ok_writeOut hr size h c).alive]
  simp

theorem ok_enqueue {cfg : Cfg} (hr : cfg.retention = none) (size : F → Nat) {s : W F} {L : List F} (h : Ok s L) (c : Cmd F)
    (hc : c.frames ≠ []) : Ok (enqueue cfg size s c).1 (L ++ c.frames) := by
  rw [enqueue_alive hr size h c hc]
  exact ok_recordCommit (ok_maybeSync (ok_writeOut hr size h c)) _

theorem ok_rotationRequest {cfg : Cfg} (hr : cfg.retention = none) {s : W F} {L : List F} (h : Ok s L) :
    Ok (rotationRequest cfg s) L := by
  unfold rotationRequest
  split_ifs
  · exact h
  · exact ok_rotate hr h

theorem ok_timedSync {b : Bool} {s : W F} {L : List F} (h : Ok s L) : Ok (timedSync b s) L := by
  unfold timedSync
  by_cases c : b = true ∧ 0 < s.since ∧ s.dead = false
  · rw [if_pos c]; exact ok_syncNow h
  · rw [if_neg c]; exact h

theorem ok_tick {cfg : Cfg} (hr : cfg.retention = none) {s : W F} {L : List F} (h : Ok s L) (r y : Bool) :
    Ok (tick cfg s r y) L := by
  unfold tick
  apply ok_timedSync
  cases r
  · exact h
  · exact ok_rotationRequest hr h

/-! ## Sealed segments -/

theorem sealed_finish {cfg : Cfg} {s : W F} (h : SealedOnDisk s) : SealedOnDisk (finishSeg cfg s) := by
  unfold finishSeg
  split_ifs <;> exact h

theorem finish_disk {cfg : Cfg} (hd : cfg.sync ≠ .disabled) (s : W F) : OnDisk (finishSeg cfg s).active := by
  unfold finishSeg
  rw [if_neg hd]
  exact ⟨rfl, rfl⟩

theorem sealed_rotate {cfg : Cfg} (hr : cfg.retention = none) (hd : cfg.sync ≠ .disabled) {s : W F} (h : SealedOnDisk s) :
    SealedOnDisk (rotate cfg s) := by
  unfold rotate
  rw [retain_none hr]
  intro c hc
  simp only [openNext, List.mem_append, List.mem_singleton] at hc
  rcases hc with hc | rfl
  · exact sealed_finish h c hc
  · exact finish_disk hd s

theorem sealed_maybeRotate {cfg : Cfg} (hr : cfg.retention = none) (hd : cfg.sync ≠ .disabled) {s : W F}
    (h : SealedOnDisk s) : SealedOnDisk (maybeRotate cfg s) := by
  unfold maybeRotate
  split_ifs
  · exact h
  · exact sealed_rotate hr hd h

theorem sealed_flushIf {b : Bool} {s : W F} (h : SealedOnDisk s) : SealedOnDisk (flushIf b s) := by
  unfold flushIf
  split_ifs <;> exact h

theorem sealed_maybeSync {cfg : Cfg} {s : W F} (h : SealedOnDisk s) : SealedOnDisk (maybeSync cfg s) := by
  unfold maybeSync
  split
  · exact h
  · split_ifs <;> exact h
  · exact h
  · exact h

theorem sealed_recordCommit {c : Option Nat} {s : W F} (h : SealedOnDisk s) : SealedOnDisk (recordCommit c s) := by
  unfold recordCommit
  split_ifs <;> exact h

theorem sealed_writeOut {cfg : Cfg} (hr : cfg.retention = none) (hd : cfg.sync ≠ .disabled) (size : F → Nat) {s : W F}
    (h : SealedOnDisk s) (c : Cmd F) : SealedOnDisk (writeOut cfg size s c) :=
  sealed_maybeRotate hr hd (sealed_flushIf h)

theorem sealed_tick {cfg : Cfg} (hr : cfg.retention = none) (hd : cfg.sync ≠ .disabled) {s : W F} (h : SealedOnDisk s)
    (r y : Bool) : SealedOnDisk (tick cfg s r y) := by
  have h1 : SealedOnDisk (if r = true then rotationRequest cfg s else s) := by
    cases r
    · exact h
    · simp only [if_true, rotationRequest]
      split_ifs
      · exact h
      · exact sealed_rotate hr hd h
  unfold tick timedSync
  by_cases c : y = true ∧ 0 < (if r = true then rotationRequest cfg s else s).since ∧
      (if r = true then rotationRequest cfg s else s).dead = false
  · rw [if_pos c]; exact h1
  · rw [if_neg c]; exact h1

/-! ## The buffer -/

theorem flushed_rotate {cfg : Cfg} (hr : cfg.retention = none) {s : W F} (h : Flushed s) : Flushed (rotate cfg s) := by
  unfold rotate
  rw [retain_none hr]
  refine ⟨?_, rfl⟩
  intro c hc
  simp only [openNext, List.mem_append, List.mem_singleton] at hc
  rcases hc with hc | rfl
  · unfold finishSeg at hc
    split_ifs at hc <;> exact h.1 c hc
  · unfold finishSeg
    split_ifs <;> rfl

theorem flushed_writeOut {cfg : Cfg} (hr : cfg.retention = none) (size : F → Nat) {s : W F} (h : Flushed s) (c : Cmd F)
    (hp : (cfg.flushZero || c.elapsed) = true) : Flushed (writeOut cfg size s c) := by
  have h1 : Flushed (flushIf (cfg.flushZero || c.elapsed) (writeFrames size s c.frames)) := by
    unfold flushIf
    rw [if_pos hp]
    exact ⟨h.1, rfl⟩
  unfold writeOut maybeRotate
  split_ifs
  · exact h1
  · exact flushed_rotate hr h1

theorem flushed_maybeSync {cfg : Cfg} {s : W F} (h : Flushed s) : Flushed (maybeSync cfg s) := by
  unfold maybeSync
  split
  · exact h
  · split_ifs <;> exact h
  · exact h
  · exact h

theorem flushed_recordCommit {c : Option Nat} {s : W F} (h : Flushed s) : Flushed (recordCommit c s) := by
  unfold recordCommit
  split_ifs <;> exact h

theorem flushed_tick {cfg : Cfg} (hr : cfg.retention = none) {s : W F} (h : Flushed s)
    (r y : Bool) : Flushed (tick cfg s r y) := by
  have h1 : Flushed (if r = true then rotationRequest cfg s else s) := by
    cases r
    · exact h
    · simp only [if_true, rotationRequest]
      split_ifs
      · exact h
      · exact flushed_rotate hr h
  unfold tick timedSync
  by_cases c : y = true ∧ 0 < (if r = true then rotationRequest cfg s else s).since ∧
      (if r = true then rotationRequest cfg s else s).dead = false
  · rw [if_pos c]; exact h1
  · rw [if_neg c]; exact h1

/-! ## The whole log on the disk -/

/-- Every segment is on the disk. -/
def Clean (s : W F) : Prop := SealedOnDisk s ∧ OnDisk s.active

theorem clean_rotate {cfg : Cfg} (hr : cfg.retention = none) (hd : cfg.sync ≠ .disabled) {s : W F} (h : SealedOnDisk s) :
    Clean (rotate cfg s) := by
  refine ⟨sealed_rotate hr hd h, ?_⟩
  unfold rotate
  rw [retain_none hr]
  exact ⟨rfl, rfl⟩

theorem clean_tick {cfg : Cfg} (hr : cfg.retention = none) (hd : cfg.sync ≠ .disabled) {s : W F} (h : Clean s)
    (r y : Bool) : Clean (tick cfg s r y) := by
  have h1 : Clean (if r = true then rotationRequest cfg s else s) := by
    cases r
    · exact h
    · simp only [if_true, rotationRequest]
      split_ifs
      · exact h
      · exact clean_rotate hr hd h.1
  unfold tick timedSync
  by_cases c : y = true ∧ 0 < (if r = true then rotationRequest cfg s else s).since ∧
      (if r = true then rotationRequest cfg s else s).dead = false
  · rw [if_pos c]; exact ⟨h1.1, rfl, h1.2.2⟩
  · rw [if_neg c]; exact h1

theorem clean_enqueue {cfg : Cfg} (hr : cfg.retention = none) (ha : cfg.sync = .always) (size : F → Nat) {s : W F}
    (h : Clean s) (c : Cmd F) (hp : (cfg.flushZero || c.elapsed) = true) :
    Clean (recordCommit c.commit (maybeSync cfg (writeOut cfg size s c))) := by
  have hd : cfg.sync ≠ .disabled := by rw [ha]; exact fun h => by cases h
  have h1 := flushed_writeOut hr size (s := s) ⟨fun d hc => (h.1 d hc).2, h.2.2⟩ c hp
  have h2 := sealed_writeOut hr hd size h.1 c
  have h3 : Clean (maybeSync cfg (writeOut cfg size s c)) := by
    unfold maybeSync
    rw [ha]
    exact ⟨h2, rfl, h1.2⟩
  unfold recordCommit
  split_ifs <;> exact h3

theorem clean_all {g : Seg F} (h : OnDisk g) : g.synced = g.all := by
  unfold Seg.all
  rw [h.1, h.2]
  simp

/-- A power loss takes nothing from a log that is on the disk. -/
theorem clean_reopen {cfg : Cfg} (hr : cfg.retention = none) (size : F → Nat) {s : W F} {L : List F} (h : Ok s L)
    (hc : Clean s) : Ok (reopen cfg size s) L ∧ Clean (reopen cfg size s) := by
  unfold reopen
  rw [retain_none hr, h.kept]
  refine ⟨⟨rfl, rfl, ?_⟩, ?_, rfl, rfl⟩
  · rw [← h.content]
    have e1 : s.active.lose.all = s.active.all := by
      rw [← clean_all hc.2]
      simp [Seg.lose, Seg.all]
    have e2 : ∀ c ∈ s.completed, c.1.lose.all = c.1.all := by
      intro c hm
      rw [← clean_all (hc.1 c hm)]
      simp [Seg.lose, Seg.all]
    have e3 : (s.completed.map Prod.fst).filter (fun g : Seg F => decide (0 ≤ g.seq)) = s.completed.map Prod.fst :=
      List.filter_eq_self.2 (by simp)
    simp only [e1, e3, List.flatMap_map]
    congr 2
    rw [List.flatMap_def, List.flatMap_def]
    congr 1
    exact List.map_congr_left e2
  · intro c hm
    simp only [List.mem_map] at hm
    obtain ⟨g, _, rfl⟩ := hm
    exact ⟨rfl, rfl⟩

theorem clean_afterPowerLoss {s : W F} {L : List F} (h : Ok s L) (hc : Clean s) :
    (afterPowerLoss s).map Prod.snd = L := by
  unfold afterPowerLoss
  rw [segments_kept h.kept, ← h.content, List.flatMap_append, List.flatMap_map]
  simp only [List.flatMap_cons, List.flatMap_nil, List.append_nil, clean_all hc.2]
  congr 2
  rw [List.flatMap_def, List.flatMap_def]
  congr 1
  exact List.map_congr_left (fun c hm => clean_all (hc.1 c hm))

theorem flushed_afterKill {s : W F} {L : List F} (h : Ok s L) (hc : Flushed s) :
    (afterKill s).map Prod.snd = L := by
  have e : ∀ g : Seg F, g.buffered = [] → g.synced ++ g.flushed = g.all := by
    intro g hg
    unfold Seg.all
    rw [hg]
    simp
  unfold afterKill
  rw [segments_kept h.kept, ← h.content, List.flatMap_append, List.flatMap_map]
  simp only [List.flatMap_cons, List.flatMap_nil, List.append_nil, e _ hc.2]
  congr 2
  rw [List.flatMap_def, List.flatMap_def]
  congr 1
  exact List.map_congr_left (fun c hm => e _ (hc.1 c hm))

/-! ## Retention -/

/-- What the loop keeps is a suffix. -/
theorem evict_suffix (limit a p : Nat) (cs : List (Seg F × Nat)) : (evict limit a p cs).1 <:+ cs := by
  induction cs with
  | nil => exact List.suffix_rfl
  | cons c cs ih =>
    unfold evict
    split_ifs
    · exact List.suffix_cons _ _
    · exact ih.trans (List.suffix_cons _ _)
    · exact List.suffix_rfl

/-- When it ends without an error, the log is within the limit, or there is nothing left to remove. -/
theorem evict_bound (limit a p : Nat) (cs : List (Seg F × Nat)) (h : (evict limit a p cs).2 = true) :
    sealedBytes (evict limit a p cs).1 + a ≤ limit ∨ (evict limit a p cs).1 = [] := by
  induction cs with
  | nil => exact .inr rfl
  | cons c cs ih =>
    unfold evict at h ⊢
    split_ifs at h ⊢ with h1 h2
    · exact ih h
    · exact .inl (by simp only; omega)

/-- Below the limit nothing is removed. -/
theorem evict_small (limit a p : Nat) (cs : List (Seg F × Nat)) (h : sealedBytes cs + a ≤ limit) :
    evict limit a p cs = (cs, true) := by
  cases cs with
  | nil => rfl
  | cons c cs =>
    unfold evict
    rw [if_neg (by omega)]

end Tonbo.Lemmas.WalW
