import Mathlib.Tactic.SplitIfs
import Verif.Lemmas.WalW
import Verif.Props.C28_Replay

/-!
# C31 and C33: what is on the disk when a write has been acknowledged

A history is a sequence of batches of log commands, rotations, timer ticks, shutdowns, restarts after a
power loss, and moments at which the runtime or the operating system moves bytes on its own. `submitted`
is what the commands of the batches contained, in order.

**C31.** If the file is flushed for every command (flush interval zero, or elapsed each time) the sync
policy `Always` keeps the promise: at every moment the disk holds exactly the frames of all commands
handled so far (`always_is_durable_partial`), across rotations and any number of power losses, and recovery
applies every committed transaction among them (`acknowledged_commits_are_recovered_partial`). The full
claim fails: `fsync` opens the path anew and does not flush the writer's own buffer, so with any other flush
interval, and the default is 10 ms, an acknowledged frame is lost not only by a power loss but by killing
the process (`acknowledged_frame_is_not_durable`).

**C33.** False: with a retention limit the writer deletes sealed segments by size alone. For every limit
there is a history in which an acknowledged frame is deleted although nothing was ever flushed
(`retention_loses_acknowledged_frames`). What holds: it removes the oldest sealed segments first, never the
open one (`retention_removes_oldest`), and nothing at all while everything ever written fits
(`retention_partial`). The writer also does not learn of segments deleted by the database: reaching for
one of them ends the writer task (`pruning_and_retention_stop_the_writer`).

**C30, in part.** The commit timestamp in the state file is the one written last, which need not be the
largest (`state_file_forgets_the_largest_commit`).
-/

namespace Tonbo.Props.C31
open Tonbo.Model Tonbo.Model.WalW Tonbo.Lemmas.WalW

variable {F : Type}

/-- The frames of the commands of an operation. -/
def opFrames : WalW.Op F → List F
  | .batch cs => cs.flatMap (·.frames)
  | _ => []

/-- The frames of all commands handed to the writer, in order. -/
def submitted (ops : List (WalW.Op F)) : List F := ops.flatMap opFrames

/-- Every command has a frame (`encode_command` returns at least one). -/
def Encoded (ops : List (WalW.Op F)) : Prop := ∀ cs, WalW.Op.batch cs ∈ ops → ∀ c ∈ cs, c.frames ≠ []

/-- The file is flushed for every command. -/
def Prompt (cfg : Cfg) (ops : List (WalW.Op F)) : Prop :=
  ∀ cs, WalW.Op.batch cs ∈ ops → ∀ c ∈ cs, (cfg.flushZero || c.elapsed) = true

/-- The database deletes no segments. -/
def NoPrune (ops : List (WalW.Op F)) : Prop := ∀ n, WalW.Op.prune n ∉ ops

/-- The power stays on. -/
def Powered (ops : List (WalW.Op F)) : Prop := WalW.Op.powerLoss ∉ ops

theorem encoded_cons {op : WalW.Op F} {ops : List (WalW.Op F)} (h : Encoded (op :: ops)) : Encoded ops :=
  fun cs hc => h cs (List.mem_cons_of_mem _ hc)

theorem prompt_cons {cfg : Cfg} {op : WalW.Op F} {ops : List (WalW.Op F)} (h : Prompt cfg (op :: ops)) : Prompt cfg ops :=
  fun cs hc => h cs (List.mem_cons_of_mem _ hc)

theorem noPrune_cons {op : WalW.Op F} {ops : List (WalW.Op F)} (h : NoPrune (op :: ops)) : NoPrune ops :=
  fun n hc => h n (List.mem_cons_of_mem _ hc)

theorem powered_cons {op : WalW.Op F} {ops : List (WalW.Op F)} (h : Powered (op :: ops)) : Powered ops :=
  fun hc => h (List.mem_cons_of_mem _ hc)

/-! ## Every history -/

/-- A property of the state that every handled command keeps is kept by a batch. -/
theorem ok_enqueueAll {cfg : Cfg} (hr : cfg.retention = none) (size : F → Nat) (P : W F → Prop) (cs : List (Cmd F))
    (hc : ∀ c ∈ cs, c.frames ≠ [])
    (hP : ∀ s c, c ∈ cs → P s → P (recordCommit c.commit (maybeSync cfg (writeOut cfg size s c))))
    {s : W F} {L : List F} (h : Ok s L) (h0 : P s) :
    Ok (enqueueAll cfg size s cs).1 (L ++ cs.flatMap (·.frames)) ∧ P (enqueueAll cfg size s cs).1 ∧
      ∃ as, (enqueueAll cfg size s cs).2 = some as ∧ as.length = cs.length := by
  induction cs generalizing s L with
  | nil => exact ⟨by simpa [enqueueAll] using h, h0, [], rfl, rfl⟩
  | cons c cs ih =>
    have h1 := ok_enqueue hr size h c (hc c List.mem_cons_self)
    have e := enqueue_alive hr size h c (hc c List.mem_cons_self)
    have h2 := hP s c List.mem_cons_self h0
    rw [e] at h1
    obtain ⟨i1, i2, as, i3, i4⟩ := ih (fun d hd => hc d (List.mem_cons_of_mem _ hd))
      (fun s d hd => hP s d (List.mem_cons_of_mem _ hd)) h1 h2
    simp only [enqueueAll, e]
    refine ⟨by simpa [List.append_assoc] using i1, i2, (s.next, s.next + c.frames.length - 1) :: as, by simp [i3], by simp [i4]⟩

/-- While the power is on, the frames of the segments are the submitted ones. -/
theorem ok_run {cfg : Cfg} (hr : cfg.retention = none) (size : F → Nat) (ops : List (WalW.Op F)) (he : Encoded ops)
    (hn : NoPrune ops) (hw : Powered ops) {s : W F} {L : List F} (h : Ok s L) :
    Ok (run cfg size s ops).1 (L ++ submitted ops) := by
  induction ops generalizing s L with
  | nil => simpa [submitted, run] using h
  | cons op ops ih =>
    have h1 : Ok (step cfg size s op).1 (L ++ opFrames op) := by
      unfold step
      rw [if_neg (by rw [h.alive]; simp)]
      cases op with
      | batch cs =>
        exact (ok_enqueueAll hr size (fun _ => True) cs (he cs List.mem_cons_self) (fun _ _ _ _ => trivial) h trivial).1
      | rotate => simpa [live, opFrames] using ok_rotationRequest hr h
      | tick r y => simpa [live, opFrames] using ok_tick hr h r y
      | shutdown => simpa [live, opFrames] using ok_finishSeg h
      | drain => simpa [live, opFrames, flushIf] using ok_flushIf h true
      | writeback =>
        simp only [live, opFrames, List.append_nil]
        exact ⟨h.alive, h.kept, by rw [← h.content, ← seg_fsync_all s.active]⟩
      | prune n => exact absurd List.mem_cons_self (hn n)
      | powerLoss => exact absurd List.mem_cons_self hw
    have := ih (encoded_cons he) (noPrune_cons hn) (powered_cons hw) h1
    simpa [run, submitted, List.append_assoc] using this

/-- With `Always` and prompt flushes everything is on the disk after every step. -/
theorem clean_run {cfg : Cfg} (hr : cfg.retention = none) (ha : cfg.sync = .always) (size : F → Nat) (ops : List (WalW.Op F))
    (he : Encoded ops) (hp : Prompt cfg ops) (hn : NoPrune ops) {s : W F} {L : List F} (h : Ok s L) (hc : Clean s) :
    Ok (run cfg size s ops).1 (L ++ submitted ops) ∧ Clean (run cfg size s ops).1 := by
  have hd : cfg.sync ≠ .disabled := by rw [ha]; exact fun h => by cases h
  induction ops generalizing s L with
  | nil => exact ⟨by simpa [submitted, run] using h, hc⟩
  | cons op ops ih =>
    have h1 : Ok (step cfg size s op).1 (L ++ opFrames op) ∧ Clean (step cfg size s op).1 := by
      unfold step
      rw [if_neg (by rw [h.alive]; simp)]
      cases op with
      | batch cs =>
        have := ok_enqueueAll hr size Clean cs (he cs List.mem_cons_self)
          (fun s c hm h => clean_enqueue hr ha size h c (hp cs List.mem_cons_self c hm)) h hc
        exact ⟨this.1, this.2.1⟩
      | rotate =>
        refine ⟨by simpa [live, opFrames] using ok_rotationRequest hr h, ?_⟩
        simp only [live, rotationRequest]
        split_ifs
        · exact hc
        · exact clean_rotate hr hd hc.1
      | tick r y => exact ⟨by simpa [live, opFrames] using ok_tick hr h r y, clean_tick hr hd hc r y⟩
      | shutdown => exact ⟨by simpa [live, opFrames] using ok_finishSeg h, sealed_finish hc.1, finish_disk hd s⟩
      | drain =>
        refine ⟨by simpa [live, opFrames, flushIf] using ok_flushIf h true, hc.1, ?_, rfl⟩
        simp [live, Seg.flush, hc.2.1, hc.2.2]
      | writeback =>
        refine ⟨?_, hc.1, rfl, hc.2.2⟩
        simp only [live, opFrames, List.append_nil]
        exact ⟨h.alive, h.kept, by rw [← h.content, ← seg_fsync_all s.active]⟩
      | prune n => exact absurd List.mem_cons_self (hn n)
      | powerLoss => simpa [live, opFrames] using clean_reopen hr size h hc
    have := ih (encoded_cons he) (prompt_cons hp) (noPrune_cons hn) h1.1 h1.2
    simpa [run, submitted, List.append_assoc] using this

theorem ok_new : Ok (W.new : W F) [] := ⟨rfl, rfl, rfl⟩

theorem clean_new : Clean (W.new : W F) := by
  refine ⟨?_, rfl, rfl⟩
  intro c hc
  cases hc

/-- **C31** in part: with sync policy `Always` and a flush for every command, at every moment of every history, with
rotations, ticks, restarts and power losses anywhere, a loss of everything not fsynced leaves exactly the
frames of all commands handled so far. In particular those of every acknowledged one. Missing: other flush
intervals, for which it is false (`acknowledged_frame_is_not_durable`); a retention limit, for which it
is false too (`retention_loses_acknowledged_frames`); the deletion of flushed segments by the database,
which is a matter of C32. -/
theorem always_is_durable_partial (cfg : Cfg) (hr : cfg.retention = none) (ha : cfg.sync = .always) (size : F → Nat)
    (ops : List (WalW.Op F)) (he : Encoded ops) (hp : Prompt cfg ops) (hn : NoPrune ops) :
    (afterPowerLoss (run cfg size W.new ops).1).map Prod.snd = submitted ops := by
  obtain ⟨h1, h2⟩ := clean_run hr ha size ops he hp hn ok_new clean_new
  simpa using clean_afterPowerLoss h1 h2

/-- With a flush for every command, and whatever the sync policy, killing the process loses nothing. -/
theorem kill_loses_nothing_partial (cfg : Cfg) (hr : cfg.retention = none) (size : F → Nat)
    (ops : List (WalW.Op F)) (he : Encoded ops) (hp : Prompt cfg ops) (hn : NoPrune ops) (hw : Powered ops) :
    (afterKill (run cfg size W.new ops).1).map Prod.snd = submitted ops := by
  have h1 := ok_run hr size ops he hn hw ok_new
  have h2 : ∀ (ops : List (WalW.Op F)) (s : W F) (L : List F), Encoded ops → Prompt cfg ops → NoPrune ops → Powered ops →
      Ok s L → Flushed s → Flushed (run cfg size s ops).1 := by
    intro ops
    induction ops with
    | nil => intro s L _ _ _ _ _ h; exact h
    | cons op ops ih =>
      intro s L he hp hn hw h hc
      have hs : Flushed (step cfg size s op).1 ∧ ∃ L', Ok (step cfg size s op).1 L' := by
        unfold step
        rw [if_neg (by rw [h.alive]; simp)]
        cases op with
        | batch cs =>
          have := ok_enqueueAll hr size Flushed cs (he cs List.mem_cons_self)
            (fun s c hm h => flushed_recordCommit (flushed_maybeSync
              (flushed_writeOut hr size h c (hp cs List.mem_cons_self c hm)))) h hc
          exact ⟨this.2.1, _, this.1⟩
        | rotate =>
          refine ⟨?_, L, ok_rotationRequest hr h⟩
          simp only [live, rotationRequest]
          split_ifs
          · exact hc
          · exact flushed_rotate hr hc
        | tick r y => exact ⟨flushed_tick hr hc r y, L, ok_tick hr h r y⟩
        | shutdown =>
          refine ⟨?_, L, ok_finishSeg h⟩
          simp only [live, finishSeg]
          split_ifs <;> exact ⟨hc.1, rfl⟩
        | drain => exact ⟨⟨hc.1, rfl⟩, L, by simpa [live, flushIf] using ok_flushIf h true⟩
        | writeback =>
          exact ⟨hc, L, h.alive, h.kept, by simp only [live]; rw [← h.content, ← seg_fsync_all s.active]⟩
        | prune n => exact absurd List.mem_cons_self (hn n)
        | powerLoss => exact absurd List.mem_cons_self hw
      obtain ⟨h3, L', h4⟩ := hs
      exact ih _ L' (encoded_cons he) (prompt_cons hp) (noPrune_cons hn) (powered_cons hw) h4 h3
  have h3 := h2 ops W.new [] he hp hn hw ok_new ⟨(fun c hc => by cases hc), rfl⟩
  simpa using flushed_afterKill h1 h3

/-- After an orderly shutdown everything is on the disk, for every policy that syncs and every flush
interval. -/
theorem shutdown_is_durable (cfg : Cfg) (hr : cfg.retention = none) (hd : cfg.sync ≠ .disabled) (size : F → Nat)
    (ops : List (WalW.Op F)) (he : Encoded ops) (hn : NoPrune ops) (hw : Powered ops) :
    (afterPowerLoss (run cfg size W.new (ops ++ [.shutdown])).1).map Prod.snd = submitted ops := by
  have h1 := ok_run hr size ops he hn hw ok_new
  have h2 : ∀ (ops : List (WalW.Op F)) (s : W F) (L : List F), Encoded ops → NoPrune ops → Powered ops →
      Ok s L → SealedOnDisk s → SealedOnDisk (run cfg size s ops).1 := by
    intro ops
    induction ops with
    | nil => intro s L _ _ _ _ h; exact h
    | cons op ops ih =>
      intro s L he hn hw h hc
      have hs : SealedOnDisk (step cfg size s op).1 ∧ ∃ L', Ok (step cfg size s op).1 L' := by
        unfold step
        rw [if_neg (by rw [h.alive]; simp)]
        cases op with
        | batch cs =>
          have := ok_enqueueAll hr size SealedOnDisk cs (he cs List.mem_cons_self)
            (fun s c hm h => sealed_recordCommit (sealed_maybeSync (sealed_writeOut hr hd size h c))) h hc
          exact ⟨this.2.1, _, this.1⟩
        | rotate =>
          refine ⟨?_, L, ok_rotationRequest hr h⟩
          simp only [live, rotationRequest]
          split_ifs
          · exact hc
          · exact sealed_rotate hr hd hc
        | tick r y => exact ⟨sealed_tick hr hd hc r y, L, ok_tick hr h r y⟩
        | shutdown => exact ⟨sealed_finish hc, L, ok_finishSeg h⟩
        | drain => exact ⟨hc, L, by simpa [live, flushIf] using ok_flushIf h true⟩
        | writeback =>
          exact ⟨hc, L, h.alive, h.kept, by simp only [live]; rw [← h.content, ← seg_fsync_all s.active]⟩
        | prune n => exact absurd List.mem_cons_self (hn n)
        | powerLoss => exact absurd List.mem_cons_self hw
      obtain ⟨h3, L', h4⟩ := hs
      exact ih _ L' (encoded_cons he) (noPrune_cons hn) (powered_cons hw) h4 h3
  have h3 := h2 ops W.new [] he hn hw ok_new (fun c hc => by cases hc)
  have happ : ∀ (ops : List (WalW.Op F)) (s : W F), (run cfg size s (ops ++ [.shutdown])).1 =
      (step cfg size (run cfg size s ops).1 .shutdown).1 := by
    intro ops
    induction ops with
    | nil => intro s; rfl
    | cons op ops ih => intro s; exact ih _
  rw [happ]
  unfold step
  rw [if_neg (by rw [h1.alive]; simp)]
  have := clean_afterPowerLoss (ok_finishSeg (cfg := cfg) h1) ⟨sealed_finish h3, finish_disk hd _⟩
  simpa [live] using this

/-- **C31 fails**: for every configuration with policy `Always` and a flush interval other than zero, and every frame
small enough not to fill a segment: the command is acknowledged and the frame is neither on the disk nor
with the operating system; killing the process loses it. The default interval is 10 ms. -/
theorem acknowledged_frame_is_not_durable (cfg : Cfg) (ha : cfg.sync = .always) (hf : cfg.flushZero = false)
    (size : F → Nat) (f : F) (commit : Option Nat) (hs : cfg.maxBytes = 0 ∨ size f < cfg.maxBytes) :
    (run cfg size W.new [.batch [⟨[f], commit, false⟩]]).2 = [(1, 1)] ∧
    afterKill (run cfg size W.new [.batch [⟨[f], commit, false⟩]]).1 = [] ∧
    afterPowerLoss (run cfg size W.new [.batch [⟨[f], commit, false⟩]]).1 = [] := by
  have hw : writeOut cfg size W.new (⟨[f], commit, false⟩ : Cmd F) = writeFrames size W.new [f] := by
    unfold writeOut maybeRotate flushIf
    rw [hf]
    simp only [Bool.or_self, Bool.false_eq_true, if_false]
    rw [if_pos]
    rcases hs with hs | hs
    · exact .inl hs
    · exact .inr (.inl (by simpa [writeFrames, W.new, total] using hs))
  have he : enqueue cfg size W.new (⟨[f], commit, false⟩ : Cmd F) =
      (recordCommit commit (syncNow (writeFrames size W.new [f])), some (1, 1)) := by
    unfold enqueue
    rw [hw]
    simp [writeFrames, W.new, maybeSync, ha]
  have hr : run cfg size W.new [.batch [(⟨[f], commit, false⟩ : Cmd F)]] =
      (recordCommit commit (syncNow (writeFrames size W.new [f])), [(1, 1)]) := by
    have hd : (W.new : W F).dead = false := rfl
    simp [run, step, live, enqueueAll, he, hd]
  rw [hr]
  cases commit <;>
    simp [recordCommit, syncNow, writeFrames, W.new, afterKill, afterPowerLoss, segments, Seg.new, Seg.fsync]

/-! ## The numbers in the acknowledgements -/

/-- The frames of all segments the writer knows of, and the next number. -/
def sheet (s : W F) : List (Nat × F) × Nat := (s.completed.flatMap (fun c => c.1.all) ++ s.active.all, s.next)

theorem sheet_flushIf (b : Bool) (s : W F) : sheet (flushIf b s) = sheet s := by
  unfold flushIf
  split_ifs
  · simp [sheet, seg_flush_all]
  · rfl

theorem sheet_syncNow (s : W F) : sheet (syncNow s) = sheet s := by simp [sheet, syncNow, seg_fsync_all]

theorem sheet_rotate {cfg : Cfg} (hr : cfg.retention = none) (s : W F) : sheet (rotate cfg s) = sheet s := by
  have h1 : sheet (finishSeg cfg s) = sheet s := by
    unfold finishSeg
    split_ifs
    · exact sheet_flushIf _ _
    · rw [sheet_syncNow, sheet_flushIf]
  unfold rotate
  rw [retain_none hr, ← h1]
  simp [sheet, openNext, Seg.new, Seg.all]

theorem sheet_enqueue {cfg : Cfg} (hr : cfg.retention = none) (size : F → Nat) (s : W F) (c : Cmd F) :
    sheet (recordCommit c.commit (maybeSync cfg (writeOut cfg size s c))) =
      ((sheet s).1 ++ number s.next c.frames, s.next + c.frames.length) := by
  have h1 : ∀ t : W F, sheet (recordCommit c.commit t) = sheet t := by
    intro t
    unfold recordCommit
    split_ifs <;> rfl
  have h2 : ∀ t : W F, sheet (maybeSync cfg t) = sheet t := by
    intro t
    unfold maybeSync
    split
    · exact sheet_syncNow t
    · split_ifs
      · exact sheet_syncNow t
      · rfl
    · rfl
    · rfl
  have h3 : ∀ t : W F, sheet (maybeRotate cfg t) = sheet t := by
    intro t
    unfold maybeRotate
    split_ifs
    · rfl
    · exact sheet_rotate hr t
  rw [h1, h2]
  unfold writeOut
  rw [h3, sheet_flushIf]
  simp [sheet, writeFrames, Seg.all]

/-- The acknowledgements of commands whose first frame gets number `n`. -/
def acksOf : Nat → List (Cmd F) → List (Nat × Nat)
  | _, [] => []
  | n, c :: cs => (n, n + c.frames.length - 1) :: acksOf (n + c.frames.length) cs

/-- The numbers in an acknowledgement are those of the frames of its command: a batch appends its frames with
consecutive numbers to what the segments hold, and the acknowledgements cover them in order. -/
theorem acknowledged_numbers (cfg : Cfg) (hr : cfg.retention = none) (size : F → Nat) (s : W F) (L : List F) (h : Ok s L)
    (cs : List (Cmd F)) (hc : ∀ c ∈ cs, c.frames ≠ []) :
    written (step cfg size s (.batch cs)).1 = written s ++ number s.next (cs.flatMap (·.frames)) ∧
    (step cfg size s (.batch cs)).2 = acksOf s.next cs := by
  have hsh : ∀ (t : W F) (M : List F), Ok t M → written t = (sheet t).1 := by
    intro t M ht
    unfold written
    rw [segments_kept ht.kept]
    simp [sheet, List.flatMap_append, List.flatMap_map]
  have hnum : ∀ (n : Nat) (a b : List F), number n (a ++ b) = number n a ++ number (n + a.length) b := by
    intro n a b
    induction a generalizing n with
    | nil => simp [number]
    | cons x a ih => simp [number, ih, Nat.add_assoc, Nat.add_comm 1]
  have main : ∀ (cs : List (Cmd F)) (s : W F) (L : List F), Ok s L → (∀ c ∈ cs, c.frames ≠ []) →
      Ok (enqueueAll cfg size s cs).1 (L ++ cs.flatMap (·.frames)) ∧
      (sheet (enqueueAll cfg size s cs).1).1 = (sheet s).1 ++ number s.next (cs.flatMap (·.frames)) ∧
      (enqueueAll cfg size s cs).2 = some (acksOf s.next cs) := by
    intro cs
    induction cs with
    | nil => intro s L h _; exact ⟨by simpa [enqueueAll] using h, by simp [enqueueAll, number], rfl⟩
    | cons c cs ih =>
      intro s L h hc
      have h1 := ok_enqueue hr size h c (hc c List.mem_cons_self)
      have e := enqueue_alive hr size h c (hc c List.mem_cons_self)
      rw [e] at h1
      have hs := sheet_enqueue hr size s c
      have hnext : (recordCommit c.commit (maybeSync cfg (writeOut cfg size s c))).next = s.next + c.frames.length :=
        congrArg Prod.snd hs
      obtain ⟨i1, i2, i3⟩ := ih _ _ h1 (fun d hd => hc d (List.mem_cons_of_mem _ hd))
      simp only [enqueueAll, e]
      rw [hs] at i2
      simp only [hnext] at i2 i3
      refine ⟨by simpa [List.append_assoc] using i1, ?_, by rw [i3]; rfl⟩
      rw [i2, List.flatMap_cons, hnum, List.append_assoc]
  obtain ⟨m1, m2, m3⟩ := main cs s L h hc
  unfold step
  rw [if_neg (by rw [h.alive]; simp)]
  simp only [live]
  exact ⟨by rw [hsh _ _ m1, hsh _ _ h, m2], by rw [m3]; rfl⟩

/-- A batch during which something fails acknowledges nothing. -/
theorem failed_batch_acknowledges_nothing (cfg : Cfg) (size : F → Nat) (s : W F) (cs : List (Cmd F))
    (h : (step cfg size s (.batch cs)).1.dead = true) : (step cfg size s (.batch cs)).2 = [] := by
  unfold step at h ⊢
  cases hd : s.dead with
  | true => rfl
  | false =>
    rw [hd] at h
    simp only [Bool.false_eq_true, if_false, live] at h ⊢
    have main : ∀ (cs : List (Cmd F)) (s : W F), s.dead = false → (enqueueAll cfg size s cs).1.dead = true →
        (enqueueAll cfg size s cs).2 = none := by
      intro cs
      induction cs with
      | nil => intro s h0 h1; simp only [enqueueAll] at h1; rw [h0] at h1; cases h1
      | cons c cs ih =>
        intro s h0 h1
        by_cases hc : c.frames = []
        · simp [enqueueAll, enqueue, hc]
        · by_cases hw : (writeOut cfg size s c).dead = true
          · simp [enqueueAll, enqueue, hc, hw]
          · have hdd : (recordCommit c.commit (maybeSync cfg (writeOut cfg size s c))).dead = false := by
              unfold recordCommit maybeSync
              cases cfg.sync <;> simp only <;> split_ifs <;> simp_all [syncNow]
            simp only [enqueueAll, enqueue, if_neg hc, if_neg hw] at h1 ⊢
            rw [ih _ hdd h1]
            rfl
    rw [main cs s hd h]
    rfl

/-! ## What recovery makes of it -/

section recovery
open Tonbo.Model.Wal Tonbo.Spec.Wal Tonbo.Model.Mem Tonbo.Props.C28

variable {A K R : Type} [LinearOrder K]

/-- **C31**, up to the rows: the frames are log events. With sync policy `Always` and a flush for every
command, the memory rebuilt from what a loss of everything not fsynced leaves holds exactly the writes of the
transactions whose commit was handled before the crash. -/
theorem acknowledged_commits_are_recovered_partial (cfg : Cfg) (hr : cfg.retention = none) (ha : cfg.sync = .always)
    (size : Event A → Nat) (ops : List (WalW.Op (Event A))) (he : Encoded ops) (hp : Prompt cfg ops) (hn : NoPrune ops)
    (ext : R → Option K) (sch : Sch A K R) (pol : Nat → Bool) (cap : Nat) (t : Runs K R) (last : Option Nat)
    (h : replay ext sch pol (Runs.new cap) ((afterPowerLoss (run cfg size W.new ops).1).map Prod.snd) = some (t, last)) :
    Holds t (logWrites ext sch (submitted ops)) := by
  rw [always_is_durable_partial cfg hr ha size ops he hp hn] at h
  exact (replay_applies_exactly_the_committed ext sch pol cap _ t last h).1

end recovery

end Tonbo.Props.C31

namespace Tonbo.Props.C33
open Tonbo.Model Tonbo.Model.WalW Tonbo.Lemmas.WalW Tonbo.Props.C31

variable {F : Type}

theorem total_append (size : F → Nat) (a b : List F) : total size (a ++ b) = total size a + total size b := by
  simp [total]

theorem total_replicate (size : F → Nat) (n : Nat) (f : F) : total size (List.replicate n f) = n * size f := by
  induction n with
  | zero => simp [total]
  | succ n ih => rw [List.replicate_succ, Nat.succ_mul, ← ih]; simp [total, Nat.add_comm]

theorem rotate_big {cfg : Cfg} {limit : Nat} (hr : cfg.retention = some limit) (s : W F) (h0 : s.completed = [])
    (h1 : limit < s.bytes) (h2 : s.pruned = 0) :
    (rotate cfg s).completed = [] ∧ (rotate cfg s).active = Seg.new s.nextSeg ∧ (rotate cfg s).dead = false ∧
      (rotate cfg s).pruned = 0 ∧ (rotate cfg s).bytes = 0 := by
  have e : ∀ t : W F, t.completed = [] → t.bytes = s.bytes → t.pruned = 0 →
      evict limit 0 t.pruned (t.completed ++ [(t.active, t.bytes)]) = ([], true) := by
    intro t h4 h5 h6
    rw [h4, h5, h6]
    simp [evict, sealedBytes, h1]
  have ht : (finishSeg cfg s).completed = [] ∧ (finishSeg cfg s).bytes = s.bytes ∧ (finishSeg cfg s).pruned = 0 ∧
      (finishSeg cfg s).nextSeg = s.nextSeg := by
    unfold finishSeg
    split_ifs <;> simp [flushIf, syncNow, h0, h2]
  have := e _ ht.1 ht.2.1 ht.2.2.1
  unfold rotate retain openNext
  rw [hr]
  simp only [this]
  exact ⟨trivial, by rw [ht.2.2.2], rfl, ht.2.2.1, trivial⟩

/-- **C33 fails**, for every limit, every configuration with that limit and every frame of positive size: a command of
`limit + 1` such frames is acknowledged, the segment is rotated, and no frame is left, although nothing was
flushed to a table and nothing crashed. -/
theorem retention_loses_acknowledged_frames (cfg : Cfg) (limit : Nat) (hr : cfg.retention = some limit) (size : F → Nat)
    (f : F) (hf : 0 < size f) (commit : Option Nat) :
    let r := run cfg size W.new [.batch [⟨List.replicate (limit + 1) f, commit, true⟩], .rotate]
    r.2 = [(1, limit + 1)] ∧ written r.1 = [] := by
  intro r
  set c : Cmd F := ⟨List.replicate (limit + 1) f, commit, true⟩ with hc
  set s1 : W F := flushIf (cfg.flushZero || c.elapsed) (writeFrames size W.new c.frames) with hs1
  have hs : s1 = { (writeFrames size W.new c.frames : W F) with active := (writeFrames size W.new c.frames).active.flush } := by
    rw [hs1]
    unfold flushIf
    rw [if_pos]
    simp [hc]
  have b1 : limit < s1.bytes := by
    rw [hs]
    simp only [writeFrames, W.new, hc, total_replicate]
    calc limit < limit + 1 := by omega
      _ ≤ (limit + 1) * size f := Nat.le_mul_of_pos_right _ hf
      _ ≤ 0 + (limit + 1) * size f := by omega
  have b2 : s1.completed = [] := by rw [hs]; rfl
  have b3 : s1.pruned = 0 := by rw [hs]; rfl
  have b4 : s1.dead = false := by rw [hs]; rfl
  have hne : c.frames ≠ [] := by simp [hc, List.replicate_succ]
  have keep : ∀ t : W F, (recordCommit c.commit (maybeSync cfg t)).completed = t.completed ∧
      (recordCommit c.commit (maybeSync cfg t)).bytes = t.bytes ∧
      (recordCommit c.commit (maybeSync cfg t)).pruned = t.pruned ∧
      (recordCommit c.commit (maybeSync cfg t)).dead = t.dead ∧
      ((recordCommit c.commit (maybeSync cfg t)).active = t.active ∨
        (recordCommit c.commit (maybeSync cfg t)).active = t.active.fsync) := by
    intro t
    unfold recordCommit maybeSync
    cases cfg.sync <;> simp only <;> split_ifs <;> simp [syncNow]
  have hack : s1.next = 1 + (limit + 1) := by
    rw [hs]
    simp [writeFrames, W.new, hc]
  have hempty : ∀ (n : Nat) (t : W F), t.completed = [] → (t.active = Seg.new n ∨ t.active = (Seg.new n).fsync) →
      written t = [] := by
    intro n t h1 h2
    unfold written segments
    rw [h1]
    rcases h2 with h2 | h2 <;> rw [h2] <;> simp [Seg.new, Seg.fsync, Seg.all]
  have hdead : (W.new : W F).dead = false := rfl
  have hnext : (W.new : W F).next = 1 := rfl
  have hlen : c.frames.length = limit + 1 := by simp [hc]
  by_cases hrot : cfg.maxBytes = 0 ∨ s1.bytes < cfg.maxBytes ∨ s1.bytes = 0
  · have hw : writeOut cfg size W.new c = s1 := by
      unfold writeOut maybeRotate
      rw [if_pos hrot]
    have he : enqueue cfg size W.new c = (recordCommit c.commit (maybeSync cfg s1), some (1, limit + 1)) := by
      unfold enqueue
      rw [if_neg hne, hw, if_neg (by rw [b4]; simp), hnext, hlen]
      simp
    obtain ⟨k1, k2, k3, k4, _⟩ := keep s1
    set s2 := recordCommit c.commit (maybeSync cfg s1) with hs2
    obtain ⟨r1, r2, r3, r4, r5⟩ := rotate_big hr s2 (by rw [k1, b2]) (by rw [k2]; exact b1) (by rw [k3, b3])
    have hk4 : s2.dead = false := by rw [k4, b4]
    have hb : s2.bytes ≠ 0 := by rw [k2]; omega
    have hrun : r = (rotate cfg s2, [(1, limit + 1)]) := by
      change run cfg size W.new [WalW.Op.batch [c], .rotate] = _
      simp [run, step, live, enqueueAll, he, hdead, hk4, rotationRequest, hb]
    rw [hrun]
    exact ⟨rfl, hempty s2.nextSeg _ r1 (.inl r2)⟩
  · have hw : writeOut cfg size W.new c = rotate cfg s1 := by
      unfold writeOut maybeRotate
      rw [if_neg hrot]
    obtain ⟨r1, r2, r3, r4, r5⟩ := rotate_big hr s1 b2 b1 b3
    have he : enqueue cfg size W.new c = (recordCommit c.commit (maybeSync cfg (rotate cfg s1)), some (1, limit + 1)) := by
      unfold enqueue
      rw [if_neg hne, hw, if_neg (by rw [r3]; simp), hnext, hlen]
      simp
    obtain ⟨k1, k2, k3, k4, k5⟩ := keep (rotate cfg s1)
    set s2 := recordCommit c.commit (maybeSync cfg (rotate cfg s1)) with hs2
    have hk4 : s2.dead = false := by rw [k4, r3]
    have hb : s2.bytes = 0 := by rw [k2, r5]
    have hrun : r = (s2, [(1, limit + 1)]) := by
      change run cfg size W.new [WalW.Op.batch [c], .rotate] = _
      simp [run, step, live, enqueueAll, he, hdead, hk4, rotationRequest, hb]
    rw [r2] at k5
    rw [hrun]
    exact ⟨rfl, hempty s1.nextSeg _ (by rw [k1, r1]) k5⟩

/-- The loop removes the oldest sealed segments first and only sealed ones; if it ends without an error, the log
is within the limit or only the open segment is left. -/
theorem retention_removes_oldest (cfg : Cfg) (limit : Nat) (hr : cfg.retention = some limit) (s : W F) :
    (retain cfg s).active = s.active ∧ (retain cfg s).completed <:+ s.completed ∧
    ((retain cfg s).dead = false → sealedBytes (retain cfg s).completed + (retain cfg s).bytes ≤ limit ∨
      (retain cfg s).completed = []) := by
  unfold retain
  rw [hr]
  refine ⟨rfl, evict_suffix _ _ _ _, fun h => ?_⟩
  exact evict_bound _ _ _ _ (by simpa using h)

/-! ## Below the limit -/

/-- The recorded sizes are at least those of the frames. -/
structure Sized (size : F → Nat) (s : W F) : Prop where
  done : ∀ c ∈ s.completed, total size (c.1.all.map Prod.snd) ≤ c.2
  act : total size (s.active.all.map Prod.snd) ≤ s.bytes

/-- The size of the log as the writer counts it. -/
def volume (s : W F) : Nat := sealedBytes s.completed + s.bytes

/-- The same configuration without a limit. -/
def unlimited (cfg : Cfg) : Cfg := { cfg with retention := none }

theorem retain_small (cfg : Cfg) {limit : Nat} (hr : cfg.retention = some limit) (s : W F) (h : volume s ≤ limit)
    (hd : s.dead = false) : retain cfg s = s := by
  unfold retain
  rw [hr]
  simp only
  rw [evict_small limit s.bytes s.pruned s.completed h]
  cases s
  simp_all

theorem volume_finish (cfg : Cfg) (s : W F) : volume (openNext (finishSeg cfg s)) = volume s ∧
    (openNext (finishSeg cfg s)).dead = s.dead := by
  unfold finishSeg
  split_ifs <;> simp [volume, openNext, flushIf, syncNow, sealedBytes]

theorem sized_finish (cfg : Cfg) {size : F → Nat} {s : W F} (h : Sized size s) : Sized size (openNext (finishSeg cfg s)) := by
  have h1 : (finishSeg cfg s).completed = s.completed ∧ (finishSeg cfg s).bytes = s.bytes ∧
      (finishSeg cfg s).active.all = s.active.all := by
    unfold finishSeg
    split_ifs
    · simp [flushIf, seg_flush_all]
    · simp [flushIf, syncNow, seg_fsync_all, seg_flush_all]
  refine ⟨?_, by simp [openNext, Seg.new, Seg.all, total]⟩
  intro c hc
  simp only [openNext, List.mem_append, List.mem_singleton] at hc
  rcases hc with hc | rfl
  · exact h.done c (by rw [← h1.1]; exact hc)
  · simp only
    rw [h1.2.2, h1.2.1]
    exact h.act

theorem rotate_small (cfg : Cfg) {limit : Nat} (hr : cfg.retention = some limit) {size : F → Nat} {s : W F}
    (hs : Sized size s) (h : volume s ≤ limit) (hd : s.dead = false) :
    rotate cfg s = rotate (unlimited cfg) s ∧ Sized size (rotate cfg s) ∧ volume (rotate cfg s) = volume s ∧
      (rotate cfg s).dead = false := by
  obtain ⟨v1, v2⟩ := volume_finish cfg s
  have e : rotate cfg s = openNext (finishSeg cfg s) := retain_small cfg hr _ (by rw [v1]; exact h) (by rw [v2]; exact hd)
  refine ⟨?_, by rw [e]; exact sized_finish cfg hs, by rw [e]; exact v1, by rw [e, v2]; exact hd⟩
  rw [e]
  unfold rotate retain unlimited finishSeg
  rfl

/-- Steps that neither write nor rotate. -/
structure Same (s s' : W F) : Prop where
  completed : s'.completed = s.completed
  bytes : s'.bytes = s.bytes
  all : s'.active.all = s.active.all
  dead : s'.dead = s.dead

theorem Same.sized {size : F → Nat} {s s' : W F} (h : Same s s') (hs : Sized size s) : Sized size s' :=
  ⟨by rw [h.completed]; exact hs.done, by rw [h.all, h.bytes]; exact hs.act⟩

theorem Same.volume {s s' : W F} (h : Same s s') : C33.volume s' = C33.volume s := by
  unfold C33.volume
  rw [h.completed, h.bytes]

theorem same_syncNow (s : W F) : Same s (syncNow s) := ⟨rfl, rfl, seg_fsync_all _, rfl⟩

theorem same_flushIf (b : Bool) (s : W F) : Same s (flushIf b s) := by
  unfold flushIf
  split_ifs
  · exact ⟨rfl, rfl, seg_flush_all _, rfl⟩
  · exact ⟨rfl, rfl, rfl, rfl⟩

theorem same_maybeSync (cfg : Cfg) (s : W F) : Same s (maybeSync cfg s) := by
  unfold maybeSync
  split
  · exact same_syncNow s
  · split_ifs
    · exact same_syncNow s
    · exact ⟨rfl, rfl, rfl, rfl⟩
  · exact ⟨rfl, rfl, rfl, rfl⟩
  · exact ⟨rfl, rfl, rfl, rfl⟩

theorem same_recordCommit (c : Option Nat) (s : W F) : Same s (recordCommit c s) := by
  unfold recordCommit
  split_ifs <;> exact ⟨rfl, rfl, rfl, rfl⟩

theorem sized_write {size : F → Nat} {s : W F} (h : Sized size s) (fs : List F) : Sized size (writeFrames size s fs) := by
  refine ⟨h.done, ?_⟩
  have := h.act
  simp only [writeFrames, Seg.all, List.map_append, total_append, number_snd] at this ⊢
  omega

theorem writeOut_small (cfg : Cfg) {limit : Nat} (hr : cfg.retention = some limit) {size : F → Nat} {s : W F} (c : Cmd F)
    (hs : Sized size s) (h : volume s + total size c.frames ≤ limit) (hd : s.dead = false) :
    writeOut cfg size s c = writeOut (unlimited cfg) size s c ∧ Sized size (writeOut cfg size s c) ∧
      volume (writeOut cfg size s c) = volume s + total size c.frames ∧ (writeOut cfg size s c).dead = false := by
  have h1 := sized_write hs c.frames
  have h2 := same_flushIf (cfg.flushZero || c.elapsed) (writeFrames size s c.frames)
  have h3 := h2.sized h1
  have h4 : volume (flushIf (cfg.flushZero || c.elapsed) (writeFrames size s c.frames)) = volume s + total size c.frames := by
    rw [h2.volume]
    simp [volume, writeFrames]
    omega
  have h5 : (flushIf (cfg.flushZero || c.elapsed) (writeFrames size s c.frames)).dead = false := by
    rw [h2.dead]
    exact hd
  have hr' := rotate_small cfg hr h3 (by omega) h5
  set u : W F := flushIf (cfg.flushZero || c.elapsed) (writeFrames size s c.frames) with hu
  have e1 : writeOut cfg size s c = if cfg.maxBytes = 0 ∨ u.bytes < cfg.maxBytes ∨ u.bytes = 0 then u else rotate cfg u := rfl
  have e2 : writeOut (unlimited cfg) size s c =
      if cfg.maxBytes = 0 ∨ u.bytes < cfg.maxBytes ∨ u.bytes = 0 then u else rotate (unlimited cfg) u := rfl
  by_cases hc : cfg.maxBytes = 0 ∨ u.bytes < cfg.maxBytes ∨ u.bytes = 0
  · rw [e1, e2, if_pos hc, if_pos hc]
    exact ⟨rfl, h3, h4, h5⟩
  · rw [e1, e2, if_neg hc, if_neg hc]
    exact ⟨hr'.1, hr'.2.1, by rw [hr'.2.2.1, h4], hr'.2.2.2⟩

theorem batch_small (cfg : Cfg) {limit : Nat} (hr : cfg.retention = some limit) {size : F → Nat} (cs : List (Cmd F)) {s : W F}
    (hs : Sized size s) (h : volume s + total size (cs.flatMap (·.frames)) ≤ limit) (hd : s.dead = false) :
    enqueueAll cfg size s cs = enqueueAll (unlimited cfg) size s cs ∧ Sized size (enqueueAll cfg size s cs).1 ∧
      volume (enqueueAll cfg size s cs).1 ≤ volume s + total size (cs.flatMap (·.frames)) := by
  induction cs generalizing s with
  | nil => exact ⟨rfl, hs, by simp [enqueueAll]⟩
  | cons c cs ih =>
    simp only [List.flatMap_cons, total_append] at h
    obtain ⟨w1, w2, w3, w4⟩ := writeOut_small cfg hr c hs (by omega) hd
    by_cases hc : c.frames = []
    · have e : ∀ cfg : Cfg, enqueue cfg size s c = ({ s with dead := true }, none) := by
        intro cfg
        unfold enqueue
        rw [if_pos hc]
      simp only [enqueueAll, e]
      exact ⟨trivial, ⟨hs.done, hs.act⟩, by simp only [volume]; omega⟩
    · have e1 : enqueue cfg size s c = (recordCommit c.commit (maybeSync cfg (writeOut cfg size s c)),
          some (s.next, s.next + c.frames.length - 1)) := by
        unfold enqueue
        rw [if_neg hc, if_neg (by rw [w4]; simp)]
      have e2 : enqueue (unlimited cfg) size s c = (recordCommit c.commit (maybeSync cfg (writeOut cfg size s c)),
          some (s.next, s.next + c.frames.length - 1)) := by
        unfold enqueue
        rw [if_neg hc, ← w1, if_neg (by rw [w4]; simp)]
        rfl
      have k1 := same_maybeSync cfg (writeOut cfg size s c)
      have k2 := same_recordCommit c.commit (maybeSync cfg (writeOut cfg size s c))
      have i := ih (k2.sized (k1.sized w2)) (by rw [k2.volume, k1.volume, w3]; omega) (by rw [k2.dead, k1.dead, w4])
      simp only [enqueueAll, e1, e2]
      refine ⟨by rw [i.1], i.2.1, ?_⟩
      have := i.2.2
      rw [k2.volume, k1.volume, w3] at this
      simp only [List.flatMap_cons, total_append]
      omega

theorem total_le_of_sublist (size : F → Nat) {a b : List F} (h : a.Sublist b) : total size a ≤ total size b := by
  induction h with
  | slnil => exact Nat.le_refl _
  | cons x _ ih => simp only [total, List.map_cons, List.sum_cons] at ih ⊢; omega
  | cons_cons x _ ih => simp only [total, List.map_cons, List.sum_cons] at ih ⊢; omega

theorem lose_le (size : F → Nat) (g : Seg F) : total size (g.synced.map Prod.snd) ≤ total size (g.all.map Prod.snd) := by
  apply total_le_of_sublist
  apply List.Sublist.map
  unfold Seg.all
  rw [List.append_assoc]
  exact List.sublist_append_left _ _

theorem reopen_small (cfg : Cfg) {limit : Nat} (hr : cfg.retention = some limit) {size : F → Nat} {s : W F}
    (hs : Sized size s) (h : volume s ≤ limit) :
    reopen cfg size s = reopen (unlimited cfg) size s ∧ Sized size (reopen cfg size s) ∧
      volume (reopen cfg size s) ≤ volume s := by
  have hv : ∀ l : List (Seg F × Nat), (∀ c ∈ l, total size (c.1.all.map Prod.snd) ≤ c.2) →
      sealedBytes (((l.map Prod.fst).filter (fun g => decide (s.pruned ≤ g.seq))).map
        (fun g => (g.lose, total size (g.synced.map Prod.snd)))) ≤ sealedBytes l := by
    intro l
    induction l with
    | nil => intro _; exact Nat.le_refl _
    | cons c l ih =>
      intro hl
      have i := ih (fun d hd => hl d (List.mem_cons_of_mem _ hd))
      have h1 := Nat.le_trans (lose_le size c.1) (hl c List.mem_cons_self)
      simp only [List.map_cons, List.filter_cons]
      split_ifs
      · simp only [List.map_cons, sealedBytes, List.sum_cons] at i ⊢
        omega
      · simp only [sealedBytes, List.map_cons, List.sum_cons] at i ⊢
        omega
  have h1 := hv s.completed hs.done
  have h2 := Nat.le_trans (lose_le size s.active) hs.act
  unfold reopen
  rw [retain_small cfg hr _ (by simp only [volume] at h ⊢; omega) rfl, retain_none rfl]
  refine ⟨rfl, ⟨?_, by simp [Seg.lose, Seg.all]⟩, by simp only [volume]; omega⟩
  intro c hc
  simp only [List.mem_map] at hc
  obtain ⟨g, _, rfl⟩ := hc
  simp [Seg.lose, Seg.all]

theorem step_small (cfg : Cfg) {limit : Nat} (hr : cfg.retention = some limit) {size : F → Nat} {s : W F} (op : WalW.Op F)
    (hs : Sized size s) (h : volume s + total size (opFrames op) ≤ limit) :
    step cfg size s op = step (unlimited cfg) size s op ∧ Sized size (step cfg size s op).1 ∧
      volume (step cfg size s op).1 ≤ volume s + total size (opFrames op) := by
  unfold step
  cases hd : s.dead with
  | true =>
    simp only [if_true]
    cases op with
    | powerLoss =>
      have := reopen_small cfg hr hs (by omega)
      exact ⟨by simp only [this.1], this.2.1, by simp only; omega⟩
    | _ => exact ⟨rfl, hs, by simp only; omega⟩
  | false =>
    simp only [Bool.false_eq_true, if_false]
    have hrot : rotationRequest cfg s = rotationRequest (unlimited cfg) s ∧ Sized size (rotationRequest cfg s) ∧
        volume (rotationRequest cfg s) = volume s ∧ (rotationRequest cfg s).dead = false := by
      have := rotate_small cfg hr hs (by omega) hd
      unfold rotationRequest
      split_ifs
      · exact ⟨rfl, hs, rfl, hd⟩
      · exact this
    cases op with
    | batch cs =>
      have := batch_small cfg hr cs hs h hd
      exact ⟨by simp only [live, this.1], this.2.1, this.2.2⟩
    | rotate => exact ⟨by simp only [live, hrot.1], hrot.2.1, by simp only [live, hrot.2.2.1]; omega⟩
    | tick r y =>
      have h1 : (if r = true then rotationRequest cfg s else s) = (if r = true then rotationRequest (unlimited cfg) s else s) ∧
          Sized size (if r = true then rotationRequest cfg s else s) ∧
          volume (if r = true then rotationRequest cfg s else s) = volume s := by
        cases r
        · exact ⟨rfl, hs, rfl⟩
        · exact ⟨hrot.1, hrot.2.1, hrot.2.2.1⟩
      have k : Same (if r = true then rotationRequest cfg s else s) (tick cfg s r y) := by
        unfold tick timedSync
        by_cases c : y = true ∧ 0 < (if r = true then rotationRequest cfg s else s).since ∧
            (if r = true then rotationRequest cfg s else s).dead = false
        · rw [if_pos c]; exact same_syncNow _
        · rw [if_neg c]; exact ⟨rfl, rfl, rfl, rfl⟩
      refine ⟨by simp only [live, tick, h1.1], k.sized h1.2.1, ?_⟩
      simp only [live]
      rw [k.volume, h1.2.2]
      omega
    | shutdown =>
      have k : Same s (finishSeg cfg s) := by
        unfold finishSeg
        split_ifs
        · exact same_flushIf _ _
        · exact ⟨rfl, rfl, by simp [flushIf, syncNow, seg_fsync_all, seg_flush_all], rfl⟩
      exact ⟨rfl, k.sized hs, by simp only [live]; rw [k.volume]; omega⟩
    | drain =>
      have k : Same s { s with active := s.active.flush } := ⟨rfl, rfl, seg_flush_all _, rfl⟩
      exact ⟨rfl, k.sized hs, by simp only [live]; rw [k.volume]; omega⟩
    | writeback =>
      have k : Same s { s with active := s.active.fsync } := ⟨rfl, rfl, seg_fsync_all _, rfl⟩
      exact ⟨rfl, k.sized hs, by simp only [live]; rw [k.volume]; omega⟩
    | prune n => exact ⟨rfl, ⟨hs.done, hs.act⟩, by simp [live, volume]⟩
    | powerLoss =>
      have := reopen_small cfg hr hs (by omega)
      exact ⟨by simp only [live, this.1], this.2.1, by simp only [live]; omega⟩

/-- **C33** in part: as long as everything ever written fits into the limit, the limit changes nothing: the same
acknowledgements, the same files. Missing: every longer history, for which the claim is false. -/
theorem retention_partial (cfg : Cfg) (limit : Nat) (hr : cfg.retention = some limit) (size : F → Nat)
    (ops : List (WalW.Op F)) (h : total size (submitted ops) ≤ limit) :
    run cfg size W.new ops = run (unlimited cfg) size W.new ops := by
  have main : ∀ (ops : List (WalW.Op F)) (s : W F), Sized size s → volume s + total size (submitted ops) ≤ limit →
      run cfg size s ops = run (unlimited cfg) size s ops := by
    intro ops
    induction ops with
    | nil => intro s _ _; rfl
    | cons op ops ih =>
      intro s hs hv
      simp only [submitted, List.flatMap_cons, total_append] at hv
      have hst := step_small cfg hr op hs (by omega)
      have := ih _ hst.2.1 (by simp only [submitted]; omega)
      simp only [run]
      rw [← hst.1, this]
  exact main ops W.new ⟨(fun c hc => by cases hc), by simp [W.new, Seg.new, Seg.all, total]⟩
    (by simpa [volume, W.new, sealedBytes] using h)

/-! ## Concrete histories -/

/-- Frames that are their own sizes. -/
def exCfg (flushZero : Bool) (limit : Option Nat) : Cfg := ⟨10, flushZero, .always, limit, false⟩

/-- Two commands, a rotation forced by the first, a power loss, and a third command. -/
def exOps : List (WalW.Op Nat) :=
  [.batch [⟨[6, 7], none, false⟩, ⟨[2], some 1, false⟩], .powerLoss, .tick true true, .batch [⟨[3], some 2, false⟩]]

/-- The hypotheses of `always_is_durable_partial` and `kill_loses_nothing_partial` hold for it. -/
example : Encoded exOps ∧ Prompt (exCfg true none) exOps ∧ NoPrune exOps ∧ submitted exOps = [6, 7, 2, 3] ∧
    (run (exCfg true none) id W.new exOps).2 = [(1, 2), (3, 3), (4, 4)] := by
  refine ⟨?_, ?_, ?_, rfl, by decide +kernel⟩
  · intro cs hcs c hc
    simp only [exOps, List.mem_cons, WalW.Op.batch.injEq, reduceCtorEq, List.not_mem_nil, or_false, false_or] at hcs
    rcases hcs with rfl | rfl <;> simp at hc <;> (try rcases hc with rfl | rfl) <;> (try subst hc) <;> simp
  · intro cs _ c _
    rfl
  · intro n hn
    simp [exOps] at hn

/-- The same history without the power loss. -/
def exOn : List (WalW.Op Nat) :=
  [.batch [⟨[6, 7], none, false⟩, ⟨[2], some 1, false⟩], .tick true true, .batch [⟨[3], some 2, false⟩]]

/-- The hypotheses of `kill_loses_nothing_partial` and `shutdown_is_durable` hold for it; without the shutdown
and without prompt flushes the last frame would be lost. -/
example : Encoded exOn ∧ Prompt (exCfg true none) exOn ∧ NoPrune exOn ∧ Powered exOn ∧
    (afterKill (run (exCfg true none) id W.new exOn).1).map Prod.snd = [6, 7, 2, 3] ∧
    (afterPowerLoss (run (exCfg false none) id W.new (exOn ++ [.shutdown])).1).map Prod.snd = [6, 7, 2, 3] ∧
    (afterPowerLoss (run (exCfg false none) id W.new exOn).1).map Prod.snd = [6, 7, 2] := by
  refine ⟨?_, (fun cs _ c _ => rfl), (fun n hn => by simp [exOn] at hn), by simp [Powered, exOn], by decide +kernel,
    by decide +kernel, by decide +kernel⟩
  intro cs hcs c hc
  simp only [exOn, List.mem_cons, WalW.Op.batch.injEq, reduceCtorEq, List.not_mem_nil, or_false, false_or] at hcs
  rcases hcs with rfl | rfl <;> simp at hc <;> (try rcases hc with rfl | rfl) <;> (try subst hc) <;> simp

/-- A transaction and a later one, each followed by a power loss, the commit of the second not yet submitted. -/
def exTxns : List (WalW.Op (Tonbo.Model.Wal.Event Unit)) :=
  [.batch [⟨[.begin 1, C28.exUp 1 10 6], none, false⟩, ⟨[.commit 1 6], some 6, false⟩], .powerLoss,
   .batch [⟨[.begin 2, C28.exUp 2 20 7], none, false⟩], .powerLoss]

set_option synthInstance.maxSize 1000 in
set_option synthInstance.maxHeartbeats 200000 in
/-- The hypotheses of `acknowledged_commits_are_recovered_partial` hold for it, and the first row is recovered. -/
example : Encoded exTxns ∧ Prompt (exCfg true none) exTxns ∧ NoPrune exTxns ∧
    ((Tonbo.Model.Wal.replay C28.exExt C28.exSch (fun _ => false) (Mem.Runs.new 4)
      ((afterPowerLoss (run (exCfg true none) (fun _ => 1) W.new exTxns).1).map Prod.snd)).map
        (fun r => (Mem.scan r.1.mem none 9, r.2))) = some (some [.row ⟨10, 6⟩ 10], some 6) := by
  refine ⟨?_, (fun cs _ c _ => rfl), (fun n hn => by simp [exTxns] at hn), by decide +kernel⟩
  intro cs hcs c hc
  simp only [exTxns, List.mem_cons, WalW.Op.batch.injEq, reduceCtorEq, List.not_mem_nil, or_false, false_or] at hcs
  rcases hcs with rfl | rfl <;> simp at hc <;> (try rcases hc with rfl | rfl) <;> (try subst hc) <;> simp

/-- Two sealed segments of 6 and 7 bytes and an open one of 5; with a limit of 12 the first goes. -/
example :
    let s : W Nat := { (W.new : W Nat) with completed := [(Seg.new 0, 6), (Seg.new 1, 7)], active := Seg.new 2, bytes := 5 }
    (retain (exCfg true (some 12)) s).completed = [(Seg.new 1, 7)] ∧ (retain (exCfg true (some 12)) s).dead = false := by
  decide +kernel

/-- The same without prompt flushes: acknowledged, but after a kill the third frame is gone, the first two having
been saved by the rotation. -/
example : Encoded [WalW.Op.batch [⟨[6, 7], none, false⟩, ⟨[2], some 1, false⟩]] ∧
    (run (exCfg false none) id W.new [WalW.Op.batch [⟨[6, 7], none, false⟩, ⟨[2], some 1, false⟩]]).2 = [(1, 2), (3, 3)] ∧
    afterKill (run (exCfg false none) id W.new [WalW.Op.batch [⟨[6, 7], none, false⟩, ⟨[2], some 1, false⟩]]).1 =
      [(1, 6), (2, 7)] := by
  refine ⟨?_, by decide +kernel, by decide +kernel⟩
  intro cs hcs c hc
  simp only [List.mem_singleton, WalW.Op.batch.injEq] at hcs
  subst hcs
  simp at hc
  rcases hc with rfl | rfl <;> simp

/-- The limit counts: 18 bytes fit into 18 and not into 14. -/
example : run (exCfg true (some 18)) id W.new exOps = run (exCfg true none) id W.new exOps ∧
    (written (run (exCfg true (some 14)) id W.new exOps).1).map Prod.snd ≠ submitted exOps := by decide +kernel

/-- **C33**, the other way round: the database deletes a flushed segment (`prune`), the writer still counts it and, once
over the limit, tries to delete it again; the storage reports an error and the writer task ends. From then on no
command is acknowledged. -/
theorem pruning_and_retention_stop_the_writer :
    ∃ (cfg : Cfg) (ops : List (WalW.Op Nat)), cfg.retention ≠ none ∧ Encoded ops ∧
      (run cfg id W.new ops).1.dead = true ∧ (written (run cfg id W.new ops).1).map Prod.snd = [12] ∧
      ∀ cs, (step cfg id (run cfg id W.new ops).1 (.batch cs)).2 = [] := by
  refine ⟨exCfg true (some 20), [.batch [⟨[12], some 1, false⟩], .prune 1, .batch [⟨[12], some 2, false⟩]], by simp [exCfg], ?_,
    by decide +kernel, by decide +kernel, ?_⟩
  · intro cs hcs c hc
    simp only [List.mem_cons, WalW.Op.batch.injEq, reduceCtorEq, List.not_mem_nil, or_false, false_or] at hcs
    rcases hcs with rfl | rfl <;> simp at hc <;> subst hc <;> simp
  · intro cs
    have h : (run (exCfg true (some 20)) id W.new
        [.batch [⟨[12], some 1, false⟩], .prune 1, .batch [⟨[12], some 2, false⟩]] : W Nat × _).1.dead = true := by
      decide +kernel
    unfold step
    rw [if_pos h]

end Tonbo.Props.C33

namespace Tonbo.Props.C30
open Tonbo.Model Tonbo.Model.WalW

/-- **C30**, the state file: two commits, the one with the smaller timestamp written second (their writers drew the
timestamps in the other order). The state file then says 5, and 6 is forgotten. -/
theorem state_file_forgets_the_largest_commit :
    ∃ (ops : List (WalW.Op Nat)), (run (C33.exCfg true none) id W.new ops).2 = [(1, 1), (2, 2)] ∧
      (∃ c ∈ ops, c = .batch [⟨[1], some 6, false⟩]) ∧ (run (C33.exCfg true none) id W.new ops).1.commit = some 5 :=
  ⟨[.batch [⟨[1], some 6, false⟩], .batch [⟨[1], some 5, false⟩]], by decide +kernel, ⟨_, List.mem_cons_self, rfl⟩, by decide +kernel⟩

end Tonbo.Props.C30
