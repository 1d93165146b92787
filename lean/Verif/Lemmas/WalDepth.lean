import Verif.Lemmas.WalStats

/-! # Lemmas about the counters of the log: the disk and the depth of the queue -/

namespace Tonbo.Lemmas.WalS
open Tonbo.Model
open Tonbo.Model.WalW hiding Op run step
open Tonbo.Model.WalQ hiding Op run step turn timer
open Tonbo.Model.WalS Tonbo.Spec.WalS
open Tonbo.Lemmas.WalQ Tonbo.Lemmas.WalRules Tonbo.Lemmas.WalW

variable {F : Type} {cfg : Cfg} {size : F → Nat}

/-! ## What reaches the disk -/

/-- The frames on the disk if no file was deleted. -/
def dsk (w : W F) : List (Nat × F) := (w.completed.map Prod.fst ++ [w.active]).flatMap (·.synced)

/-- The same files with the same frames on the disk. -/
def Same (w w' : W F) : Prop := w'.pruned = w.pruned ∧ dsk w' = dsk w

theorem Same.refl (w : W F) : Same w w := ⟨rfl, rfl⟩

theorem Same.trans {a b c : W F} (h : Same a b) (h' : Same b c) : Same a c := ⟨h'.1.trans h.1, h'.2.trans h.2⟩

theorem same_disk {w w' : W F} (h : Same w w') (h0 : w.pruned = 0) : afterPowerLoss w' = afterPowerLoss w := by
  unfold afterPowerLoss
  rw [segments_kept h0, segments_kept (h.1.trans h0)]
  exact h.2

theorem same_flush (b : Bool) (w : W F) : Same w (flushIf b w) := by
  unfold flushIf
  split_ifs
  · exact ⟨rfl, by simp [dsk, Seg.flush]⟩
  · exact Same.refl w

theorem same_writeFrames (w : W F) (fs : List F) : Same w (writeFrames size w fs) := ⟨rfl, by simp [dsk, writeFrames]⟩

theorem same_finish (h : rotationSyncs cfg = false) (w : W F) : Same w (finishSeg cfg w) := by
  unfold finishSeg
  rw [if_pos (by simpa [rotationSyncs] using h)]
  exact same_flush true w

theorem same_openNext (w : W F) : Same w (openNext w) := ⟨rfl, by simp [dsk, openNext, Seg.new, List.flatMap_append]⟩

theorem same_rotate (hr : cfg.retention = none) (h : rotationSyncs cfg = false) (w : W F) : Same w (rotate cfg w) := by
  unfold rotate retain
  rw [hr]
  exact (same_finish h w).trans (same_openNext _)

theorem same_writeOut (hr : cfg.retention = none) {w : W F} {c : Cmd F} (h : rotatesSyncing cfg size w c = false) :
    Same w (writeOut cfg size w c) := by
  have h1 : Same w (beforeRotation cfg size w c) := (same_writeFrames w c.frames).trans (same_flush _ _)
  change Same w (maybeRotate cfg (beforeRotation cfg size w c))
  unfold rotatesSyncing rotationDue at h
  unfold maybeRotate
  by_cases hd : cfg.maxBytes = 0 ∨ (beforeRotation cfg size w c).bytes < cfg.maxBytes ∨ (beforeRotation cfg size w c).bytes = 0
  · rw [if_pos hd]
    exact h1
  · rw [if_neg hd]
    refine h1.trans (same_rotate hr ?_ _)
    simpa [hd] using h

theorem same_maybeSync {w : W F} (h : syncDue cfg w = false) : Same w (maybeSync cfg w) := by
  unfold maybeSync
  unfold syncDue at h
  cases hs : cfg.sync with
  | always => rw [hs] at h; cases h
  | bytes t =>
    rw [hs] at h
    simp only at h ⊢
    rw [if_neg (by simpa using h)]
    exact Same.refl w
  | time => exact Same.refl w
  | disabled => exact Same.refl w

theorem same_enqueue (hr : cfg.retention = none) {w : W F} {c : Cmd F} (h : cmdFsyncs cfg size w c = 0) :
    Same w (enqueue cfg size w c).1 := by
  unfold cmdFsyncs at h
  unfold enqueue
  by_cases h1 : c.frames = []
  · rw [if_pos h1]
    exact ⟨rfl, rfl⟩
  · rw [if_neg h1] at h ⊢
    have h2 : rotatesSyncing cfg size w c = false := by
      cases hx : rotatesSyncing cfg size w c with
      | false => rfl
      | true => rw [hx] at h; simp at h
    have h3 := same_writeOut hr h2
    by_cases hd : (writeOut cfg size w c).dead = true
    · rw [if_pos hd]
      exact h3
    · rw [if_neg hd] at h ⊢
      have h4 : syncDue cfg (writeOut cfg size w c) = false := by
        cases hx : syncDue cfg (writeOut cfg size w c) with
        | false => rfl
        | true => rw [hx] at h; simp at h
      refine (h3.trans (same_maybeSync h4)).trans ?_
      unfold recordCommit
      split_ifs
      · exact ⟨rfl, rfl⟩
      · exact Same.refl _

theorem same_enqueueAll (hr : cfg.retention = none) : ∀ (cs : List (Cmd F)) (w : W F), batchFsyncs cfg size w cs = 0 →
    Same w (enqueueAll cfg size w cs).1
  | [], w, _ => Same.refl w
  | c :: cs, w, h => by
    have key : cmdFsyncs cfg size w c = 0 → Same w (enqueue cfg size w c).1 := same_enqueue hr
    unfold batchFsyncs at h
    unfold enqueueAll
    generalize enqueue cfg size w c = r at *
    obtain ⟨w', a⟩ := r
    cases a with
    | none => exact key h
    | some a =>
      simp only at h ⊢
      have ih := same_enqueueAll hr cs w' (by omega)
      exact (key (by omega)).trans ih

theorem same_partly (hr : cfg.retention = none) (w : W F) (cs : List (Cmd F)) (n k : Nat)
    (h : batchFsyncs cfg size w (cs.take n) = 0) : Same w (partly cfg size w cs n k) := by
  have h1 := same_enqueueAll hr _ w h
  unfold partly
  cases cs.drop n with
  | nil => exact h1
  | cons c _ => exact h1.trans (same_writeFrames _ _)

theorem same_request (hr : cfg.retention = none) {w : W F} (h : requestSyncs cfg w = false) : Same w (rotationRequest cfg w) := by
  unfold requestSyncs at h
  unfold rotationRequest
  by_cases hb : w.bytes = 0
  · rw [if_pos hb]
    exact Same.refl w
  · rw [if_neg hb]
    exact same_rotate hr (by simpa [hb] using h) w

theorem same_dead (w : W F) (b : Bool) : Same w { w with dead := b } := ⟨rfl, rfl⟩

theorem same_tick (hr : cfg.retention = none) {w : W F} {r y : Bool} (h1 : (timerSyncs cfg w r y).1 = false)
    (h2 : (tick cfg w r y).dead = true ∨ (timerSyncs cfg w r y).2 = false) : Same w (tick cfg w r y) := by
  have h3 : Same w (if r then rotationRequest cfg w else w) := by
    cases r with
    | false => exact Same.refl w
    | true => exact same_request hr (by simpa [timerSyncs] using h1)
  unfold tick timedSync at *
  unfold timerSyncs at h2
  simp only at h2
  generalize (if r then rotationRequest cfg w else w) = v at *
  by_cases hc : y = true ∧ 0 < v.since ∧ v.dead = false
  · rw [if_pos hc] at h2
    rcases h2 with h2 | h2
    · simp [syncNow, hc.2.2] at h2
    · simp [hc.1, hc.2.1] at h2
  · rw [if_neg hc]
    exact h3

theorem disk_fsyncs (t : Tally) (n : Nat) : (t.disk n).fsyncs = t.fsyncs + n := rfl

theorem synced_fsyncs (t : Tally) (b : Bool) : (t.synced b).fsyncs = t.fsyncs := by
  unfold Tally.synced
  split_ifs <;> rfl

theorem same_other (hr : cfg.retention = none) {t : Tally} {q : Q F} (i : Nat) (rest : List (Nat × Msg F)) (fault : Bool) (m : Msg F)
    (h : (otherTally cfg t q.w fault m).fsyncs = t.fsyncs) : Same q.w (other cfg q fault i rest m).w := by
  cases m with
  | cmd c => exact Same.refl _
  | snapshot => exact Same.refl _
  | rotate =>
    simp only [otherTally] at h
    simp only [other]
    cases fault with
    | true => exact same_dead _ _
    | false =>
      simp only [Bool.false_or, if_false, Bool.false_eq_true] at h ⊢
      have hs : requestSyncs cfg q.w = false := by
        split_ifs at h
        all_goals
          first | rw [disk_fsyncs, synced_fsyncs] at h | rw [disk_fsyncs] at h
          cases hx : requestSyncs cfg q.w with
          | false => rfl
          | true => rw [hx] at h; simp at h
      split_ifs
      · exact (same_request hr hs).trans (same_dead _ _)
      · exact same_request hr hs

theorem other_fsyncs (t : Tally) (w : W F) (fault : Bool) (m : Msg F) : t.fsyncs ≤ (otherTally cfg t w fault m).fsyncs := by
  cases m with
  | rotate =>
    simp only [otherTally]
    split_ifs <;> (try simp only [disk_fsyncs, synced_fsyncs]) <;> omega
  | _ => exact Nat.le_refl _

theorem same_batch (hr : cfg.retention = none) {t : Tally} {q : Q F} (fault : Option (Nat × Nat)) (late : Bool)
    (cs : List (Nat × Cmd F)) (deferred : Option (Nat × Msg F)) (rest : List (Nat × Msg F))
    (h : (batchTally cfg size t q.w fault late (cs.map (·.2)) deferred).fsyncs = t.fsyncs) :
    Same q.w (batch cfg size q fault cs deferred rest).w := by
  have hfine : ∀ fault, (handledTally cfg size t q.w fault (cs.map (·.2)) deferred).fsyncs = t.fsyncs →
      Same q.w (handled cfg size q fault cs deferred rest).w := by
    intro fault h
    have hall := same_enqueueAll (size := size) hr (cs.map (·.2)) q.w
    have hw := (batchWrote_syncs (cfg := cfg) (size := size) (cs.map (·.2)) q.w t).2
    unfold handledTally at h
    unfold handled
    generalize enqueueAll cfg size q.w (cs.map (·.2)) = r at *
    obtain ⟨w', o⟩ := r
    cases o with
    | none =>
      simp only [disk_fsyncs] at h
      exact (hall (by omega)).trans (same_dead _ _)
    | some as =>
      cases deferred with
      | none =>
        simp only [disk_fsyncs, synced_fsyncs] at h
        exact hall (by omega)
      | some d =>
        obtain ⟨i, m⟩ := d
        simp only at h ⊢
        have h1 := other_fsyncs (cfg := cfg) (((batchWrote cfg size t q.w (cs.map (·.2))).synced
          (batchSynced cfg size q.w (cs.map (·.2)))).disk (batchFsyncs cfg size q.w (cs.map (·.2)))) w' fault m
        simp only [disk_fsyncs, synced_fsyncs] at h1
        refine (hall (by omega)).trans (same_other (q := { q with w := w', answers := q.answers ++ acks (cs.map (·.1)) as }) hr i rest fault m
          (t := ((batchWrote cfg size t q.w (cs.map (·.2))).synced
          (batchSynced cfg size q.w (cs.map (·.2)))).disk (batchFsyncs cfg size q.w (cs.map (·.2)))) ?_)
        simp only [disk_fsyncs, synced_fsyncs]
        omega
  unfold batchTally at h
  unfold batch
  cases fault with
  | none => exact hfine false h
  | some nk =>
    obtain ⟨n, k⟩ := nk
    simp only [List.length_map] at h ⊢
    by_cases hn : n < cs.length
    · rw [if_pos hn] at h ⊢
      simp only [disk_fsyncs] at h
      have hw := (batchWrote_syncs (cfg := cfg) (size := size) ((cs.map (·.2)).take (if late then n + 1 else n)) q.w t).2
      exact (same_partly hr q.w _ n k (by omega)).trans (same_dead _ _)
    · rw [if_neg hn] at h ⊢
      exact hfine true h

theorem same_turn (hr : cfg.retention = none) (s : S F) (l : Nat) (f : Option (Nat × Nat)) (late : Bool)
    (h : (turn cfg size s l f late).t.fsyncs = s.t.fsyncs) : Same s.q.w (turn cfg size s l f late).q.w := by
  by_cases ho : s.q.over.isSome = true
  · unfold turn
    rw [if_pos ho]
    exact Same.refl _
  · rw [turn_q]
    unfold turn at h
    unfold WalQ.turn
    rw [if_neg ho] at h ⊢
    cases hq : s.q.queue with
    | nil =>
      rw [hq] at h
      simp only at h ⊢
      by_cases hc : s.q.closed = true
      · rw [if_pos hc] at h ⊢
        unfold finishTally at h
        unfold finish
        cases f with
        | some _ => exact same_dead _ _
        | none =>
          simp only [Option.isSome_none, Bool.false_eq_true, if_false, disk_fsyncs, synced_fsyncs] at h ⊢
          refine same_finish ?_ _
          cases hx : rotationSyncs cfg with
          | false => rfl
          | true => rw [hx] at h; simp at h
      · rw [if_neg hc]
        exact Same.refl _
    | cons p rest =>
      rw [hq] at h
      obtain ⟨i, m⟩ := p
      cases m with
      | cmd c => exact same_batch hr f late ((i, c) :: (gather l 1 rest).1) _ _ h
      | rotate => exact same_other hr i rest _ _ h
      | snapshot => exact same_other hr i rest _ _ h

theorem same_timer (hr : cfg.retention = none) (s : S F) (r y f : Bool)
    (h : (timer cfg s r y f).t.fsyncs = s.t.fsyncs) : Same s.q.w (timer cfg s r y f).q.w := by
  by_cases ho : s.q.over.isSome = true
  · unfold timer
    rw [if_pos ho]
    exact Same.refl _
  · unfold timer at h ⊢
    rw [if_neg ho] at h ⊢
    simp only [timerTally] at h
    simp only [WalQ.timer]
    rw [if_neg ho]
    cases f with
    | true => exact same_dead _ _
    | false =>
      simp only [Bool.false_or, if_false, Bool.false_eq_true] at h ⊢
      by_cases hd : (tick cfg s.q.w r y).dead = true
      · rw [if_pos hd] at h ⊢
        simp only [disk_fsyncs] at h
        refine (same_tick hr ?_ (.inl hd)).trans (same_dead _ _)
        cases hx : (timerSyncs cfg s.q.w r y).1 with
        | false => rfl
        | true => rw [hx] at h; simp at h
      · rw [if_neg hd] at h ⊢
        simp only [disk_fsyncs, synced_fsyncs] at h
        cases hx : (timerSyncs cfg s.q.w r y).1 with
        | true => rw [hx] at h; simp at h
        | false =>
          cases hy : (timerSyncs cfg s.q.w r y).2 with
          | true => rw [hy] at h; simp at h
          | false => exact same_tick hr hx (.inr hy)

/-! ## The depth of the queue -/

theorem waiting_append (a b : List (Nat × Msg F)) : waiting (a ++ b) = waiting a + waiting b := by
  induction a with
  | nil => simp [waiting]
  | cons p a ih =>
    obtain ⟨i, m⟩ := p
    cases m <;> simp only [List.cons_append, waiting, ih] <;> omega

theorem waiting_cmds (cs : List (Nat × Cmd F)) : waiting (cs.map (fun p => (p.1, Msg.cmd p.2))) = cs.length := by
  induction cs with
  | nil => rfl
  | cons p cs ih => simp [waiting, ih]

theorem waiting_deferred {d : Option (Nat × Msg F)} (h : ∀ p ∈ d, ∀ c, p.2 ≠ .cmd c) : waiting d.toList = 0 := by
  cases d with
  | none => rfl
  | some p =>
    obtain ⟨i, m⟩ := p
    cases m with
    | cmd c => exact absurd rfl (h _ rfl c)
    | _ => rfl

theorem bv_add (n : Nat) : BitVec.ofNat 64 n + 1 = BitVec.ofNat 64 (n + 1) := by
  rw [BitVec.ofNat_add]
  rfl

theorem bv_sub {n k : Nat} (h : k ≤ n) : BitVec.ofNat 64 n - BitVec.ofNat 64 k = BitVec.ofNat 64 (n - k) := by
  apply BitVec.eq_of_toNat_eq
  simp only [BitVec.toNat_sub, BitVec.toNat_ofNat]
  omega

theorem bv_sub_one {n : Nat} (h : 0 < n) : BitVec.ofNat 64 n - 1 = BitVec.ofNat 64 (n - 1) := bv_sub h

/-- As long as the task runs, the depth is what waits in the channel and the callers at the door and on their way out. -/
def Deep (s : S F) : Prop := s.q.over = none → s.depth = BitVec.ofNat 64 (waiting s.q.queue + s.door + s.away)

theorem other_queue (q : Q F) (fault : Bool) (i : Nat) (rest : List (Nat × Msg F)) (m : Msg F) (hm : ∀ c, m ≠ .cmd c)
    (h : (other cfg q fault i rest m).over = none) : (other cfg q fault i rest m).queue = rest := by
  cases m with
  | cmd c => exact absurd rfl (hm c)
  | snapshot => rfl
  | rotate =>
    simp only [other] at h ⊢
    by_cases hd : (fault || (rotationRequest cfg q.w).dead) = true
    · rw [if_pos hd] at h
      cases h
    · rw [if_neg hd]

theorem batch_queue (q : Q F) (fault : Option (Nat × Nat)) (cs : List (Nat × Cmd F)) (deferred : Option (Nat × Msg F))
    (rest : List (Nat × Msg F)) (hd : ∀ p ∈ deferred, ∀ c, p.2 ≠ .cmd c) (h : (batch cfg size q fault cs deferred rest).over = none) :
    (batch cfg size q fault cs deferred rest).queue = rest := by
  have hh : ∀ fault, (handled cfg size q fault cs deferred rest).over = none →
      (handled cfg size q fault cs deferred rest).queue = rest := by
    intro fault h
    unfold handled at h ⊢
    generalize enqueueAll cfg size q.w (cs.map (·.2)) = r at *
    obtain ⟨w', o⟩ := r
    cases o with
    | none => cases h
    | some as =>
      cases deferred with
      | none => rfl
      | some d => exact other_queue _ _ _ _ _ (hd _ rfl) h
  unfold batch at h ⊢
  cases fault with
  | none => exact hh false h
  | some nk =>
    obtain ⟨n, k⟩ := nk
    simp only at h ⊢
    by_cases hn : n < cs.length
    · rw [if_pos hn] at h
      cases h
    · rw [if_neg hn] at h ⊢
      exact hh true h

theorem deep_turn {s : S F} (h : Deep s) (l : Nat) (f : Option (Nat × Nat)) (late : Bool) : Deep (turn cfg size s l f late) := by
  intro h1
  rw [turn_q] at h1 ⊢
  by_cases ho : s.q.over.isSome = true
  · rw [turn_over ho] at h1
    rw [h1] at ho
    cases ho
  · have h0 : s.q.over = none := by simpa using ho
    have hd := h h0
    unfold turn
    unfold WalQ.turn at h1 ⊢
    rw [if_neg ho] at h1 ⊢
    rw [if_neg ho]
    cases hq : s.q.queue with
    | nil =>
      rw [hq] at h1
      simp only at h1 ⊢
      by_cases hc : s.q.closed = true
      · rw [if_pos hc] at h1
        unfold finish at h1
        split_ifs at h1 <;> cases h1
      · rw [if_neg hc, if_neg hc]
        exact hd
    | cons p rest =>
      rw [hq] at h1 hd
      obtain ⟨i, m⟩ := p
      cases m with
      | cmd c =>
        simp only at h1 ⊢
        rw [batch_queue _ _ _ _ _ (gather_deferred l 1 rest) h1]
        have e : waiting rest = (gather l 1 rest).1.length + waiting (gather l 1 rest).2.2 := by
          conv_lhs => rw [gather_queue l 1 rest]
          rw [waiting_append, waiting_append, waiting_cmds, waiting_deferred (gather_deferred l 1 rest)]
          omega
        simp only [S.first, hd, waiting, e]
        rw [bv_sub_one (by omega), bv_sub (by omega)]
        congr 1
        omega
      | rotate =>
        simp only at h1 ⊢
        rw [other_queue _ _ _ _ _ (fun c => by simp) h1, hd]
        simp [waiting]
      | snapshot =>
        simp only at h1 ⊢
        rw [other_queue _ _ _ _ _ (fun c => by simp) h1, hd]
        simp [waiting]

theorem deep_step {s : S F} (h : Deep s) (o : Op F) (h1 : ∀ c, o = .send (.cmd c) → 0 < s.door) (h2 : o = .leave → 0 < s.away) :
    Deep (step cfg size s o) := by
  cases o with
  | arrive =>
    intro h0
    simp only [step]
    rw [h h0]
    rw [bv_add]
    congr 1
    omega
  | leave =>
    intro h0
    have := h2 rfl
    simp only [step]
    rw [h h0]
    rw [bv_sub_one (by omega)]
    congr 1
    omega
  | send m =>
    cases m with
    | cmd c =>
      intro h0
      have hd := h1 c rfl
      have h0' : s.q.over = none := by
        simp only [step, submit] at h0
        split_ifs at h0 <;> exact h0
      simp only [step, submit]
      rw [h h0']
      congr 1
      by_cases hc : (s.q.closed || s.q.over.isSome) = true
      · rw [if_pos hc, if_pos (show shut s.q = true from hc)]
        simp only
        omega
      · rw [if_neg hc, if_neg (show ¬ shut s.q = true from hc)]
        simp only [waiting_append, waiting]
        omega
    | rotate =>
      intro h0
      have h0' : s.q.over = none := by
        simp only [step, submit] at h0
        split_ifs at h0 <;> exact h0
      simp only [step, submit]
      rw [h h0']
      split_ifs
      · rfl
      · simp [waiting_append, waiting]
    | snapshot =>
      intro h0
      have h0' : s.q.over = none := by
        simp only [step, submit] at h0
        split_ifs at h0 <;> exact h0
      simp only [step, submit]
      rw [h h0']
      split_ifs
      · rfl
      · simp [waiting_append, waiting]
  | close => exact h
  | shutdown => exact h
  | drain => exact h
  | writeback => exact h
  | turn l f late => exact deep_turn h l f late
  | timer r y f =>
    intro h0
    simp only [step, timer] at h0 ⊢
    by_cases ho : s.q.over.isSome = true
    · rw [if_pos ho] at h0 ⊢
      exact h h0
    · rw [if_neg ho] at h0 ⊢
      simp only [WalQ.timer] at h0 ⊢
      rw [if_neg ho] at h0 ⊢
      split_ifs at h0 ⊢
      all_goals first
        | (cases h0; done)
        | exact h h0
  | report =>
    simp only [step]
    split_ifs
    · exact h
    · exact h

theorem deep_run : ∀ (os : List (Op F)) (s : S F), Deep s → Orderly cfg size s os → Deep (run cfg size s os)
  | [], _, h, _ => h
  | o :: os, s, h, ⟨h1, h2, h3⟩ => deep_run os _ (deep_step h o h1 h2) h3

theorem deep_new : Deep (S.new : S F) := fun _ => rfl

/-- After the end of the task nothing but callers moves the depth. -/
def Calm (s : S F) : Prop := s.q.over = some true ∧ s.depth = BitVec.ofNat 64 (s.door + s.away)

theorem calm_step {s : S F} (h : Calm s) (o : Op F) (h1 : ∀ c, o = .send (.cmd c) → 0 < s.door) (h2 : o = .leave → 0 < s.away) :
    Calm (step cfg size s o) := by
  obtain ⟨h0, hd⟩ := h
  have ho : s.q.over.isSome = true := by rw [h0]; rfl
  cases o with
  | arrive =>
    refine ⟨h0, ?_⟩
    simp only [step]
    rw [hd]
    rw [bv_add]
    congr 1
    omega
  | leave =>
    have := h2 rfl
    refine ⟨h0, ?_⟩
    simp only [step]
    rw [hd]
    rw [bv_sub_one (by omega)]
    congr 1
    omega
  | send m =>
    have e : (submit s.q m).over = some true := by
      unfold submit
      split_ifs <;> exact h0
    cases m with
    | cmd c =>
      have := h1 c rfl
      refine ⟨e, ?_⟩
      simp only [step, shut, ho, Bool.or_true, if_true]
      rw [hd]
      congr 1
      omega
    | rotate => exact ⟨e, hd⟩
    | snapshot => exact ⟨e, hd⟩
  | close => exact ⟨h0, hd⟩
  | shutdown => exact ⟨h0, hd⟩
  | drain => exact ⟨h0, hd⟩
  | writeback => exact ⟨h0, hd⟩
  | turn l f late =>
    simp only [step, turn, ho, if_true]
    exact ⟨h0, hd⟩
  | timer r y f =>
    simp only [step, timer, ho, if_true]
    exact ⟨h0, hd⟩
  | report =>
    simp only [step]
    split_ifs
    · exact ⟨h0, hd⟩
    · exact ⟨h0, hd⟩

theorem calm_run : ∀ (os : List (Op F)) (s : S F), Calm s → Orderly cfg size s os → Calm (run cfg size s os)
  | [], _, h, _ => h
  | o :: os, s, h, ⟨h1, h2, h3⟩ => calm_run os _ (calm_step h o h1 h2) h3

theorem wrote_depth (t : Tally) (n : Nat) : (t.wrote n).depth = t.depth := by
  unfold Tally.wrote
  split_ifs <;> rfl

theorem synced_depth (t : Tally) (b : Bool) : (t.synced b).depth = t.depth := by
  unfold Tally.synced
  split_ifs <;> rfl

theorem batchWrote_depth : ∀ (cs : List (Cmd F)) (w : W F) (t : Tally), (batchWrote cfg size t w cs).depth = t.depth
  | [], _, _ => rfl
  | c :: cs, w, t => by
    unfold batchWrote
    generalize enqueue cfg size w c = r
    obtain ⟨w', a⟩ := r
    cases a with
    | none => rfl
    | some a => exact (batchWrote_depth cs w' _).trans (wrote_depth _ _)

theorem otherTally_depth (t : Tally) (w : W F) (f : Bool) (m : Msg F) : (otherTally cfg t w f m).depth = t.depth := by
  cases m with
  | rotate =>
    simp only [otherTally]
    split_ifs
    · rfl
    · rfl
    · exact synced_depth _ _
  | _ => rfl

theorem handledTally_depth (t : Tally) (w : W F) (f : Bool) (cs : List (Cmd F)) (d : Option (Nat × Msg F)) :
    (handledTally cfg size t w f cs d).depth = t.depth := by
  unfold handledTally
  generalize enqueueAll cfg size w cs = r
  obtain ⟨w', a⟩ := r
  cases a with
  | none => exact batchWrote_depth _ _ _
  | some as =>
    cases d with
    | none => exact (synced_depth _ _).trans (batchWrote_depth _ _ _)
    | some d => exact (otherTally_depth _ _ _ _).trans ((synced_depth _ _).trans (batchWrote_depth _ _ _))

theorem batchTally_depth (t : Tally) (w : W F) (f : Option (Nat × Nat)) (late : Bool) (cs : List (Cmd F))
    (d : Option (Nat × Msg F)) : (batchTally cfg size t w f late cs d).depth = t.depth := by
  unfold batchTally
  cases f with
  | none => exact handledTally_depth _ _ _ _ _
  | some nk =>
    obtain ⟨n, k⟩ := nk
    simp only
    by_cases hn : n < cs.length
    · rw [if_pos hn]
      exact batchWrote_depth _ _ _
    · rw [if_neg hn]
      exact handledTally_depth _ _ _ _ _

theorem ending_step {s : S F} (h0 : s.q.over = some true) (he : s.ending = true) (o : Op F) (hr : o ≠ .report) :
    (step cfg size s o).ending = true := by
  have ho : s.q.over.isSome = true := by rw [h0]; rfl
  cases o with
  | send m => cases m <;> exact he
  | turn l f late =>
    simp only [step, turn, ho, if_true]
    exact he
  | timer r y f =>
    simp only [step, timer, ho, if_true]
    exact he
  | report => exact absurd rfl hr
  | _ => exact he

theorem ending_run : ∀ (os : List (Op F)) (s : S F), Calm s → s.ending = true → Orderly cfg size s os → Op.report ∉ os →
    (run cfg size s os).ending = true
  | [], _, _, he, _, _ => he
  | o :: os, s, h, he, ⟨h1, h2, h3⟩, hn =>
    ending_run os _ (calm_step h o h1 h2) (ending_step h.1 he o (fun e => hn (e ▸ List.mem_cons_self ..))) h3
      (fun hm => hn (List.mem_cons_of_mem _ hm))

theorem orderly_append : ∀ (a b : List (Op F)) (s : S F), Orderly cfg size s (a ++ b) →
    Orderly cfg size s a ∧ Orderly cfg size (run cfg size s a) b
  | [], _, _, h => ⟨trivial, h⟩
  | o :: a, b, s, ⟨h1, h2, h3⟩ => ⟨⟨h1, h2, (orderly_append a b _ h3).1⟩, (orderly_append a b _ h3).2⟩

end Tonbo.Lemmas.WalS
