import Verif.Model.WalQueue

/-!
# A writer with a retention limit, and the same writer without one
-/

namespace Tonbo.Lemmas.WalRetain
open Tonbo.Model Tonbo.Model.WalW Tonbo.Model.WalQ

variable {F : Type}

/-- The same configuration without a limit. -/
def free (cfg : WalW.Cfg) : WalW.Cfg := { cfg with retention := none }

/-- The first writer has forgotten some of the oldest sealed segments of the second, no more than the limit asks for;
nothing was pruned. -/
structure Less (cfg : WalW.Cfg) (a b : W F) : Prop where
  same : ({ a with completed := b.completed } : W F) = b
  tail : a.completed <:+ b.completed
  kept : a.pruned = 0
  need : ∀ t g, b.completed = t ++ g :: a.completed →
    ∃ limit, cfg.retention = some limit ∧ limit < g.2 + sealedBytes a.completed + a.bytes

variable {cfg : WalW.Cfg}

theorem Less.active {a b : W F} (h : Less cfg a b) : a.active = b.active := by rw [← h.same]
theorem Less.bytes {a b : W F} (h : Less cfg a b) : a.bytes = b.bytes := by rw [← h.same]
theorem Less.since {a b : W F} (h : Less cfg a b) : a.since = b.since := by rw [← h.same]
theorem Less.next {a b : W F} (h : Less cfg a b) : a.next = b.next := by rw [← h.same]
theorem Less.nextSeg {a b : W F} (h : Less cfg a b) : a.nextSeg = b.nextSeg := by rw [← h.same]
theorem Less.commit {a b : W F} (h : Less cfg a b) : a.commit = b.commit := by rw [← h.same]
theorem Less.pruned {a b : W F} (h : Less cfg a b) : a.pruned = b.pruned := by rw [← h.same]
theorem Less.dead {a b : W F} (h : Less cfg a b) : a.dead = b.dead := by rw [← h.same]

theorem less_mk {a b : W F} (h1 : a.active = b.active) (h2 : a.bytes = b.bytes) (h3 : a.since = b.since)
    (h4 : a.next = b.next) (h5 : a.nextSeg = b.nextSeg) (h6 : a.commit = b.commit) (h7 : a.pruned = b.pruned)
    (h8 : a.dead = b.dead) (ht : a.completed <:+ b.completed) (h0 : a.pruned = 0)
    (hn : ∀ t g, b.completed = t ++ g :: a.completed →
      ∃ limit, cfg.retention = some limit ∧ limit < g.2 + sealedBytes a.completed + a.bytes) : Less cfg a b := by
  refine ⟨?_, ht, h0, hn⟩
  cases a
  cases b
  simp only at *
  subst_vars
  rfl

theorem less_new : Less cfg (W.new : W F) W.new :=
  ⟨rfl, List.suffix_rfl, rfl, fun t g h => by simp [W.new] at h⟩

theorem evict_zero (limit active : Nat) : ∀ cs : List (Seg F × Nat), ∃ gone,
    (evict limit active 0 cs).2 = true ∧ cs = gone ++ (evict limit active 0 cs).1 ∧
      ∀ t g, gone = t ++ [g] → limit < g.2 + sealedBytes (evict limit active 0 cs).1 + active
  | [] => ⟨[], rfl, rfl, fun t g h => by simp at h⟩
  | c :: cs => by
    simp only [evict]
    split
    · rename_i hl
      rw [if_neg (Nat.not_lt_zero _)]
      obtain ⟨gone, h1, h2, h3⟩ := evict_zero limit active cs
      refine ⟨c :: gone, h1, by rw [List.cons_append, ← h2], fun t g e => ?_⟩
      cases t with
      | nil =>
        simp only [List.nil_append, List.cons.injEq] at e
        obtain ⟨rfl, rfl⟩ := e
        simp only [List.nil_append] at h2
        rw [← h2]
        simp only [sealedBytes, List.map_cons, List.sum_cons] at hl ⊢
        exact hl
      | cons x t =>
        simp only [List.cons_append, List.cons.injEq] at e
        exact h3 t g e.2
    · exact ⟨[], rfl, rfl, fun t g h => by simp at h⟩

theorem less_writeFrames (size : F → Nat) {a b : W F} (h : Less cfg a b) (fs : List F) :
    Less cfg (writeFrames size a fs) (writeFrames size b fs) := by
  refine less_mk ?_ ?_ ?_ ?_ h.nextSeg h.commit h.pruned h.dead h.tail h.kept ?_
  · simp [writeFrames, h.active, h.next]
  · simp [writeFrames, h.bytes]
  · simp [writeFrames, h.since]
  · simp [writeFrames, h.next]
  · intro t g e
    obtain ⟨limit, h1, h2⟩ := h.need t g e
    exact ⟨limit, h1, by simp only [writeFrames]; omega⟩

theorem less_flushIf (due : Bool) {a b : W F} (h : Less cfg a b) : Less cfg (flushIf due a) (flushIf due b) := by
  unfold flushIf
  split
  · exact less_mk (by simp [h.active]) h.bytes h.since h.next h.nextSeg h.commit h.pruned h.dead h.tail h.kept h.need
  · exact h

theorem less_syncNow {a b : W F} (h : Less cfg a b) : Less cfg (syncNow a) (syncNow b) :=
  less_mk (by simp [syncNow, h.active]) h.bytes rfl h.next h.nextSeg h.commit h.pruned h.dead h.tail h.kept h.need

theorem less_finishSeg {a b : W F} (h : Less cfg a b) : Less cfg (finishSeg cfg a) (finishSeg (free cfg) b) := by
  unfold finishSeg
  change Less cfg (if cfg.sync = .disabled then _ else _) (if cfg.sync = .disabled then _ else _)
  split
  · exact less_flushIf true h
  · exact less_syncNow (less_flushIf true h)

theorem suffix_snoc {α : Type} {a b : List α} (h : a <:+ b) (x : α) : a ++ [x] <:+ b ++ [x] := by
  obtain ⟨t, rfl⟩ := h
  exact ⟨t, by rw [List.append_assoc]⟩

theorem less_openNext {a b : W F} (h : Less cfg a b) : Less cfg (openNext a) (openNext b) := by
  refine less_mk ?_ rfl h.since h.next ?_ h.commit h.pruned h.dead ?_ h.kept ?_
  · simp [openNext, h.nextSeg]
  · simp [openNext, h.nextSeg]
  · simp only [openNext, h.active, h.bytes]
    exact suffix_snoc h.tail _
  · intro t g e
    simp only [openNext, h.active, h.bytes] at e ⊢
    rw [← List.cons_append, ← List.append_assoc] at e
    obtain ⟨limit, h1, h2⟩ := h.need t g (List.append_cancel_right e)
    refine ⟨limit, h1, ?_⟩
    simp only [sealedBytes, List.map_append, List.sum_append, List.map_cons, List.map_nil, List.sum_cons, List.sum_nil] at h2 ⊢
    rw [h.bytes] at h2
    omega

theorem less_retain {a b : W F} (h : Less cfg a b) (hd : a.dead = false) : Less cfg (retain cfg a) b := by
  unfold retain
  cases hr : cfg.retention with
  | none => exact h
  | some limit =>
    obtain ⟨gone, h1, h2, h3⟩ := evict_zero limit a.bytes a.completed
    refine less_mk h.active h.bytes h.since h.next h.nextSeg h.commit h.pruned ?_ ?_ h.kept ?_
    · simp only [h.kept, h1, ← h.dead, hd]
      rfl
    · simp only [h.kept]
      exact List.IsSuffix.trans ⟨gone, h2.symm⟩ h.tail
    · intro t g e
      simp only [h.kept] at e ⊢
      generalize (evict limit a.bytes 0 a.completed).1 = r at *
      rcases List.eq_nil_or_concat gone with rfl | ⟨gone', g', rfl⟩
      · rw [List.nil_append] at h2
        rw [← h2] at e ⊢
        exact h.need t g e
      · obtain ⟨u, hu⟩ := h.tail
        have e2 := e
        rw [← hu, h2] at e2
        have e3 : (u ++ gone' ++ [g']) = t ++ [g] := by
          apply List.append_cancel_right (bs := r)
          simpa [List.append_assoc] using e2
        have e4 : g' = g := by
          have := congrArg List.getLast? e3
          simpa using this
        subst e4
        exact ⟨limit, hr, h3 gone' g' (by simp)⟩

theorem finishSeg_dead (cfg : WalW.Cfg) (s : W F) : (finishSeg cfg s).dead = s.dead := by
  unfold finishSeg flushIf syncNow
  split <;> rfl

theorem less_rotate {a b : W F} (h : Less cfg a b) (hd : a.dead = false) :
    Less cfg (rotate cfg a) (rotate (free cfg) b) ∧ (rotate (free cfg) b).dead = false := by
  have hb : (rotate (free cfg) b).dead = false := by
    change (openNext (finishSeg (free cfg) b)).dead = false
    simp only [openNext]
    rw [finishSeg_dead, ← h.dead, hd]
  refine ⟨?_, hb⟩
  exact less_retain (less_openNext (less_finishSeg h)) (by simp only [openNext]; rw [finishSeg_dead, hd])

theorem less_maybeRotate {a b : W F} (h : Less cfg a b) (hd : a.dead = false) :
    Less cfg (maybeRotate cfg a) (maybeRotate (free cfg) b) ∧ (maybeRotate (free cfg) b).dead = false := by
  unfold maybeRotate
  rw [← h.bytes]
  change Less cfg (if cfg.maxBytes = 0 ∨ a.bytes < cfg.maxBytes ∨ a.bytes = 0 then _ else _)
    (if cfg.maxBytes = 0 ∨ a.bytes < cfg.maxBytes ∨ a.bytes = 0 then _ else _) ∧
    (if cfg.maxBytes = 0 ∨ a.bytes < cfg.maxBytes ∨ a.bytes = 0 then _ else _ : W F).dead = false
  split
  · exact ⟨h, by rw [← h.dead, hd]⟩
  · exact less_rotate h hd

theorem less_maybeSync {a b : W F} (h : Less cfg a b) : Less cfg (maybeSync cfg a) (maybeSync (free cfg) b) := by
  unfold maybeSync
  change Less cfg _ (match cfg.sync with | .always => _ | .bytes t => _ | .time => _ | .disabled => _)
  rw [← h.since]
  cases cfg.sync with
  | always => exact less_syncNow h
  | bytes t =>
    simp only
    split
    · exact less_syncNow h
    · exact h
  | time => exact h
  | disabled => exact h

theorem maybeSync_dead (cfg : WalW.Cfg) (s : W F) : (maybeSync cfg s).dead = s.dead := by
  unfold maybeSync
  cases cfg.sync with
  | bytes t => simp only; split <;> rfl
  | _ => rfl

theorem less_recordCommit (c : Option Nat) {a b : W F} (h : Less cfg a b) : Less cfg (recordCommit c a) (recordCommit c b) := by
  unfold recordCommit
  split
  · exact less_mk h.active h.bytes h.since h.next h.nextSeg rfl h.pruned h.dead h.tail h.kept h.need
  · exact h

theorem recordCommit_dead (c : Option Nat) (s : W F) : (recordCommit c s).dead = s.dead := by
  unfold recordCommit
  split <;> rfl

theorem less_dead {a b : W F} (h : Less cfg a b) : Less cfg { a with dead := true } { b with dead := true } :=
  less_mk h.active h.bytes h.since h.next h.nextSeg h.commit h.pruned rfl h.tail h.kept h.need

theorem less_writeOut (size : F → Nat) {a b : W F} (h : Less cfg a b) (hd : a.dead = false) (c : WalW.Cmd F) :
    Less cfg (writeOut cfg size a c) (writeOut (free cfg) size b c) ∧ (writeOut (free cfg) size b c).dead = false := by
  unfold writeOut
  refine less_maybeRotate (less_flushIf _ (less_writeFrames size h _)) ?_
  unfold flushIf writeFrames
  split <;> exact hd

theorem less_enqueue (size : F → Nat) {a b : W F} (h : Less cfg a b) (hd : a.dead = false) (c : WalW.Cmd F) :
    Less cfg (enqueue cfg size a c).1 (enqueue (free cfg) size b c).1 ∧
      (enqueue cfg size a c).2 = (enqueue (free cfg) size b c).2 ∧
      ((enqueue (free cfg) size b c).2 ≠ none → (enqueue (free cfg) size b c).1.dead = false) := by
  obtain ⟨h1, h2⟩ := less_writeOut size h hd c
  unfold enqueue
  by_cases hc : c.frames = []
  · rw [if_pos hc, if_pos hc]
    exact ⟨less_dead h, rfl, fun e => absurd rfl e⟩
  · rw [if_neg hc, if_neg hc, h1.dead, h2]
    refine ⟨less_recordCommit _ (less_maybeSync h1), by simp [h.next], fun _ => ?_⟩
    simp only [Bool.false_eq_true, if_false]
    rw [recordCommit_dead, maybeSync_dead, h2]

theorem less_enqueueAll (size : F → Nat) : ∀ (cs : List (WalW.Cmd F)) {a b : W F}, Less cfg a b → a.dead = false →
    Less cfg (enqueueAll cfg size a cs).1 (enqueueAll (free cfg) size b cs).1 ∧
      (enqueueAll cfg size a cs).2 = (enqueueAll (free cfg) size b cs).2 ∧
      ((enqueueAll (free cfg) size b cs).2 ≠ none → (enqueueAll (free cfg) size b cs).1.dead = false)
  | [], _, _, h, hd => ⟨h, rfl, fun _ => h.dead.symm.trans hd⟩
  | c :: cs, a, b, h, hd => by
    obtain ⟨h1, h2, h3⟩ := less_enqueue size h hd c
    simp only [enqueueAll]
    generalize enqueue cfg size a c = r at *
    generalize enqueue (free cfg) size b c = r0 at *
    obtain ⟨a', x⟩ := r
    obtain ⟨b', x0⟩ := r0
    simp only at h1 h2 h3
    subst h2
    cases x with
    | none => exact ⟨h1, rfl, fun e => absurd rfl e⟩
    | some v =>
      obtain ⟨i1, i2, i3⟩ := less_enqueueAll size cs h1 (by rw [h1.dead]; exact h3 (by simp))
      simp only
      generalize enqueueAll cfg size a' cs = r at *
      generalize enqueueAll (free cfg) size b' cs = r0 at *
      obtain ⟨a'', y⟩ := r
      obtain ⟨b'', y0⟩ := r0
      simp only at i1 i2 i3 ⊢
      subst i2
      refine ⟨i1, rfl, fun e => i3 (fun e' => e (by rw [e']; rfl))⟩

theorem less_rotationRequest {a b : W F} (h : Less cfg a b) (hd : a.dead = false) :
    Less cfg (rotationRequest cfg a) (rotationRequest (free cfg) b) ∧ (rotationRequest (free cfg) b).dead = false := by
  unfold rotationRequest
  rw [h.bytes]
  split
  · exact ⟨h, by rw [← h.dead, hd]⟩
  · exact less_rotate h hd

theorem less_tick {a b : W F} (h : Less cfg a b) (hd : a.dead = false) (r y : Bool) :
    Less cfg (tick cfg a r y) (tick (free cfg) b r y) ∧ (tick (free cfg) b r y).dead = false := by
  have h1 : Less cfg (if r then rotationRequest cfg a else a) (if r then rotationRequest (free cfg) b else b) ∧
      (if r then rotationRequest (free cfg) b else b).dead = false := by
    split
    · exact less_rotationRequest h hd
    · exact ⟨h, by rw [← h.dead, hd]⟩
  unfold tick
  generalize (if r then rotationRequest cfg a else a) = a' at *
  generalize (if r then rotationRequest (free cfg) b else b) = b' at *
  obtain ⟨h2, h3⟩ := h1
  unfold timedSync
  rw [h2.since, h2.dead]
  split
  · exact ⟨less_syncNow h2, h3⟩
  · exact ⟨h2, h3⟩

/-- The task with the limit and the task without one. -/
structure Sim (cfg : WalW.Cfg) (q p : Q F) : Prop where
  w : Less cfg q.w p.w
  queue : q.queue = p.queue
  closed : q.closed = p.closed
  over : q.over = p.over
  taken : q.taken = p.taken
  calls : q.calls = p.calls
  answers : q.answers = p.answers
  alive : p.over = none → p.w.dead = false

theorem sim_new : Sim cfg (Q.new : Q F) Q.new := ⟨less_new, rfl, rfl, rfl, rfl, rfl, rfl, fun _ => rfl⟩

theorem sim_fail {q p : Q F} (h : Sim cfg q p) {a b : W F} (hw : Less cfg a b) (f d : List Nat) : Sim cfg (fail q a f d) (fail p b f d) := by
  refine ⟨less_dead hw, rfl, h.closed, rfl, h.taken, h.calls, ?_, fun e => by simp [fail] at e⟩
  simp only [fail, h.answers]

theorem sim_other {q p : Q F} (h : Sim cfg q p) (hd : q.w.dead = false) (ho : p.over = none) (fault : Bool) (i : Nat)
    (rest : List (Nat × Msg F)) (m : Msg F) : Sim cfg (other cfg q fault i rest m) (other (free cfg) p fault i rest m) := by
  cases m with
  | cmd c => exact h
  | snapshot =>
    exact ⟨h.w, rfl, h.closed, h.over, h.taken, h.calls, by simp only [other, h.answers], h.alive⟩
  | rotate =>
    obtain ⟨h1, h2⟩ := less_rotationRequest h.w hd
    simp only [other]
    rw [h1.dead, h2]
    cases fault with
    | true => exact sim_fail h h.w _ _
    | false => exact ⟨h1, rfl, h.closed, h.over, h.taken, h.calls, by simp only [Bool.or_self, Bool.false_eq_true, if_false, h.answers], fun _ => h2⟩

theorem sim_handled (size : F → Nat) {q p : Q F} (h : Sim cfg q p) (hd : q.w.dead = false) (ho : p.over = none)
    (fault : Bool) (cs : List (Nat × WalW.Cmd F)) (deferred : Option (Nat × Msg F)) (rest : List (Nat × Msg F)) :
    Sim cfg (handled cfg size q fault cs deferred rest) (handled (free cfg) size p fault cs deferred rest) := by
  obtain ⟨h1, h2, h3⟩ := less_enqueueAll size (cs.map (·.2)) h.w hd
  unfold handled
  generalize enqueueAll cfg size q.w (cs.map (·.2)) = r at *
  generalize enqueueAll (free cfg) size p.w (cs.map (·.2)) = r0 at *
  obtain ⟨a, x⟩ := r
  obtain ⟨b, x0⟩ := r0
  simp only at h1 h2 h3
  subst h2
  cases x with
  | none => exact sim_fail h h1 _ _
  | some as =>
    have hb := h3 (by simp)
    cases deferred with
    | none => exact ⟨h1, rfl, h.closed, h.over, h.taken, h.calls, by simp only [h.answers], fun _ => hb⟩
    | some im =>
      obtain ⟨i, m⟩ := im
      exact sim_other (q := { q with w := a, answers := q.answers ++ acks (cs.map (·.1)) as })
        (p := { p with w := b, answers := p.answers ++ acks (cs.map (·.1)) as })
        ⟨h1, h.queue, h.closed, h.over, h.taken, h.calls, by simp only [h.answers], fun _ => hb⟩
        (by rw [h1.dead]; exact hb) ho fault i rest m

theorem less_partly (size : F → Nat) {a b : W F} (h : Less cfg a b) (hd : a.dead = false) (cs : List (WalW.Cmd F))
    (n k : Nat) : Less cfg (partly cfg size a cs n k) (partly (free cfg) size b cs n k) := by
  obtain ⟨h1, -, -⟩ := less_enqueueAll size (cs.take n) h hd
  unfold partly
  cases cs.drop n with
  | nil => exact h1
  | cons c _ => exact less_writeFrames size h1 _

theorem sim_batch (size : F → Nat) {q p : Q F} (h : Sim cfg q p) (hd : q.w.dead = false) (ho : p.over = none)
    (fault : Option (Nat × Nat)) (cs : List (Nat × WalW.Cmd F)) (deferred : Option (Nat × Msg F)) (rest : List (Nat × Msg F)) :
    Sim cfg (batch cfg size q fault cs deferred rest) (batch (free cfg) size p fault cs deferred rest) := by
  cases fault with
  | none => exact sim_handled size h hd ho _ _ _ _
  | some nk =>
    obtain ⟨n, k⟩ := nk
    simp only [batch]
    split
    · exact sim_fail h (less_partly size h.w hd _ n k) _ _
    · exact sim_handled size h hd ho _ _ _ _

theorem sim_step (size : F → Nat) {q p : Q F} (h : Sim cfg q p) (o : WalQ.Op F) :
    Sim cfg (WalQ.step cfg size q o) (WalQ.step (free cfg) size p o) := by
  cases o with
  | submit m =>
    simp only [WalQ.step, submit]
    rw [h.closed, h.over]
    split
    · exact ⟨h.w, h.queue, rfl, rfl, h.taken, by simp only [h.calls], by simp only [h.calls, h.answers], h.alive⟩
    · exact ⟨h.w, by simp only [h.queue, h.calls], rfl, rfl, h.taken, by simp only [h.calls], h.answers, h.alive⟩
  | close => exact ⟨h.w, h.queue, rfl, h.over, h.taken, h.calls, h.answers, h.alive⟩
  | shutdown => exact ⟨h.w, h.queue, rfl, h.over, rfl, h.calls, h.answers, h.alive⟩
  | drain =>
    exact ⟨less_flushIf true h.w, h.queue, h.closed, h.over, h.taken, h.calls, h.answers, h.alive⟩
  | writeback =>
    refine ⟨?_, h.queue, h.closed, h.over, h.taken, h.calls, h.answers, h.alive⟩
    exact less_mk (by simp only [WalQ.step, h.w.active]) h.w.bytes h.w.since h.w.next h.w.nextSeg h.w.commit h.w.pruned h.w.dead h.w.tail h.w.kept h.w.need
  | timer r y f =>
    simp only [WalQ.step, timer]
    rw [h.over]
    by_cases ho : p.over.isSome = true
    · rw [if_pos ho, if_pos ho]
      exact h
    · rw [if_neg ho, if_neg ho]
      have ho' : p.over = none := by simpa using ho
      have hd : q.w.dead = false := by rw [h.w.dead]; exact h.alive ho'
      obtain ⟨h1, h2⟩ := less_tick h.w hd r y
      rw [h1.dead, h2]
      cases f with
      | true =>
        simp only [Bool.true_or, if_true, h.queue]
        exact sim_fail h h.w _ _
      | false => exact ⟨h1, h.queue, h.closed, rfl, h.taken, h.calls, h.answers, fun _ => h2⟩
  | turn limit fault =>
    simp only [WalQ.step, turn]
    rw [h.over, h.queue, h.closed]
    by_cases ho : p.over.isSome = true
    · rw [if_pos ho, if_pos ho]
      exact h
    · rw [if_neg ho, if_neg ho]
      have ho' : p.over = none := by simpa using ho
      have hd : q.w.dead = false := by rw [h.w.dead]; exact h.alive ho'
      match hq : p.queue with
      | [] =>
        simp only
        split
        · unfold finish
          split
          · exact ⟨less_dead h.w, by simp only; rw [h.queue, hq], h.closed, rfl, h.taken, h.calls, h.answers, fun e => by simp at e⟩
          · exact ⟨less_finishSeg h.w, h.queue, h.closed, rfl, h.taken, h.calls, h.answers, fun e => by simp at e⟩
        · exact h
      | (i, .cmd c) :: rest => exact sim_batch size h hd ho' fault _ _ _
      | (i, .rotate) :: rest => exact sim_other h hd ho' _ i rest .rotate
      | (i, .snapshot) :: rest => exact sim_other h hd ho' _ i rest .snapshot

theorem sim_run (size : F → Nat) : ∀ (os : List (WalQ.Op F)) {q p : Q F}, Sim cfg q p →
    Sim cfg (WalQ.run cfg size q os) (WalQ.run (free cfg) size p os)
  | [], _, _, h => h
  | o :: os, _, _, h => sim_run size os (sim_step size h o)

theorem less_segments {a b : W F} (h : Less cfg a b) : ∃ gone, b.completed = gone ++ a.completed ∧
    segments b = gone.map Prod.fst ++ segments a := by
  obtain ⟨t, ht⟩ := h.tail
  refine ⟨t, ht.symm, ?_⟩
  unfold segments
  rw [← ht, ← h.pruned, h.kept, h.active]
  simp

end Tonbo.Lemmas.WalRetain
