import Verif.Lemmas.WorkerStats

/-!
# What happens to tasks, and what is counted
-/

set_option linter.unusedSectionVars false

namespace Tonbo.Lemmas.Worker
open Tonbo.Model Tonbo.Model.Manifest Tonbo.Model.Planner Tonbo.Model.Lsm Tonbo.Model.Worker Tonbo.Model.WStats Tonbo.Spec
open Tonbo.Lemmas.Manifest Tonbo.Lemmas.Lsm
open Tonbo.Model.Guards (Control)

variable {K R : Type} [LinearOrder K]

/-- The cooldown is the configured one. -/
def Cool (c : Cfg K R) (w : W K R) : Prop := w.control.cooldown = c.cooldown

theorem acquire_cooldown (k : Control) (now : Nat) : (k.acquire now).2.cooldown = k.cooldown := by
  unfold Control.acquire
  split_ifs <;> rfl

theorem cool_new (c : Cfg K R) (cap sv : Nat) : Cool c (W.new c cap sv) := rfl

theorem act_control {c : Cfg K R} (w : W K R) (j : Model.Worker.Job K) (now skip : Nat) (st : Stage K) :
    (act c w j now skip st).1.control.cooldown = w.control.cooldown := by
  cases st with
  | popped a => unfold act; simp only; split <;> rfl
  | merged a p =>
    unfold act
    simp only
    split
    · rfl
    · split_ifs <;> rfl
    · rfl
  | ended =>
    simp only [act]
    split_ifs
    · have := acquire_cooldown w.control now
      rcases hq : w.control.acquire now with ⟨vd, k'⟩
      rw [hq] at this
      cases vd with
      | allowed => simp only; cases planFrom c w.db 1 <;> exact this
      | budget => exact this
      | cooldown => exact this
    · rfl
  | follow t =>
    simp only [act]
    split
    · rfl
    · split <;> rfl
  | over => rfl

theorem cool_step {c : Cfg K R} {w : W K R} (h : Cool c w) (op : Model.Worker.Op K R) : Cool c (Model.Worker.step c w op) := by
  unfold Cool at *
  cases op with
  | restart cap => rfl
  | trigger => exact h
  | other op => unfold Model.Worker.step; simp only; split_ifs <;> exact h
  | turn =>
    change (Model.Worker.turn c w).control.cooldown = _
    unfold Model.Worker.turn begin
    split
    · split_ifs <;> exact h
    · exact h
    · split <;> exact h
    · split
      · exact h
      · split <;> exact h
    · split_ifs <;> exact h
  | fail i =>
    change (failStep w i).control.cooldown = _
    rcases fail_cases w i with e | ⟨js, j, a, hph, hi, e⟩ <;> rw [e] <;> exact h
  | job i now skip =>
    change (jobStep c w i now skip).control.cooldown = _
    unfold jobStep
    split
    · split
      · exact h
      · exact (act_control ..).trans h
    · exact h

theorem cool_run {c : Cfg K R} : ∀ (ops : List (Model.Worker.Op K R)) {w : W K R}, Cool c w → Cool c (Model.Worker.run c w ops)
  | [], _, h => h
  | o :: os, _, h => cool_run os (cool_step h o)

/-- What a step does to a counter. -/
def Counts (h : Happening) (c : Cfg K R) (w : W K R) (op : Model.Worker.Op K R) (k k' : Counters) : Prop :=
  (h.In c w op → h.told k' = min (h.told k + 1) top) ∧ (¬ h.In c w op → h.told k' = h.told k)

theorem counts_none {h : Happening} {c : Cfg K R} {w : W K R} {op : Model.Worker.Op K R} {k k' : Counters}
    (hi : ¬ h.In c w op) (e : h.told k' = h.told k) : Counts h c w op k k' := ⟨fun g => absurd g hi, fun _ => e⟩

theorem counts_one {h : Happening} {c : Cfg K R} {w : W K R} {op : Model.Worker.Op K R} {k k' : Counters}
    (hi : h.In c w op) (e : h.told k' = min (h.told k + 1) top) : Counts h c w op k k' := ⟨fun _ => e, fun g => absurd hi g⟩

/-- A step that is neither the loop's nor a job's. -/
theorem other_step {c : Cfg K R} {w : W K R} {op : Model.Worker.Op K R} (h1 : op ≠ .turn) (h2 : runner w op = none)
    (h3 : (Model.Worker.step c w op).queue.length ≤ w.queue.length) (h : Happening) : ¬ h.In c w op := by
  cases h with
  | queued => exact fun g => by have := g.2; omega
  | followFull => rintro ⟨⟨j, t, now, g⟩, _⟩; rw [h2] at g; cases g
  | planFull => exact fun g => h1 g.1
  | cooling => rintro ⟨now, l, ⟨j, g, _⟩, _⟩; rw [h2] at g; cases g
  | spent => rintro ⟨now, ⟨j, g, _⟩, _⟩; rw [h2] at g; cases g

theorem told_abort (h : Happening) (k : Counters) (S : Summary) : h.told (k.abort S) = h.told k := by cases h <;> rfl
theorem told_success (h : Happening) (k : Counters) (S : Summary) : h.told (k.success S) = h.told k := by cases h <;> rfl
theorem told_trigger (h : Happening) (k : Counters) (b : Bool) : h.told (k.trigger b) = h.told k := by
  unfold Counters.trigger
  split_ifs <;> cases h <;> rfl

theorem turn_counts {c : Cfg K R} {n : Nat} {w : W K R} (hB : Base c n w) (b : Bool) (k : Counters) (h : Happening) :
    Counts h c w .turn k (noteTurn c w b k) := by
  have no : h ≠ .planFull ∨ (∀ m t, w.phase ≠ .planned m t) → ¬ h.In c w .turn := by
    intro g
    cases h with
    | queued => exact fun g' => g'.1 rfl
    | followFull => rintro ⟨⟨j, t, now, g⟩, _⟩; cases g
    | planFull =>
      rintro ⟨_, ⟨m, t, g'⟩, _⟩
      rcases g with g | g
      · exact g rfl
      · exact g m t g'
    | cooling => rintro ⟨now, l, ⟨j, g, _⟩, _⟩; cases g
    | spent => rintro ⟨now, ⟨j, g, _⟩, _⟩; cases g
  unfold noteTurn
  cases hph : w.phase with
  | waiting =>
    simp only
    refine counts_none (no (.inr (fun m t g => by rw [hph] at g; cases g))) ?_
    split_ifs
    · rfl
    · exact told_trigger ..
  | planning m => exact counts_none (no (.inr (fun m t g => by rw [hph] at g; cases g))) rfl
  | draining js =>
    simp only
    refine counts_none (no (.inr (fun m t g => by rw [hph] at g; cases g))) ?_
    split_ifs
    · exact told_trigger ..
    · rfl
  | planned m t =>
    simp only [noteHead_spec hB.inv, enqueue]
    by_cases hq : w.queue.length < c.slots
    · rw [if_pos hq]
      refine counts_none ?_ rfl
      cases h with
      | planFull => exact fun g => by have := g.2.2; unfold QueueFull at this; omega
      | queued => exact no (.inl (by simp))
      | followFull => exact no (.inl (by simp))
      | cooling => exact no (.inl (by simp))
      | spent => exact no (.inl (by simp))
    · rw [if_neg hq]
      cases h with
      | planFull => exact counts_one ⟨rfl, ⟨m, t, hph⟩, by unfold QueueFull; omega⟩ rfl
      | queued => exact counts_none (no (.inl (by simp))) rfl
      | followFull => exact counts_none (no (.inl (by simp))) rfl
      | cooling => exact counts_none (no (.inl (by simp))) rfl
      | spent => exact counts_none (no (.inl (by simp))) rfl

theorem act_queue {c : Cfg K R} (w : W K R) (j : Model.Worker.Job K) (now skip : Nat) (st : Stage K)
    (h : ∀ t, st ≠ .follow t) : (act c w j now skip st).1.queue = w.queue := by
  cases st with
  | popped a => unfold act; simp only; split <;> rfl
  | merged a p =>
    unfold act
    simp only
    split
    · rfl
    · split_ifs <;> rfl
    · rfl
  | ended =>
    simp only [act]
    split_ifs
    · rcases hq : w.control.acquire now with ⟨vd, k'⟩
      cases vd with
      | allowed => simp only; cases planFrom c w.db 1 <;> rfl
      | budget => rfl
      | cooldown => rfl
    · rfl
  | follow t => exact absurd rfl (h t)
  | over => rfl

theorem act_counts {c : Cfg K R} {n : Nat} {w : W K R} (hB : Base c n w) (hc : Cool c w)
    {js : List (Model.Worker.Job K × Stage K)} (hph : w.phase = .draining js) {i : Nat} {j : Model.Worker.Job K}
    {st : Stage K} (hi : js[i]? = some (j, st)) (now skip ms : Nat) (k : Counters) (h : Happening) :
    Counts h c w (.job i now skip) k (noteAct c w j now skip ms k st) := by
  have hr : runner w (.job i now skip) = some (j, st, now) := by
    simp only [runner, hph, hi, Option.map_some]
  have hs : (Model.Worker.step c w (.job i now skip)).queue = (act c w j now skip st).1.queue := by
    change (jobStep c w i now skip).queue = _
    unfold jobStep
    simp only [hph, hi]
  have quiet : (∀ t, st ≠ .follow t) → st ≠ .ended → h.told (noteAct c w j now skip ms k st) = h.told k →
      Counts h c w (.job i now skip) k (noteAct c w j now skip ms k st) := by
    intro h1 h2 e
    refine counts_none ?_ e
    cases h with
    | queued => exact fun g => by have := g.2; rw [hs, act_queue w j now skip st h1] at this; omega
    | followFull =>
      rintro ⟨⟨j', t, now', g⟩, _⟩
      rw [hr] at g
      simp only [Option.some.injEq, Prod.mk.injEq] at g
      exact h1 t g.2.1
    | planFull => exact fun g => by cases g.1
    | cooling =>
      rintro ⟨now', l, ⟨j', g, _⟩, _⟩
      rw [hr] at g
      simp only [Option.some.injEq, Prod.mk.injEq] at g
      exact h2 g.2.1
    | spent =>
      rintro ⟨now', ⟨j', g, _⟩, _⟩
      rw [hr] at g
      simp only [Option.some.injEq, Prod.mk.injEq] at g
      exact h2 g.2.1
  cases st with
  | popped a =>
    refine quiet (fun t => by simp) (by simp) ?_
    simp only [noteAct, noteStart]
    split
    · split_ifs
      · rfl
      · split
        · rfl
        · split
          · exact told_abort ..
          · split
            · exact told_abort ..
            · split
              · rfl
              · split_ifs
                · exact told_success ..
                · rfl
    · rfl
  | merged a p =>
    refine quiet (fun t => by simp) (by simp) ?_
    simp only [noteAct, noteFinish]
    split
    · exact told_success ..
    · split_ifs
      · exact told_abort ..
      · rfl
    · exact told_abort ..
  | over => exact quiet (fun t => by simp) (by simp) rfl
  | follow t =>
    have nd : ∀ now', ¬ Deepens w (.job i now skip) now' := by
      rintro now' ⟨j', g, _⟩
      rw [hr] at g
      simp at g
    have no : h = .planFull ∨ h = .cooling ∨ h = .spent → ¬ h.In c w (.job i now skip) := by
      rintro (rfl | rfl | rfl)
      · exact fun g => by cases g.1
      · rintro ⟨now', l, g, _⟩; exact nd _ g
      · rintro ⟨now', g, _⟩; exact nd _ g
    simp only [noteAct, noteHead_spec hB.inv, enqueue]
    by_cases hq : w.queue.length < c.slots
    · rw [if_pos hq]
      have hl : (Model.Worker.step c w (.job i now skip)).queue.length = w.queue.length + 1 := by
        rw [hs]
        simp only [act, noteHead_spec hB.inv, enqueue, if_pos hq, List.length_append, List.length_singleton]
      cases h with
      | queued => exact counts_one ⟨by simp, by omega⟩ rfl
      | followFull => exact counts_none (fun g => by have := g.2; unfold QueueFull at this; omega) rfl
      | planFull => exact counts_none (no (.inl rfl)) rfl
      | cooling => exact counts_none (no (.inr (.inl rfl))) rfl
      | spent => exact counts_none (no (.inr (.inr rfl))) rfl
    · rw [if_neg hq]
      have hl : (Model.Worker.step c w (.job i now skip)).queue.length = w.queue.length := by
        rw [hs]
        simp only [act, noteHead_spec hB.inv, enqueue, if_neg hq]
      cases h with
      | queued => exact counts_none (fun g => by have := g.2; omega) rfl
      | followFull => exact counts_one ⟨⟨j, t, now, hr⟩, by unfold QueueFull; omega⟩ rfl
      | planFull => exact counts_none (no (.inl rfl)) rfl
      | cooling => exact counts_none (no (.inr (.inl rfl))) rfl
      | spent => exact counts_none (no (.inr (.inr rfl))) rfl
  | ended =>
    have hl := act_queue (c := c) w j now skip .ended (fun t => by simp)
    have no : h = .queued ∨ h = .followFull ∨ h = .planFull → ¬ h.In c w (.job i now skip) := by
      rintro (rfl | rfl | rfl)
      · exact fun g => by have := g.2; rw [hs, hl] at this; omega
      · rintro ⟨⟨j', t, now', g⟩, _⟩; rw [hr] at g; simp at g
      · exact fun g => by cases g.1
    have at' : ∀ now', Deepens w (.job i now skip) now' → now' = now ∧ j.task.source = 0 ∧ j.task.target = 1 := by
      rintro now' ⟨j', g, g2⟩
      rw [hr] at g
      simp only [Option.some.injEq, Prod.mk.injEq, true_and] at g
      obtain ⟨rfl, rfl⟩ := g
      exact ⟨rfl, g2⟩
    simp only [noteAct]
    by_cases hd : j.task.source = 0 ∧ j.task.target = 1
    · rw [if_pos hd]
      have hD : Deepens w (.job i now skip) now := ⟨j, hr, hd⟩
      unfold Control.acquire
      by_cases hz : w.control.remaining = 0
      · rw [if_pos hz]
        cases h with
        | spent => exact counts_one ⟨now, hD, hz⟩ rfl
        | cooling => exact counts_none (by rintro ⟨_, _, _, g, _⟩; exact g hz) rfl
        | queued => exact counts_none (no (.inl rfl)) rfl
        | followFull => exact counts_none (no (.inr (.inl rfl))) rfl
        | planFull => exact counts_none (no (.inr (.inr rfl))) rfl
      · rw [if_neg hz]
        have ns : ¬ Happening.spent.In c w (.job i now skip) := by rintro ⟨_, _, g⟩; exact hz g
        have hcool : w.control.cooling now = true ↔ ∃ l, w.control.last = some l ∧ now - l < c.cooldown := by
          unfold Control.cooling
          cases hlast : w.control.last with
          | none => simp
          | some l => rw [show w.control.cooldown = c.cooldown from hc]; simp
        by_cases hk : w.control.cooling now = true
        · rw [if_pos hk]
          obtain ⟨l, g1, g2⟩ := hcool.1 hk
          cases h with
          | spent => exact counts_none ns rfl
          | cooling => exact counts_one ⟨now, l, hD, hz, g1, g2⟩ rfl
          | queued => exact counts_none (no (.inl rfl)) rfl
          | followFull => exact counts_none (no (.inr (.inl rfl))) rfl
          | planFull => exact counts_none (no (.inr (.inr rfl))) rfl
        · rw [if_neg hk]
          cases h with
          | spent => exact counts_none ns rfl
          | cooling =>
            refine counts_none ?_ rfl
            rintro ⟨now', l, g1, _, g3, g4⟩
            rw [(at' now' g1).1] at g4
            exact hk (hcool.2 ⟨l, g3, g4⟩)
          | queued => exact counts_none (no (.inl rfl)) rfl
          | followFull => exact counts_none (no (.inr (.inl rfl))) rfl
          | planFull => exact counts_none (no (.inr (.inr rfl))) rfl
    · rw [if_neg hd]
      cases h with
      | spent => exact counts_none (by rintro ⟨_, g, _⟩; exact hd (at' _ g).2) rfl
      | cooling => exact counts_none (by rintro ⟨_, _, g, _⟩; exact hd (at' _ g).2) rfl
      | queued => exact counts_none (no (.inl rfl)) rfl
      | followFull => exact counts_none (no (.inr (.inl rfl))) rfl
      | planFull => exact counts_none (no (.inr (.inr rfl))) rfl

theorem counts_step {c : Cfg K R} {n : Nat} {o : O K R} (hB : Base c n o.w) (hc : Cool c o.w)
    (s : Model.Worker.Op K R × Nat × Bool) (hs : ∀ cap, s.1 ≠ .restart cap) (h : Happening) :
    Counts h c o.w s.1 o.k (obs c o s).k := by
  obtain ⟨op, ms, b⟩ := s
  cases op with
  | restart cap => exact absurd rfl (hs cap)
  | trigger => exact counts_none (other_step (by simp) rfl (Nat.le_refl _) h) rfl
  | other op =>
    refine counts_none (other_step (by simp) rfl ?_ h) rfl
    unfold Model.Worker.step
    simp only
    split_ifs <;> exact Nat.le_refl _
  | turn => exact turn_counts hB b o.k h
  | fail i =>
    refine counts_none (other_step (by simp) rfl ?_ h) ?_
    · change (failStep o.w i).queue.length ≤ _
      rcases fail_cases o.w i with e | ⟨js, j, a, hph, hi, e⟩ <;> rw [e]
    · change h.told (noteFail c o.w i ms o.k) = _
      unfold noteFail
      split
      · split
        · split
          · split_ifs
            · rfl
            · split
              · rfl
              · exact told_abort ..
          · rfl
        · rfl
      · rfl
  | job i now skip =>
    unfold obs
    simp only
    cases hph : o.w.phase with
    | draining js =>
      simp only
      cases hi : js[i]? with
      | none =>
        refine counts_none (other_step (by simp) (by simp [runner, hph, hi]) ?_ h) rfl
        change (jobStep c o.w i now skip).queue.length ≤ _
        unfold jobStep
        simp only [hph, hi]
        exact Nat.le_refl _
      | some r =>
        obtain ⟨j, st⟩ := r
        exact act_counts hB hc hph hi now skip ms o.k h
    | _ =>
      refine counts_none (other_step (by simp) (by simp [runner, hph]) ?_ h) rfl
      change (jobStep c o.w i now skip).queue.length ≤ _
      unfold jobStep
      simp only [hph]
      exact Nat.le_refl _

theorem watch_counts {c : Cfg K R} (hn : 0 < c.x.readRows) (h : Happening) :
    ∀ (ss : List (Model.Worker.Op K R × Nat × Bool)) (n : Nat) (o : O K R), Base c n o.w → Cool c o.w → OneProcess ss →
      h.told o.k ≤ top → h.told (watch c o ss).k = min (h.told o.k + h.times c o.w (ss.map (·.1))) top
  | [], _, o, _, _, _, hk => by
    simp only [watch, List.map_nil, Happening.times]
    omega
  | s :: ss, n, o, hB, hc, hs, hk => by
    obtain ⟨n1, _, hB1⟩ := base_step hn hB s.1
    obtain ⟨a1, a2⟩ := counts_step hB hc s (hs s (by simp)) h
    have e : watch c o (s :: ss) = watch c (obs c o s) ss := rfl
    have e3 : h.times c o.w ((s :: ss).map (·.1)) = (open Classical in if h.In c o.w s.1 then 1 else 0) +
      h.times c (obs c o s).w (ss.map (·.1)) := rfl
    rw [e, e3]
    by_cases g : h.In c o.w s.1
    · have a := a1 g
      rw [watch_counts hn h ss n1 (obs c o s) hB1 (cool_step hc s.1) (fun x hx => hs x (by simp [hx])) (by omega), a, if_pos g]
      omega
    · have a := a2 g
      rw [watch_counts hn h ss n1 (obs c o s) hB1 (cool_step hc s.1) (fun x hx => hs x (by simp [hx])) (by omega), a, if_neg g]
      omega

/-! ## Time -/

theorem calm_ms {k k' : Counters} (h : Calm k k') : k'.ms = k.ms := by
  have := congrArg Counters.ms h
  exact this

theorem watch_ms {c : Cfg K R} (hn : 0 < c.x.readRows) :
    ∀ (ss : List (Model.Worker.Op K R × Nat × Bool)) (n : Nat) (o : O K R), Base c n o.w → Shaped c o.w → OneProcess ss →
      o.k.ms ≤ top → (watch c o ss).k.ms = min (o.k.ms + jobTime c o.w ss) top
  | [], _, o, _, _, _, hk => by
    simp only [watch, jobTime]
    omega
  | s :: ss, n, o, hB, hS, hs, hk => by
    obtain ⟨n1, _, hB1⟩ := base_step hn hB s.1
    have ht := told hn hB hS s (hs s (by simp))
    have e : watch c o (s :: ss) = watch c (obs c o s) ss := rfl
    have e3 : jobTime c o.w (s :: ss) =
      (if (endedAs .published o.w).length < (endedAs .published (obs c o s).w).length then s.2.1 else 0) +
      jobTime c (obs c o s).w ss := rfl
    have ih := watch_ms hn ss n1 (obs c o s) hB1 (shaped_step hn hB hS s.1) (fun x hx => hs x (by simp [hx]))
    rw [e, e3]
    have same : (endedAs .published (obs c o s).w).length = (endedAs .published o.w).length → (obs c o s).k.ms = o.k.ms →
        (watch c (obs c o s) ss).k.ms = min (o.k.ms +
          ((if (endedAs .published o.w).length < (endedAs .published (obs c o s).w).length then s.2.1 else 0) +
            jobTime c (obs c o s).w ss)) top := by
      intro h1 h2
      rw [ih (by omega), if_neg (by omega), h2]
      omega
    cases ht with
    | calm h total done =>
      refine same ?_ (calm_ms h)
      rcases done with d | ⟨j, f, hf, d⟩
      · unfold endedAs; rw [d]
      · unfold endedAs
        rw [d, List.filter_append]
        rcases hf with rfl | rfl <;> simp
    | abort S j h r a total g done =>
      refine same ?_ (by rw [h]; rfl)
      unfold endedAs
      rw [done, List.filter_append]
      simp
    | success ins outs j h total g hi ho done len =>
      have h1 : (endedAs .published (obs c o s).w).length = (endedAs .published o.w).length + 1 := by
        unfold endedAs
        rw [done, List.filter_append]
        simp
      have h2 : (obs c o s).k.ms = min (o.k.ms + s.2.1) top := by rw [h]; rfl
      rw [ih (by omega), if_pos (by omega), h2]
      omega

/-! ## Room for follow-ups -/

/-- A job that has not returned. -/
def busy (r : Model.Worker.Job K × Stage K) : Bool := decide (r.2 ≠ .over)

/-- Every running job has a place in the queue for its follow-up. -/
def Room (c : Cfg K R) (w : W K R) : Prop := ∀ js, w.phase = .draining js → w.queue.length + js.countP busy ≤ c.slots

theorem room_new (c : Cfg K R) (cap sv : Nat) : Room c (W.new c cap sv) := by
  intro js h; cases h

theorem room_set {c : Cfg K R} {w : W K R} {js : List (Model.Worker.Job K × Stage K)} (h : w.queue.length + js.countP busy ≤ c.slots)
    {i : Nat} {j : Model.Worker.Job K} {st st' : Stage K} (hi : js[i]? = some (j, st)) {q : List (Model.Worker.Job K)}
    (hq : q.length + (busy (j, st')).toNat ≤ w.queue.length + (busy (j, st)).toNat) :
    q.length + (js.set i (j, st')).countP busy ≤ c.slots := by
  have := countP_set_add busy (b := (j, st')) hi
  omega

theorem room_step {c : Cfg K R} {n : Nat} {w : W K R} (hB : Base c n w) (h : Room c w) (op : Model.Worker.Op K R) :
    Room c (Model.Worker.step c w op) := by
  cases op with
  | restart cap => intro js hjs; cases hjs
  | trigger => exact h
  | other op => unfold Model.Worker.step; simp only; split_ifs <;> exact h
  | turn =>
    change Room c (Model.Worker.turn c w)
    unfold Model.Worker.turn begin
    cases hph : w.phase with
    | waiting =>
      simp only
      split_ifs
      · exact h
      · intro js hjs; cases hjs
    | planning m =>
      cases m with
      | zero =>
        intro js hjs
        cases hjs
        have := hB.room
        have h2 : ((w.queue.take c.budget).map (fun j => (j, (Stage.popped 1 : Stage K)))).countP busy ≤ (w.queue.take c.budget).length := by
          refine Nat.le_trans List.countP_le_length ?_
          simp
        simp only [List.length_drop, List.length_take] at h2 ⊢
        omega
      | succ m =>
        simp only
        cases planFrom c w.db 0 <;> (intro js hjs; cases hjs)
    | planned m t =>
      simp only
      cases noteHead c w.db with
      | none => intro js hjs; cases hjs
      | some hd =>
        simp only
        cases enqueue c w.queue ⟨t, hd⟩ <;> (intro js hjs; cases hjs)
    | draining js =>
      simp only
      split_ifs
      · intro js hjs; cases hjs
      · intro js hjs; cases hjs
      · exact h
  | fail i =>
    change Room c (failStep w i)
    rcases fail_cases w i with e | ⟨js, j, a, hph, hi, e⟩
    · rw [e]; exact h
    · rw [e]
      intro js' hjs
      cases hjs
      exact room_set (h js hph) hi (by simp [busy])
  | job i now skip =>
    change Room c (jobStep c w i now skip)
    unfold jobStep
    cases hph : w.phase with
    | draining js =>
      simp only
      cases hi : js[i]? with
      | none => exact h
      | some r =>
        obtain ⟨j, st⟩ := r
        intro js' hjs
        cases hjs
        refine room_set (h js hph) hi ?_
        by_cases hf : ∃ t, st = .follow t
        · obtain ⟨t, rfl⟩ := hf
          simp only [act, noteHead_spec hB.inv, enqueue]
          split_ifs <;> simp [busy]
        · rw [act_queue w j now skip st (fun t ht => hf ⟨t, ht⟩)]
          cases st with
          | over => exact Nat.le_refl _
          | follow t => exact absurd ⟨t, rfl⟩ hf
          | _ => exact Nat.add_le_add_left (Nat.le_trans (Bool.toNat_le _) (by simp [busy])) _
    | _ => exact h

theorem room_run {c : Cfg K R} (hn : 0 < c.x.readRows) : ∀ (ops : List (Model.Worker.Op K R)) {n : Nat} {w : W K R}, Base c n w →
    Room c w → Room c (Model.Worker.run c w ops)
  | [], _, _, _, h => h
  | o :: os, _, _, hB, h => by
    obtain ⟨n', _, hB'⟩ := base_step hn hB o
    exact room_run hn os hB' (room_step hB h o)

theorem room_follow {c : Cfg K R} {w : W K R} (h : Room c w) {op : Model.Worker.Op K R} {j : Model.Worker.Job K} {t : PTask K}
    {now : Nat} (hr : runner w op = some (j, .follow t, now)) : ¬ QueueFull c w := by
  cases op with
  | job i now' skip =>
    simp only [runner] at hr
    cases hph : w.phase with
    | draining js =>
      rw [hph] at hr
      simp only at hr
      cases hi : js[i]? with
      | none => rw [hi] at hr; cases hr
      | some r =>
        rw [hi] at hr
        simp only [Option.map_some, Option.some.injEq, Prod.mk.injEq] at hr
        have hb : busy r = true := by simp [busy, hr.2.1]
        have h1 : 0 < js.countP busy := List.countP_pos_iff.2 ⟨r, List.mem_of_getElem? hi, hb⟩
        have := h js hph
        unfold QueueFull
        omega
    | _ => rw [hph] at hr; cases hr
  | _ => cases hr

theorem never_full {c : Cfg K R} (hn : 0 < c.x.readRows) : ∀ (ops : List (Model.Worker.Op K R)) {n : Nat} {w : W K R}, Base c n w →
    Room c w → Happening.followFull.times c w ops = 0
  | [], _, _, _, _ => rfl
  | o :: os, _, w, hB, h => by
    obtain ⟨n', _, hB'⟩ := base_step hn hB o
    have e : Happening.followFull.times c w (o :: os) = (open Classical in if Happening.followFull.In c w o then 1 else 0) +
      Happening.followFull.times c (Model.Worker.step c w o) os := rfl
    rw [e, never_full hn os hB' (room_step hB h o), if_neg]
    rintro ⟨⟨j, t, now, hr⟩, hq⟩
    exact room_follow h hr hq

end Tonbo.Lemmas.Worker
