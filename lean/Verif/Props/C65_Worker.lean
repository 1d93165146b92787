import Verif.Spec.WorkerView
import Verif.Lemmas.Worker
import Verif.Lemmas.LsmKeep
import Verif.Props.C38_C43_Lsm
import Verif.Props.C39_Planner
import Verif.Props.C48_C49_Guards

/-!
# C65: the compaction worker catches up
-/

set_option linter.unusedSectionVars false

namespace Tonbo.Props.C65
open Tonbo.Model Tonbo.Model.Manifest Tonbo.Model.Planner Tonbo.Model.Lsm Tonbo.Model.Worker Tonbo.Spec
open Tonbo.Lemmas.Manifest Tonbo.Lemmas.Lsm Tonbo.Lemmas.Worker

variable {K R : Type} [LinearOrder K]

/-! ## Links between the words of the specification and the lemmas -/

theorem silent_of {o : Worker.Op K R} (h : Unpublished o) : silent o = true := by
  cases o with
  | other op => cases op <;> first | rfl | exact h.elim
  | _ => rfl

private theorem inRound_of {o : Worker.Op K R} (h : SameRound o) : inRound o = true := by
  cases o <;> first | rfl | exact h.elim

theorem lived_base (c : Cfg K R) (hn : 0 < c.x.readRows) (cap sv : Nat) (ops : List (Worker.Op K R)) :
    ∃ n, Base c n (lived c cap sv ops) := by
  obtain ⟨n, _, h⟩ := base_run hn ops (base_new c cap sv)
  exact ⟨n, h⟩

theorem plan_iff {c : Cfg K R} {n : Nat} {w : W K R} (h : Inv c.ext c.x c.table n w.db) :
    planFrom c w.db 0 ≠ none ↔ WorkLeft c w := by
  obtain ⟨hd, hok⟩ := h.reg
  unfold planFrom
  rcases snapshotLatest_spec hok with ⟨h0, e⟩ | ⟨h0, v, hv, _, e⟩
  · rw [e]
    simp only [ne_eq, not_true_eq_false, false_iff]
    rintro ⟨v, hl, _⟩
    have := (at_le hok ((latest_iff h).1 hl)).1
    omega
  · rw [e]
    simp only
    have hvo : VersionOk v := by
      obtain ⟨u, h1, _, _, h2⟩ := hok.some n h0 (Nat.le_refl _)
      have : v = u := at_unique hv h1
      rw [this]; exact h2
    rw [C39.plan_iff_over_limit c.sorter c.planner v hvo 0]
    constructor
    · rintro ⟨l, _, h1, h2⟩
      exact ⟨v, (latest_iff h).2 hv, l, h1, h2⟩
    · rintro ⟨u, hu, l, h1, h2⟩
      have : u = v := at_unique ((latest_iff h).1 hu) hv
      subst this
      exact ⟨l, Nat.zero_le _, h1, h2⟩

/-! ## The worker works on the store -/

private theorem act_db (c : Cfg K R) (w : W K R) (j : Worker.Job K) (now skip : Nat) (st : Stage K) :
    ∃ sops, (act c w j now skip st).1.db = (Lsm.run c.ext c.x c.table w.db sops).2 := by
  have one : ∀ so, ∃ sops, (Lsm.step c.ext c.x c.table w.db so).2 = (Lsm.run c.ext c.x c.table w.db sops).2 :=
    fun so => ⟨[so], rfl⟩
  have none' : ∃ sops, w.db = (Lsm.run c.ext c.x c.table w.db sops).2 := ⟨[], rfl⟩
  cases st with
  | popped a =>
    unfold act
    simp only
    split <;> exact one _
  | merged a p =>
    unfold act
    simp only
    split
    · exact one _
    · split_ifs <;> exact one _
    · exact one _
  | ended =>
    unfold act
    simp only
    split_ifs
    · split
      · split <;> exact none'
      · exact none'
    · exact none'
  | follow t =>
    unfold act
    simp only
    split
    · exact none'
    · split <;> exact none'
  | over => exact none'

/-- The steps of the database behind a history of the worker. -/
private theorem store_step (c : Cfg K R) (w : W K R) (o : Worker.Op K R) :
    ∃ sops, (Worker.step c w o).db = (Lsm.run c.ext c.x c.table w.db sops).2 := by
  have one : ∀ so, ∃ sops, (Lsm.step c.ext c.x c.table w.db so).2 = (Lsm.run c.ext c.x c.table w.db sops).2 :=
    fun so => ⟨[so], rfl⟩
  have none' : ∃ sops, w.db = (Lsm.run c.ext c.x c.table w.db sops).2 := ⟨[], rfl⟩
  cases o with
  | other op =>
    unfold Worker.step
    simp only
    split_ifs
    · exact one op
    · exact none'
  | trigger => exact none'
  | turn =>
    change ∃ sops, (Worker.turn c w).db = _
    have : (Worker.turn c w).db = w.db := by
      unfold Worker.turn begin
      repeat' split
      all_goals rfl
    rw [this]; exact none'
  | fail i =>
    change ∃ sops, (failStep w i).db = _
    rcases fail_cases w i with e | ⟨js, j, a, _, _, e⟩ <;> (rw [e]; exact none')
  | restart cap => exact one _
  | job i now skip =>
    change ∃ sops, (jobStep c w i now skip).db = _
    unfold jobStep
    split
    · split
      · exact none'
      · rename_i r _
        exact act_db c w _ now skip _
    · exact none'

/-- **C65.** Whatever the worker and its jobs do, with whatever in between, is a history of the store: all
that holds after every history of flushes and compactions (C38, C40–C44) holds while the worker runs. -/
theorem the_worker_acts_on_the_store (c : Cfg K R) (cap sv : Nat) (ops : List (Worker.Op K R)) :
    ∃ sops, (lived c cap sv ops).db = reached c.ext c.x cap c.table sv sops := by
  have key : ∀ (ops : List (Worker.Op K R)) (w : W K R),
      ∃ sops, (Worker.run c w ops).db = (Lsm.run c.ext c.x c.table w.db sops).2 := by
    intro ops
    induction ops with
    | nil => exact fun w => ⟨[], rfl⟩
    | cons o os ih =>
      intro w
      obtain ⟨s1, h1⟩ := store_step c w o
      obtain ⟨s2, h2⟩ := ih (Worker.step c w o)
      refine ⟨s1 ++ s2, ?_⟩
      change (Worker.run c (Worker.step c w o) os).db = _
      rw [h2, h1, Lemmas.Lsm.run_append]
  exact key ops _

/-- **C65.** The queue never holds more jobs than it may, and no more jobs run at once than configured. -/
theorem queue_and_jobs_are_bounded (c : Cfg K R) (hn : 0 < c.x.readRows) (cap sv : Nat) (ops : List (Worker.Op K R)) :
    (lived c cap sv ops).queue.length ≤ max c.capacity (max c.maxJobs 1) ∧
    ∀ js, (lived c cap sv ops).phase = .draining js → js.length ≤ max c.maxJobs 1 := by
  obtain ⟨n, h⟩ := lived_base c hn cap sv ops
  refine ⟨?_, h.few⟩
  have := h.room
  unfold Cfg.slots Cfg.budget at this
  omega

/-- **C65.** A job that ends was published, failed, or was dropped because the table had changed since it
was planned. No job publishes nothing, and none uses up its attempts: the second attempt of a refused job
always finds another head than the one noted. -/
theorem how_jobs_end (c : Cfg K R) (hn : 0 < c.x.readRows) (cap sv : Nat) (ops : List (Worker.Op K R)) :
    ∀ e ∈ (lived c cap sv ops).done, e.2 = .skipped ∨ e.2 = .failed ∨ e.2 = .published := by
  obtain ⟨n, h⟩ := lived_base c hn cap sv ops
  exact h.fates

/-! ## Jobs that run at once -/

/-- **C65.** Of the jobs of one round at most one is published, however many run at once, and whatever
happens in between. -/
theorem one_job_of_a_round_is_published (c : Cfg K R) (hn : 0 < c.x.readRows) (cap sv : Nat)
    (pre ops : List (Worker.Op K R)) (hops : ∀ o ∈ ops, SameRound o) :
    (endedAs .published (lived c cap sv (pre ++ ops))).length ≤
      (endedAs .published (lived c cap sv pre)).length + 1 := by
  obtain ⟨n, h⟩ := lived_base c hn cap sv pre
  have := (pubs_run hn ops h (fun o ho => inRound_of (hops o ho))).1
  unfold lived endedAs at *
  rw [Lemmas.Worker.run_append, List.length_map, List.length_map]
  exact this

private theorem planning_run (c : Cfg K R) {n : Nat} (hn1 : 1 ≤ n) {t : PTask K} : ∀ (b : Nat) (w : W K R),
    Inv c.ext c.x c.table n w.db → w.phase = .planning b → w.queue.length + b ≤ c.slots →
    planFrom c w.db 0 = some t →
    Worker.run c w (List.replicate (2 * b) .turn) =
      { w with phase := .planning 0, queue := w.queue ++ List.replicate b ⟨t, some n⟩ }
  | 0, w, _, hp, _, _ => by
    simp only [List.replicate_zero, Nat.mul_zero, List.append_nil]
    unfold Worker.run
    rw [← hp]
  | b + 1, w, hi, hp, hq, ht => by
    have e1 : Worker.turn c w = { w with phase := .planned b t } := by
      unfold Worker.turn
      rw [hp]
      simp only
      rw [ht]
    have e2 : Worker.turn c { w with phase := .planned b t } =
        { w with phase := .planning b, queue := w.queue ++ [⟨t, some n⟩] } := by
      unfold Worker.turn
      simp only
      rw [noteHead_spec (c := c) (n := n) hi, lastOf_pos hn1]
      simp only
      unfold enqueue
      rw [if_pos (by omega)]
    have : 2 * (b + 1) = 2 * b + 1 + 1 := by omega
    rw [this, List.replicate_succ, List.replicate_succ]
    change Worker.run c (Worker.turn c (Worker.turn c w)) _ = _
    rw [e1, e2, planning_run c hn1 b { w with phase := .planning b, queue := w.queue ++ [⟨t, some n⟩] } hi rfl
      (by simp only [List.length_append, List.length_singleton]; omega) ht]
    simp only [List.append_assoc, List.singleton_append, List.replicate_succ]

/-- **C65, does not hold.** Jobs that run at once do the same work: a worker that plans its cycle
undisturbed, with an empty queue, starts `max_concurrent_jobs` copies of one job; by the theorem above at
most one of them counts. -/
theorem jobs_that_run_at_once_are_copies (c : Cfg K R) (hn : 0 < c.x.readRows) (cap sv : Nat)
    (pre : List (Worker.Op K R)) (hph : (lived c cap sv pre).phase = .planning (max c.maxJobs 1))
    (hq : (lived c cap sv pre).queue = []) (hw : WorkLeft c (lived c cap sv pre)) :
    ∃ j, (lived c cap sv (pre ++ List.replicate (2 * max c.maxJobs 1 + 1) .turn)).phase =
      .draining (List.replicate (max c.maxJobs 1) (j, .popped 1)) := by
  obtain ⟨n, h⟩ := lived_base c hn cap sv pre
  obtain ⟨t, ht⟩ := Option.ne_none_iff_exists'.1 ((plan_iff h.inv).2 hw)
  have hr := planning_run c (plan_pos h.inv ht) (max c.maxJobs 1) _ h.inv hph
    (by rw [hq]; have := budget_slots c; unfold Cfg.budget at this; simpa using this) ht
  refine ⟨⟨t, some n⟩, ?_⟩
  have e : (List.replicate (2 * max c.maxJobs 1 + 1) .turn : List (Worker.Op K R)) =
      List.replicate (2 * max c.maxJobs 1) .turn ++ [.turn] := by
    rw [List.replicate_succ']
  rw [e]
  unfold lived at *
  rw [Lemmas.Worker.run_append, Lemmas.Worker.run_append, hr, hq]
  change (Worker.turn c _).phase = _
  unfold Worker.turn
  simp only [List.nil_append]
  have hb : c.budget = max c.maxJobs 1 := rfl
  rw [hb, List.take_of_length_le (by simp), List.map_replicate]

/-! ## Catching up -/

/-- **C65, partial.** With a queue no larger than the number of jobs: once the worker was asked to look,
it does not come to rest with work left, unless a job failed since. Nothing but the worker publishes in
the meantime (a flush that does asks it again); everything else may happen, restarts included. Missing:
a larger queue, and failed jobs (see below). -/
theorem the_worker_catches_up_partial (c : Cfg K R) (hn : 0 < c.x.readRows) (hcap : c.capacity ≤ max c.maxJobs 1)
    (cap sv : Nat) (pre post : List (Worker.Op K R)) (hpost : ∀ o ∈ post, Unpublished o)
    (hidle : Idle (lived c cap sv (pre ++ .trigger :: post))) :
    ¬ WorkLeft c (lived c cap sv (pre ++ .trigger :: post)) ∨
    ∃ e ∈ (lived c cap sv (pre ++ .trigger :: post)).done.drop (lived c cap sv pre).done.length, e.2 = .failed := by
  have hs : c.slots = c.budget := by
    unfold Cfg.slots Cfg.budget
    omega
  obtain ⟨n, h⟩ := lived_base c hn cap sv pre
  have ha : Ahead (lived c cap sv pre) :=
    ahead_run hn hs pre (base_new c cap sv) (by unfold Ahead W.new; simp)
  obtain ⟨n1, _, h1⟩ := base_step hn h .trigger
  obtain ⟨n2, h2, h3⟩ := busy_run hn hs (d := (lived c cap sv pre).done.length) post h1 (Nat.le_refl _)
    (.inr (.inl (late_trigger ha))) (fun o ho => silent_of (hpost o ho))
  have e : lived c cap sv (pre ++ .trigger :: post) =
      Worker.run c (Worker.step c (lived c cap sv pre) .trigger) post := by
    unfold lived
    rw [Lemmas.Worker.run_append]
    rfl
  rw [← e] at h2 h3
  rcases h3 with h3 | h3 | h3
  · exact .inr h3
  · unfold Late at h3
    rw [hidle.1] at h3
    simp only at h3
    have := hidle.2
    omega
  · left
    unfold Clean at h3
    rw [hidle.1] at h3
    rcases h3.2 with h4 | h4
    · have := hidle.2
      omega
    · exact fun hc => (plan_iff h2.inv).2 hc h4

/-- The limits of the planner are within those at which writers stop. -/
def Within (p : PCfg) (b : Policy.Config) : Prop :=
  p.l0Trigger ≤ b.stopFiles ∧ 1 ≤ b.stopFiles ∧
    ∀ s, b.stopBytes = some s → 1 ≤ s ∧ ∃ m, p.l0MaxBytes = some m ∧ m ≤ s

theorem stalled_work {c : Cfg K R} {b : Policy.Config} (hb : Within c.planner b) {n : Nat} {w : W K R}
    (h : Inv c.ext c.x c.table n w.db) (hst : Stalled b c w) : WorkLeft c w := by
  obtain ⟨d, hd⟩ := hst
  obtain ⟨hdr, hok⟩ := h.reg
  obtain ⟨b1, b2, b3⟩ := hb
  unfold Policy.Config.decision at hd
  have hcond : b.stopFiles ≤ (levelZero c w.db).files ∨ Policy.reaches b.stopBytes (levelZero c w.db).bytes = true := by
    by_contra hc
    rw [if_neg (by simpa using hc)] at hd
    split_ifs at hd
  unfold levelZero at hcond
  have empty : (b.stopFiles ≤ (Policy.statsOf none).files ∨ Policy.reaches b.stopBytes (Policy.statsOf none).bytes = true) →
      False := by
    intro hc
    unfold Policy.statsOf at hc
    rcases hc with hc | hc
    · simp only at hc
      omega
    · unfold Policy.reaches at hc
      cases hsb : b.stopBytes with
      | none => rw [hsb] at hc; cases hc
      | some s =>
        rw [hsb] at hc
        have := (b3 s hsb).1
        simp at hc
        omega
  rcases snapshotLatest_spec hok with ⟨h0, e⟩ | ⟨h0, v, hv, _, e⟩
  · rw [e] at hcond
    exact (empty hcond).elim
  · rw [e] at hcond
    simp only at hcond
    refine ⟨v, (latest_iff h).2 hv, 0, ?_⟩
    cases hl : v.ssts[0]? with
    | none => rw [hl] at hcond; exact (empty hcond).elim
    | some es =>
      rw [hl] at hcond
      have hg : v.ssts.getD 0 [] = es := by rw [List.getD_eq_getElem?_getD, hl]; rfl
      rw [hg]
      have hstats := C48.statistics_count_level_zero (es.map (fun e => e.info.stats.map (·.bytes)))
      simp only [Option.map_some] at hcond
      rw [hstats.1, List.length_map] at hcond
      rcases hcond with hc | hc
      · refine ⟨fun he => ?_, ?_⟩
        · rw [he] at hc; simp at hc; omega
        · unfold OverLimit
          rw [if_pos rfl, hg]
          exact .inl (by omega)
      · unfold Policy.reaches at hc
        cases hsb : b.stopBytes with
        | none => rw [hsb] at hc; cases hc
        | some s =>
          cases htb : (Policy.statsOf (some (es.map (fun e => e.info.stats.map (·.bytes))))).bytes with
          | none => rw [hsb, htb] at hc; cases hc
          | some total =>
            rw [hsb, htb] at hc
            simp only [decide_eq_true_eq] at hc
            obtain ⟨hs1, m, hm1, hm2⟩ := b3 s hsb
            obtain ⟨bs, g1, g2⟩ := (hstats.2 total).1 htb
            have hsum : levelSize v 0 = total := by
              unfold levelSize
              rw [hg, g2]
              have : ∀ (es : List (Entry (Info K))) (bs : List Nat), es.map (fun e => e.info.stats.map (·.bytes)) = bs.map some →
                  (es.map sizeOf').sum = bs.sum := by
                intro es
                induction es with
                | nil => intro bs hbs; cases bs with
                  | nil => rfl
                  | cons _ _ => cases hbs
                | cons e es ih =>
                  intro bs hbs
                  cases bs with
                  | nil => cases hbs
                  | cons a bs =>
                    simp only [List.map_cons, List.cons.injEq] at hbs
                    rw [List.map_cons, List.sum_cons, List.sum_cons, ih bs hbs.2]
                    unfold sizeOf'
                    rw [hbs.1]
                    rfl
              exact this es bs g1
            refine ⟨fun he => ?_, ?_⟩
            · rw [he] at g1
              cases bs with
              | nil => simp at g2; omega
              | cons _ _ => cases g1
            · unfold OverLimit
              rw [if_pos rfl]
              exact .inr ⟨m, hm1, by omega⟩

/-- **C65, partial.** A writer that is told to wait asks the worker once, and waits until level 0 is below
the stop limits. If the limits of the planner are within those, the worker does not come to rest before,
unless a job failed since. -/
theorem a_waiting_writer_is_let_go_partial (c : Cfg K R) (hn : 0 < c.x.readRows) (hcap : c.capacity ≤ max c.maxJobs 1)
    (b : Policy.Config) (hb : Within c.planner b) (cap sv : Nat) (pre post : List (Worker.Op K R))
    (hpost : ∀ o ∈ post, Unpublished o) (hidle : Idle (lived c cap sv (pre ++ .trigger :: post))) :
    ¬ Stalled b c (lived c cap sv (pre ++ .trigger :: post)) ∨
    ∃ e ∈ (lived c cap sv (pre ++ .trigger :: post)).done.drop (lived c cap sv pre).done.length, e.2 = .failed := by
  obtain ⟨n, h⟩ := lived_base c hn cap sv (pre ++ .trigger :: post)
  rcases the_worker_catches_up_partial c hn hcap cap sv pre post hpost hidle with h1 | h1
  · exact .inl (fun hc => h1 (stalled_work hb h.inv hc))
  · exact .inr h1

/-! ## What does not hold -/

private theorem idle_step {c : Cfg K R} {w : W K R} (h : Idle w) {o : Worker.Op K R} (ho : Unasked o) :
    Idle (Worker.step c w o) ∧ (Worker.step c w o).done = w.done ∧
    (Unpublished o → (Worker.step c w o).db.kv = w.db.kv) := by
  obtain ⟨h1, h2⟩ := h
  cases o with
  | other op =>
    refine ⟨?_, ?_, fun hu => silent_kv c w op (silent_of hu)⟩
    · unfold Worker.step
      simp only
      split_ifs <;> exact ⟨h1, h2⟩
    · unfold Worker.step
      simp only
      split_ifs <;> rfl
  | trigger => exact ho.elim
  | restart cap => exact ho.elim
  | turn =>
    have : Worker.step c w .turn = w := by
      change Worker.turn c w = w
      unfold Worker.turn
      rw [h1]
      simp only
      rw [if_pos h2]
    rw [this]
    exact ⟨⟨h1, h2⟩, rfl, fun _ => rfl⟩
  | job i now skip =>
    have : Worker.step c w (.job i now skip) = w := by
      change jobStep c w i now skip = w
      unfold jobStep
      rw [h1]
    rw [this]
    exact ⟨⟨h1, h2⟩, rfl, fun _ => rfl⟩
  | fail i =>
    have : Worker.step c w (.fail i) = w := by
      change failStep w i = w
      unfold failStep
      rw [h1]
    rw [this]
    exact ⟨⟨h1, h2⟩, rfl, fun _ => rfl⟩

/-- **C65, does not hold after a failure.** A worker at rest stays at rest until it is asked again: no job
runs, and a writer that is waiting goes on waiting, however long. The waiting writer has asked already
and does not ask again, and without a periodic tick nobody else does: after a failed job (below) it waits
for ever. -/
theorem a_waiting_writer_waits_for_ever (c : Cfg K R) (b : Policy.Config) (w : W K R) (h : Idle w) (hst : Stalled b c w)
    (ops : List (Worker.Op K R)) (h1 : ∀ o ∈ ops, Unasked o) (h2 : ∀ o ∈ ops, Unpublished o) :
    Idle (Worker.run c w ops) ∧ (Worker.run c w ops).done = w.done ∧ Stalled b c (Worker.run c w ops) := by
  induction ops generalizing w with
  | nil => exact ⟨h, rfl, hst⟩
  | cons o os ih =>
    obtain ⟨g1, g2, g3⟩ := idle_step (c := c) h (h1 o List.mem_cons_self)
    have g4 := g3 (h2 o List.mem_cons_self)
    have hst' : Stalled b c (Worker.step c w o) := by
      obtain ⟨d, hd⟩ := hst
      refine ⟨d, ?_⟩
      unfold levelZero at hd ⊢
      rw [g4]
      exact hd
    obtain ⟨i1, i2, i3⟩ := ih (Worker.step c w o) g1 hst' (fun o' ho' => h1 o' (List.mem_cons_of_mem _ ho'))
      (fun o' ho' => h2 o' (List.mem_cons_of_mem _ ho'))
    exact ⟨i1, i2.trans g2, i3⟩

/-- Nothing is queued or running, and nothing planned. -/
private def Resting (w : W K R) : Prop :=
  w.queue = [] ∧ (w.phase = .waiting ∨ (∃ m, w.phase = .planning m) ∨ w.phase = .draining [])

private theorem resting_step {c : Cfg K R} {n : Nat} {w : W K R} (hi : Inv c.ext c.x c.table n w.db) (h : Resting w)
    (hp : planFrom c w.db 0 = none) {o : Worker.Op K R} (ho : Unpublished o) :
    Resting (Worker.step c w o) ∧ (Worker.step c w o).db.kv = w.db.kv := by
  obtain ⟨h1, h2⟩ := h
  cases o with
  | other op =>
    refine ⟨?_, silent_kv c w op (silent_of ho)⟩
    unfold Worker.step
    simp only
    split_ifs <;> exact ⟨h1, h2⟩
  | trigger => exact ⟨⟨h1, h2⟩, rfl⟩
  | restart cap => exact ⟨⟨rfl, .inl rfl⟩, (reopen_jobs hi cap).2⟩
  | fail i =>
    have : Worker.step c w (.fail i) = w := by
      change failStep w i = w
      unfold failStep
      rcases h2 with h2 | ⟨m, h2⟩ | h2 <;> rw [h2]
      simp
    rw [this]
    exact ⟨⟨h1, h2⟩, rfl⟩
  | job i now skip =>
    have : Worker.step c w (.job i now skip) = w := by
      change jobStep c w i now skip = w
      unfold jobStep
      rcases h2 with h2 | ⟨m, h2⟩ | h2 <;> rw [h2]
      simp
    rw [this]
    exact ⟨⟨h1, h2⟩, rfl⟩
  | turn =>
    change Resting (Worker.turn c w) ∧ (Worker.turn c w).db.kv = w.db.kv
    unfold Worker.turn
    rcases h2 with h2 | ⟨m, h2⟩ | h2
    · rw [h2]
      simp only
      split_ifs
      · exact ⟨⟨h1, .inl h2⟩, rfl⟩
      · exact ⟨⟨h1, .inr (.inl ⟨_, rfl⟩)⟩, rfl⟩
    · rw [h2]
      cases m with
      | zero =>
        simp only
        rw [h1]
        exact ⟨⟨by simp, .inr (.inr (by simp))⟩, by simp⟩
      | succ m =>
        simp only
        rw [hp]
        exact ⟨⟨h1, .inr (.inl ⟨_, rfl⟩)⟩, rfl⟩
    · rw [h2]
      simp only
      rw [if_pos (by rfl), if_neg (fun hc => hc.2 hp)]
      exact ⟨⟨h1, .inl rfl⟩, rfl⟩

/-- **C65, does not hold for every configuration.** If level 0 is at the stop limit while no level is over
the limits of the planner, a worker with nothing queued does nothing however often it is asked: the writer
waits for ever. -/
theorem stop_limits_below_the_planner (c : Cfg K R) (hn : 0 < c.x.readRows) (b : Policy.Config) (cap sv : Nat)
    (pre ops : List (Worker.Op K R)) (hw : (lived c cap sv pre).phase = .waiting) (hq : (lived c cap sv pre).queue = [])
    (hnone : ¬ WorkLeft c (lived c cap sv pre)) (hst : Stalled b c (lived c cap sv pre))
    (hops : ∀ o ∈ ops, Unpublished o) : Stalled b c (lived c cap sv (pre ++ ops)) := by
  obtain ⟨n, h⟩ := lived_base c hn cap sv pre
  have hp : planFrom c (lived c cap sv pre).db 0 = none := by
    by_contra hc
    exact hnone ((plan_iff h.inv).1 hc)
  have e : lived c cap sv (pre ++ ops) = Worker.run c (lived c cap sv pre) ops := by
    unfold lived; rw [Lemmas.Worker.run_append]
  rw [e]
  have hr : Resting (lived c cap sv pre) := ⟨hq, .inl hw⟩
  clear hw hq hnone e
  generalize lived c cap sv pre = w at h hp hr hst
  induction ops generalizing w n with
  | nil => exact hst
  | cons o os ih =>
    obtain ⟨g1, g2⟩ := resting_step h.inv hr hp (hops o List.mem_cons_self)
    obtain ⟨n1, _, hB⟩ := base_step hn h o
    refine ih (fun o' ho' => hops o' (List.mem_cons_of_mem _ ho')) n1 (Worker.step c w o) hB ?_ g1 ?_
    · rw [plan_kv g2]; exact hp
    · obtain ⟨d, hd⟩ := hst
      refine ⟨d, ?_⟩
      unfold levelZero at hd ⊢
      rw [g2]
      exact hd

private theorem others_run (c : Cfg K R) : ∀ (ops : List (Lsm.Op K R)) (w : W K R), (∀ o ∈ ops, foreign o = true) →
    Worker.run c w (ops.map .other) = { w with db := (Lsm.run c.ext c.x c.table w.db ops).2 }
  | [], w, _ => rfl
  | o :: ops, w, hf => by
    have e0 : Worker.step c w (.other o) = { w with db := (Lsm.step c.ext c.x c.table w.db o).2 } := by
      unfold Worker.step; simp only; rw [if_pos (hf o List.mem_cons_self)]
    change Worker.run c (Worker.step c w (.other o)) (ops.map .other) = _
    rw [e0, others_run c ops _ (fun o' ho' => hf o' (List.mem_cons_of_mem _ ho'))]
    rfl

private theorem stale_round {c : Cfg K R} (hn : 0 < c.x.readRows) (hb : c.budget = 1) (hs : 2 ≤ c.slots) {n : Nat} {w : W K R}
    (h : Base c n w) (hi : Idle w) {j : Worker.Job K} (hq : w.queue = [j]) {ops : List (Lsm.Op K R)} (hf : ∀ o ∈ ops, foreign o = true)
    (hhead : noteHead c (Worker.run c w (ops.map .other)).db ≠ noteHead c w.db)
    (hwork : WorkLeft c (Worker.run c w (ops.map .other))) :
    Idle (Worker.run c w (oneRound ops)) ∧ (∃ j', (Worker.run c w (oneRound ops)).queue = [j']) ∧
    (Worker.run c w (oneRound ops)).done = w.done ++ [(j, .skipped)] := by
  obtain ⟨n', hle, hB'⟩ := base_run hn (ops.map .other) h
  have hlt : n < n' := by
    rcases Nat.lt_or_eq_of_le hle with h1 | h1
    · exact h1
    · subst h1
      rw [noteHead_spec hB'.inv, noteHead_spec h.inv] at hhead
      exact absurd rfl hhead
  obtain ⟨k, hk1, hk2, hk3⟩ := h.queue j (by rw [hq]; exact List.mem_cons_self)
  obtain ⟨t, ht⟩ := Option.ne_none_iff_exists'.1 ((plan_iff hB'.inv).2 hwork)
  obtain ⟨i1, i2⟩ := hi
  have e0 : Worker.run c w (ops.map .other) = { w with db := (Lsm.run c.ext c.x c.table w.db ops).2 } :=
    others_run c ops w hf
  rw [e0] at hB' ht
  generalize hdb : (Lsm.run c.ext c.x c.table w.db ops).2 = db at *
  have hinv := hB'.inv
  simp only at hinv ht
  obtain ⟨s1, s2, s3⟩ := start_cases (ext := c.ext) hinv hn j.task k 0 hk1
  rcases s3 with ⟨_, s3, s4⟩ | ⟨s3, _⟩
  swap
  · omega
  have st : ∀ w, Worker.step c w .turn = Worker.turn c w := fun _ => rfl
  have sj : ∀ w, Worker.step c w (.job 0 0 0) = jobStep c w 0 0 0 := fun _ => rfl
  unfold oneRound
  rw [Lemmas.Worker.run_append, e0]
  simp only [Worker.run]
  have e1 : Worker.step c { w with db := db } .trigger = { w with db := db, kicks := 1 } := by
    unfold Worker.step; simp only; rw [i2]
  have e2 : Worker.step c { w with db := db, kicks := 1 } .turn =
      { w with db := db, kicks := 0, control := w.control.reset, phase := .planning 1 } := by
    rw [st]
    unfold Worker.turn
    simp only [i1]
    rw [if_neg (by omega)]
    unfold begin
    rw [hb]
  have e3 : Worker.step c { w with db := db, kicks := 0, control := w.control.reset, phase := .planning 1 } .turn =
      { w with db := db, kicks := 0, control := w.control.reset, phase := .planned 0 t } := by
    rw [st]
    unfold Worker.turn
    simp only
    rw [ht]
  have e4 : Worker.step c { w with db := db, kicks := 0, control := w.control.reset, phase := .planned 0 t } .turn =
      { w with db := db, kicks := 0, control := w.control.reset, phase := .planning 0, queue := [j, ⟨t, lastOf n'⟩] } := by
    rw [st]
    unfold Worker.turn
    simp only
    rw [noteHead_spec hinv]
    simp only
    unfold enqueue
    rw [hq, if_pos (by simp; omega)]
    rfl
  have e5 : Worker.step c { w with db := db, kicks := 0, control := w.control.reset, phase := .planning 0, queue := [j, ⟨t, lastOf n'⟩] } .turn =
      { w with db := db, kicks := 0, control := w.control.reset, phase := .draining [(j, .popped 1)], queue := [⟨t, lastOf n'⟩], applied := false } := by
    rw [st]
    unfold Worker.turn
    simp only
    rw [hb]
    rfl
  have e6 : Worker.step c { w with db := db, kicks := 0, control := w.control.reset, phase := .draining [(j, .popped 1)], queue := [⟨t, lastOf n'⟩], applied := false } (.job 0 0 0) =
      { w with db := (Lsm.step c.ext c.x c.table db (.start j.task j.head 0)).2, kicks := 0, control := w.control.reset,
               phase := .draining [(j, .over)], queue := [⟨t, lastOf n'⟩], applied := false, done := w.done ++ [(j, .skipped)] } := by
    rw [sj]
    unfold jobStep
    simp only [List.length_cons, List.length_nil, Nat.zero_lt_succ, List.getElem?_eq_getElem, List.getElem_cons_zero]
    unfold act
    simp only
    rw [hk3, s3]
    rfl
  rw [e1, e2, e3, e4, e5, e6]
  have e7 : ∀ db', Worker.step c
      { w with db := db', kicks := 0, control := w.control.reset,
               phase := .draining [(j, .over)], queue := [⟨t, lastOf n'⟩], applied := false, done := w.done ++ [(j, .skipped)] } .turn =
      { w with db := db', kicks := 0, control := w.control.reset,
               phase := .waiting, queue := [⟨t, lastOf n'⟩], applied := false, done := w.done ++ [(j, .skipped)] } := by
    intro db'
    rw [st]
    unfold Worker.turn
    simp only
    rw [if_pos (by rfl), if_neg (by simp)]
  rw [e7]
  exact ⟨⟨rfl, rfl⟩, ⟨_, rfl⟩, rfl⟩

/-- **C65, does not hold with a larger queue.** A worker that runs one job at a time with room for two in
its queue, and one job left in the queue when it comes to rest: it plans a job each time something is
published, then runs the one planned the time before, which is out of date by now. So it goes on, however
often: nothing is compacted although there is work. -/
theorem a_queued_job_is_always_out_of_date (c : Cfg K R) (hn : 0 < c.x.readRows) (hb : max c.maxJobs 1 = 1)
    (hs : 2 ≤ c.capacity) (cap sv : Nat) (pre : List (Worker.Op K R)) (hidle : Idle (lived c cap sv pre))
    (hq : (lived c cap sv pre).queue.length = 1) (ops : List (List (Lsm.Op K R)))
    (hops : KeepsBusy c (lived c cap sv pre) ops) :
    Idle (lived c cap sv (pre ++ ops.flatMap oneRound)) ∧
    ∃ js : List (Worker.Job K), js.length = ops.length ∧ (lived c cap sv (pre ++ ops.flatMap oneRound)).done =
      (lived c cap sv pre).done ++ js.map (fun j => (j, .skipped)) := by
  obtain ⟨n, h⟩ := lived_base c hn cap sv pre
  have e : lived c cap sv (pre ++ ops.flatMap oneRound) = Worker.run c (lived c cap sv pre) (ops.flatMap oneRound) := by
    unfold lived; rw [Lemmas.Worker.run_append]
  rw [e]
  clear e
  have hb' : c.budget = 1 := hb
  have hs' : 2 ≤ c.slots := by unfold Cfg.slots; omega
  generalize lived c cap sv pre = w at h hidle hq hops
  induction ops generalizing w n with
  | nil => exact ⟨hidle, [], rfl, by simp [Worker.run]⟩
  | cons op ops ih =>
    obtain ⟨j, hj⟩ := List.length_eq_one_iff.1 hq
    obtain ⟨g1, g2, g3, g4⟩ := hops
    obtain ⟨f1, ⟨j', f2⟩, f3⟩ := stale_round hn hb' hs' h hidle hj g1 g2 g3
    obtain ⟨n1, _, hB⟩ := base_run hn (oneRound op) h
    obtain ⟨i1, js, i2, i3⟩ := ih n1 (Worker.run c w (oneRound op)) hB f1 (by rw [f2]; rfl) g4
    rw [List.flatMap_cons, Lemmas.Worker.run_append]
    refine ⟨i1, j :: js, by rw [List.length_cons, List.length_cons, i2], ?_⟩
    rw [i3, f3]
    simp

/-! ## Concrete histories

Level 0 is merged from two tables on, two at a time; more than one table on level 1 are too many. -/
section Example

def exCfg (jobs capacity : Nat) : Cfg Nat Nat :=
  ⟨C38.exExt, C38.exX, C39.exSorter, ⟨2, 2, none, [1, 5], [], 4, none⟩, 1, jobs, capacity, 1, 0⟩

/-- A flush of one row. -/
def exFlush (r ts : Nat) : List (Lsm.Op Nat Nat) :=
  [.write (.put [(r, ts)]), .write .freeze, .flushWrite none, .flushPublish, .flushDrain]

def exFl (r ts : Nat) : List (Worker.Op Nat Nat) := (exFlush r ts).map .other

def exTurns (n : Nat) : List (Worker.Op Nat Nat) := List.replicate n .turn

def exJob (n : Nat) : List (Worker.Op Nat Nat) := List.replicate n (.job 0 5 0)

/-- Two flushes, before the worker is asked. -/
def exTwo : List (Worker.Op Nat Nat) := exTurns 4 ++ exFl 11 1 ++ exFl 21 2

theorem work_of {jobs capacity cap sv : Nat} {ops : List (Worker.Op Nat Nat)}
    (h : (planFrom (exCfg jobs capacity) (lived (exCfg jobs capacity) cap sv ops).db 0).isSome = true) :
    WorkLeft (exCfg jobs capacity) (lived (exCfg jobs capacity) cap sv ops) := by
  obtain ⟨n, hB⟩ := lived_base (exCfg jobs capacity) (show 0 < C38.exX.readRows by decide) cap sv ops
  refine (plan_iff hB.inv).1 (fun e => ?_)
  rw [e] at h
  cases h

theorem no_work_of {jobs capacity cap sv : Nat} {ops : List (Worker.Op Nat Nat)}
    (h : (planFrom (exCfg jobs capacity) (lived (exCfg jobs capacity) cap sv ops).db 0).isSome = false) :
    ¬ WorkLeft (exCfg jobs capacity) (lived (exCfg jobs capacity) cap sv ops) := by
  obtain ⟨n, hB⟩ := lived_base (exCfg jobs capacity) (show 0 < C38.exX.readRows by decide) cap sv ops
  intro hw
  obtain ⟨t, ht⟩ := Option.ne_none_iff_exists'.1 ((plan_iff hB.inv).2 hw)
  rw [ht] at h
  cases h

/-- Two jobs at once: there is work, the worker is about to plan, and both jobs are the same; the second
is dropped. -/
example : (lived (exCfg 2 2) 4 0 (exTwo ++ .trigger :: exTurns 1)).phase = .planning (max 2 1) ∧
    (lived (exCfg 2 2) 4 0 (exTwo ++ .trigger :: exTurns 1)).queue = [] ∧
    WorkLeft (exCfg 2 2) (lived (exCfg 2 2) 4 0 (exTwo ++ .trigger :: exTurns 1)) ∧
    (lived (exCfg 2 2) 4 0 (exTwo ++ .trigger :: exTurns 6 ++
      [.job 0 5 0, .job 1 5 0, .job 0 5 0, .job 1 5 0, .job 0 5 0, .job 1 5 0])).done.map (·.2) = [.published, .skipped] :=
  ⟨rfl, rfl, work_of rfl, rfl⟩

/-- One job at a time: the worker is asked, and comes to rest with nothing left to do. -/
example : ((∀ o ∈ exTurns 4 ++ exJob 4 ++ exTurns 1, Unpublished o) ∧
    Idle (lived (exCfg 1 1) 4 0 (exTwo ++ .trigger :: (exTurns 4 ++ exJob 4 ++ exTurns 1)))) ∧
    WorkLeft (exCfg 1 1) (lived (exCfg 1 1) 4 0 exTwo) ∧
    ¬ WorkLeft (exCfg 1 1) (lived (exCfg 1 1) 4 0 (exTwo ++ .trigger :: (exTurns 4 ++ exJob 4 ++ exTurns 1))) ∧
    (lived (exCfg 1 1) 4 0 (exTwo ++ .trigger :: (exTurns 4 ++ exJob 4 ++ exTurns 1))).done.map (·.2) = [.published] := by
  refine ⟨⟨?_, rfl, rfl⟩, work_of rfl, no_work_of rfl, rfl⟩
  intro o ho
  simp only [exTurns, exJob, List.mem_append, List.mem_replicate] at ho
  rcases ho with (⟨_, rfl⟩ | ⟨_, rfl⟩) | ⟨_, rfl⟩ <;> trivial

/-- Writers stop at two tables on level 0. -/
def exStop : Policy.Config := ⟨1, 2, none, none, 0, 0⟩

example : Within (exCfg 1 1).planner exStop ∧ Stalled exStop (exCfg 1 1) (lived (exCfg 1 1) 4 0 exTwo) :=
  ⟨⟨by decide, by decide, by intro s hs; cases hs⟩, _, rfl⟩

/-- Storage fails under the one job: the worker is at rest, and the writer told to wait. -/
example : Idle (lived (exCfg 1 1) 4 0 (exTwo ++ .trigger :: exTurns 4 ++ .fail 0 :: exTurns 1)) ∧
    Stalled exStop (exCfg 1 1) (lived (exCfg 1 1) 4 0 (exTwo ++ .trigger :: exTurns 4 ++ .fail 0 :: exTurns 1)) ∧
    (lived (exCfg 1 1) 4 0 (exTwo ++ .trigger :: exTurns 4 ++ .fail 0 :: exTurns 1)).done.map (·.2) = [.failed] :=
  ⟨⟨rfl, rfl⟩, ⟨_, rfl⟩, rfl⟩

/-- Writers stop at one table, the planner starts at two. -/
def exLow : Policy.Config := ⟨1, 1, none, none, 0, 0⟩

example : (lived (exCfg 1 1) 4 0 (exTurns 4 ++ exFl 11 1)).phase = .waiting ∧
    (lived (exCfg 1 1) 4 0 (exTurns 4 ++ exFl 11 1)).queue = [] ∧
    ¬ WorkLeft (exCfg 1 1) (lived (exCfg 1 1) 4 0 (exTurns 4 ++ exFl 11 1)) ∧
    Stalled exLow (exCfg 1 1) (lived (exCfg 1 1) 4 0 (exTurns 4 ++ exFl 11 1)) :=
  ⟨rfl, rfl, no_work_of rfl, _, rfl⟩

@[instance_reducible] private def waits (p : Phase Nat) : Decidable (p = .waiting) :=
  match p with
  | .waiting => .isTrue rfl
  | .planning _ => .isFalse nofun
  | .planned _ _ => .isFalse nofun
  | .draining _ => .isFalse nofun

attribute [local instance] waits

/-- Room for two jobs: one that follows another leaves the queue one job behind. -/
def exBehind : List (Worker.Op Nat Nat) :=
  exTwo ++ .trigger :: exTurns 4 ++ exJob 4 ++ exTurns 1 ++ exFl 31 3 ++ exFl 41 4 ++ .trigger :: exTurns 4 ++ exJob 4 ++
  exTurns 4 ++ exJob 3 ++ exTurns 1 ++ exFl 51 5 ++ exFl 61 6 ++ exFl 71 7 ++ exFl 81 8 ++ .trigger :: exTurns 4 ++ exJob 1 ++
  exTurns 5 ++ exJob 4 ++ exTurns 4 ++ exJob 1 ++ exTurns 1

/-- The worker is at rest with one job queued and work left; the next two flushes change nothing. -/
example : max (exCfg 1 2).maxJobs 1 = 1 ∧ 2 ≤ (exCfg 1 2).capacity ∧ Idle (lived (exCfg 1 2) 4 0 exBehind) ∧
    (lived (exCfg 1 2) 4 0 exBehind).queue.length = 1 ∧
    KeepsBusy (exCfg 1 2) (lived (exCfg 1 2) 4 0 exBehind) [exFlush 91 9, exFlush 12 10] := by
  have e : ∀ a b : List (Worker.Op Nat Nat),
      Worker.run (exCfg 1 2) (lived (exCfg 1 2) 4 0 a) b = lived (exCfg 1 2) 4 0 (a ++ b) := by
    intro a b; unfold lived; rw [Lemmas.Worker.run_append]
  refine ⟨rfl, by decide, ⟨by decide +kernel, by decide +kernel⟩, by decide +kernel, by decide, by decide +kernel, ?_, by decide, ?_, ?_, trivial⟩
  · rw [e]; exact work_of (by decide +kernel)
  · rw [e, e]; exact by decide +kernel
  · rw [e, e]; exact work_of (by decide +kernel)

end Example

end Tonbo.Props.C65
