import Verif.Spec.WorkerFair
import Verif.Lemmas.WorkerTick
import Verif.Props.C65_Worker

/-!
# C75: compaction comes to an end
-/

set_option linter.unusedSectionVars false

namespace Tonbo.Props.C75
open Tonbo.Model Tonbo.Model.Manifest Tonbo.Model.Planner Tonbo.Model.Lsm Tonbo.Model.Worker Tonbo.Spec
open Tonbo.Lemmas.Manifest Tonbo.Lemmas.Lsm Tonbo.Lemmas.Worker

variable {K R : Type} [LinearOrder K]

private theorem lived_shaped (c : Cfg K R) (hn : 0 < c.x.readRows) (cap sv : Nat) (ops : List (Worker.Op K R)) :
    Shaped c (lived c cap sv ops) := shaped_run hn ops (base_new c cap sv) (shaped_new c cap sv)

private theorem lived_along (c : Cfg K R) (cap sv : Nat) (pre : List (Worker.Op K R)) (f : Nat → Worker.Op K R) (i : Nat) :
    lived c cap sv (pre ++ firstSteps f i) = along c (lived c cap sv pre) f i := by
  unfold lived firstSteps
  rw [Lemmas.Worker.run_append, along_run]

private theorem fairly {c : Cfg K R} {f : Nat → Worker.Op K R} (h : Fair c f) : Fairly c f := h

private theorem noFlush_of {o : Worker.Op K R} (h : o ≠ .other .flushPublish) : noFlush o = true := by
  cases o with
  | other op => cases op <;> first | rfl | exact absurd rfl h
  | _ => rfl

private theorem ne_flush {o : Worker.Op K R} (h : Unpublished o) : o ≠ .other .flushPublish := by
  rintro rfl
  exact h

private theorem unasked_of {o : Worker.Op K R} (h : Unasked o) : unasked o = true := by
  cases o <;> first | rfl | exact h.elim

private theorem lives_of {o : Worker.Op K R} (h : ∀ cap, o ≠ .restart cap) : lives o = true := by
  cases o <;> first | rfl | exact absurd rfl (h _)

private theorem constant {α : Type} {g : Nat → α} {N : Nat} (h : ∀ i, N ≤ i → g (i + 1) = g i) :
    ∀ i, N ≤ i → g i = g N := by
  intro i hi
  induction i, hi using Nat.le_induction with
  | base => rfl
  | succ m hm ih => rw [h m hm, ih]

/-- **C75.** If no flush is published any more, the worker publishes only finitely many compactions: from
some step on no job is published, whatever the order of the steps, with any number of jobs at once, with
triggers, storage failures, strict commits and restarts in between. -/
theorem compactions_come_to_an_end (c : Cfg K R) (hn : 0 < c.x.readRows) (cap sv : Nat) (pre : List (Worker.Op K R))
    (f : Nat → Worker.Op K R) (hf : ∀ i, f i ≠ .other .flushPublish) :
    ∃ n, ∀ i, n ≤ i → endedAs .published (lived c cap sv (pre ++ firstSteps f i)) =
      endedAs .published (lived c cap sv (pre ++ firstSteps f n)) := by
  obtain ⟨m, hB⟩ := C65.lived_base c hn cap sv pre
  obtain ⟨N, hN⟩ := publications_end hn hB (lived_shaped c hn cap sv pre) (fun i => noFlush_of (hf i))
  refine ⟨N, ?_⟩
  simp only [lived_along]
  apply constant
  intro i hi
  unfold endedAs
  rw [(hN i hi).2]

/-- **C75.** If nobody else publishes, the table has a last version: from some step on its latest version
stays the same. -/
theorem the_table_settles (c : Cfg K R) (hn : 0 < c.x.readRows) (cap sv : Nat) (pre : List (Worker.Op K R))
    (f : Nat → Worker.Op K R) (hf : ∀ i, Unpublished (f i)) :
    ∃ n, ∀ i, n ≤ i → ∀ v, Latest (lived c cap sv (pre ++ firstSteps f i)).db c.table v ↔
      Latest (lived c cap sv (pre ++ firstSteps f n)).db c.table v := by
  obtain ⟨m, hB⟩ := C65.lived_base c hn cap sv pre
  have hS := lived_shaped c hn cap sv pre
  obtain ⟨N, hN⟩ := publications_end hn hB hS (fun i => noFlush_of (ne_flush (hf i)))
  refine ⟨N, fun i hi v => ?_⟩
  simp only [lived_along]
  have hkv : (along c (lived c cap sv pre) f i).db.kv = (along c (lived c cap sv pre) f N).db.kv := by
    refine constant (g := fun i => (along c (lived c cap sv pre) f i).db.kv) ?_ i hi
    intro i hi
    obtain ⟨⟨n', h1⟩, h2⟩ := along_ok hn hB hS f i
    exact kv_step hn h1 h2 (C65.silent_of (hf i)) (pubs_of_filter (hN i hi).2)
  unfold Latest Published
  rw [hkv]

/-- **C75.** A worker that is scheduled fairly comes to rest, for good, if no flush is published and nobody
asks it any more. -/
theorem the_worker_comes_to_rest (c : Cfg K R) (hn : 0 < c.x.readRows) (cap sv : Nat) (pre : List (Worker.Op K R))
    (f : Nat → Worker.Op K R) (hfair : Fair c f) (hf : ∀ i, f i ≠ .other .flushPublish) (hu : ∀ i, Unasked (f i)) :
    ∃ n, ∀ i, n ≤ i → Idle (lived c cap sv (pre ++ firstSteps f i)) := by
  obtain ⟨m, hB⟩ := C65.lived_base c hn cap sv pre
  obtain ⟨N, hN⟩ := rests hn hB (lived_shaped c hn cap sv pre) (fairly hfair) (fun i => noFlush_of (hf i))
    (fun i => unasked_of (hu i))
  refine ⟨N, fun i hi => ?_⟩
  rw [lived_along]
  exact hN i hi

/-- **C75, partial.** With a queue no larger than the number of jobs: asked once and scheduled fairly, the
worker comes to rest with no level over its limits, unless a job failed. Missing: larger queues (C65). -/
theorem asked_once_partial (c : Cfg K R) (hn : 0 < c.x.readRows) (hcap : c.capacity ≤ max c.maxJobs 1) (cap sv : Nat)
    (pre : List (Worker.Op K R)) (f : Nat → Worker.Op K R) (hfair : Fair c f) (hf : ∀ i, Unpublished (f i))
    (hu : ∀ i, Unasked (f i)) :
    ∃ n, ∀ i, n ≤ i → Idle (lived c cap sv (pre ++ .trigger :: firstSteps f i)) ∧
      (¬ WorkLeft c (lived c cap sv (pre ++ .trigger :: firstSteps f i)) ∨
        ∃ e ∈ (lived c cap sv (pre ++ .trigger :: firstSteps f i)).done.drop (lived c cap sv pre).done.length,
          e.2 = .failed) := by
  obtain ⟨n, h⟩ := the_worker_comes_to_rest c hn cap sv (pre ++ [.trigger]) f hfair (fun i => ne_flush (hf i)) hu
  refine ⟨n, fun i hi => ?_⟩
  have h1 := h i hi
  rw [List.append_assoc, List.singleton_append] at h1
  refine ⟨h1, C65.the_worker_catches_up_partial c hn hcap cap sv pre (firstSteps f i) ?_ h1⟩
  intro o ho
  obtain ⟨k, _, rfl⟩ := List.mem_map.1 ho
  exact hf k

/-- **C75, partial.** A writer told to wait asks the worker once; with the limits of the planner within the
stop limits it is let go after finitely many steps, unless a job failed. -/
theorem a_waiting_writer_is_let_go_in_the_end_partial (c : Cfg K R) (hn : 0 < c.x.readRows)
    (hcap : c.capacity ≤ max c.maxJobs 1) (b : Policy.Config) (hb : C65.Within c.planner b) (cap sv : Nat)
    (pre : List (Worker.Op K R)) (f : Nat → Worker.Op K R) (hfair : Fair c f) (hf : ∀ i, Unpublished (f i))
    (hu : ∀ i, Unasked (f i)) :
    ∃ n, ∀ i, n ≤ i → ¬ Stalled b c (lived c cap sv (pre ++ .trigger :: firstSteps f i)) ∨
      ∃ e ∈ (lived c cap sv (pre ++ .trigger :: firstSteps f i)).done.drop (lived c cap sv pre).done.length,
        e.2 = .failed := by
  obtain ⟨n, h⟩ := asked_once_partial c hn hcap cap sv pre f hfair hf hu
  refine ⟨n, fun i hi => ?_⟩
  obtain ⟨m, hB⟩ := C65.lived_base c hn cap sv (pre ++ .trigger :: firstSteps f i)
  rcases (h i hi).2 with h1 | h1
  · exact .inl (fun hc => h1 (C65.stalled_work hb hB.inv hc))
  · exact .inr h1

/-- **C75.** A worker that is asked again and again, as by a periodic tick, overcomes any finite number of
failed jobs, and jobs that were left behind in a large queue: from some step on no level is over its
limits. -/
theorem ticks_overcome_failures (c : Cfg K R) (hn : 0 < c.x.readRows)
    (cap sv : Nat) (pre : List (Worker.Op K R)) (f : Nat → Worker.Op K R) (hfair : Fair c f) (hask : KeepsAsking f)
    (hf : ∀ i, Unpublished (f i)) (hr : ∀ i cap', f i ≠ .restart cap') (hfail : FailuresEnd c cap sv pre f) :
    ∃ n, ∀ i, n ≤ i → ¬ WorkLeft c (lived c cap sv (pre ++ firstSteps f i)) := by
  obtain ⟨m, hB⟩ := C65.lived_base c hn cap sv pre
  have hS := lived_shaped c hn cap sv pre
  obtain ⟨N, hN⟩ := publications_end hn hB hS (fun i => noFlush_of (ne_flush (hf i)))
  obtain ⟨M, hM⟩ := hfail
  have hflt : ∀ i, max N M ≤ i → (along c (lived c cap sv pre) f (i + 1)).done.filter (fun e => decide (e.2 = .failed)) =
      (along c (lived c cap sv pre) f i).done.filter (fun e => decide (e.2 = .failed)) := by
    intro i hi
    have h1 := (hM (i + 1) (by omega)).trans (hM i (by omega)).symm
    rw [lived_along, lived_along] at h1
    unfold endedAs at h1
    obtain ⟨⟨n', h2⟩, _⟩ := along_ok hn hB hS f i
    obtain ⟨l, hl⟩ := done_step hn h2 (f i)
    rw [along_succ] at h1 ⊢
    rw [← hl, List.filter_append] at h1 ⊢
    have h3 := congrArg List.length h1
    rw [List.map_append, List.length_append, List.length_map, List.length_map] at h3
    have : l.filter (fun e => decide (e.2 = .failed)) = [] := List.length_eq_zero_iff.1 (by omega)
    rw [this, List.append_nil]
  have key := nothing_left hn hB hS (fairly hfair) (fun i => lives_of (hr i)) (fun i => C65.silent_of (hf i)) hask
    (N := max N M) (fun i hi => pubs_of_filter (hN i (by omega)).2) hflt
  refine ⟨max N M, fun i hi hw => ?_⟩
  rw [lived_along] at hw
  obtain ⟨⟨n', h1⟩, _⟩ := along_ok hn hB hS f i
  exact (C65.plan_iff h1.inv).2 hw (key i hi)

/-- **C75.** So with a periodic tick a writer told to wait is let go, however many jobs fail in
between, as long as it is finitely many. -/
theorem ticks_let_writers_go (c : Cfg K R) (hn : 0 < c.x.readRows)
    (b : Policy.Config) (hb : C65.Within c.planner b)
    (cap sv : Nat) (pre : List (Worker.Op K R)) (f : Nat → Worker.Op K R) (hfair : Fair c f) (hask : KeepsAsking f)
    (hf : ∀ i, Unpublished (f i)) (hr : ∀ i cap', f i ≠ .restart cap') (hfail : FailuresEnd c cap sv pre f) :
    ∃ n, ∀ i, n ≤ i → ¬ Stalled b c (lived c cap sv (pre ++ firstSteps f i)) := by
  obtain ⟨n, h⟩ := ticks_overcome_failures c hn cap sv pre f hfair hask hf hr hfail
  refine ⟨n, fun i hi hst => ?_⟩
  obtain ⟨m, hB⟩ := C65.lived_base c hn cap sv (pre ++ firstSteps f i)
  exact h i hi (C65.stalled_work hb hB.inv hst)

/-! ## A concrete schedule

The configuration of C65: two tables on level 0 are too many. -/
section Example

/-- The loop and the one job take turns. -/
def exFair (i : Nat) : Worker.Op Nat Nat := if i % 2 = 0 then .turn else .job 0 5 0

/-- The same, with a tick after each of them. -/
def exTicks (i : Nat) : Worker.Op Nat Nat :=
  if i % 3 = 0 then .turn else if i % 3 = 1 then .job 0 5 0 else .trigger

/-- Storage has failed under the first job, and the worker is at rest. -/
def exFailed : List (Worker.Op Nat Nat) := C65.exTwo ++ .trigger :: C65.exTurns 4 ++ .fail 0 :: C65.exTurns 1

theorem exFair_fair (capacity : Nat) : Fair (C65.exCfg 1 capacity) exFair := by
  refine ⟨fun n => ⟨2 * n, by omega, by simp [exFair]⟩, fun k hk n => ⟨2 * n + 1, by omega, 5, 0, ?_⟩⟩
  have : k = 0 := by
    change k < max 1 1 at hk
    omega
  subst this
  unfold exFair
  rw [if_neg (by omega)]

theorem exTicks_fair (capacity : Nat) : Fair (C65.exCfg 1 capacity) exTicks := by
  refine ⟨fun n => ⟨3 * n, by omega, ?_⟩, fun k hk n => ⟨3 * n + 1, by omega, 5, 0, ?_⟩⟩
  · unfold exTicks
    rw [if_pos (by omega)]
  · have : k = 0 := by
      change k < max 1 1 at hk
      omega
    subst this
    unfold exTicks
    rw [if_neg (by omega), if_pos (by omega)]

theorem exTicks_asks : KeepsAsking exTicks := by
  intro n
  refine ⟨3 * n + 2, by omega, ?_⟩
  unfold exTicks
  rw [if_neg (by omega), if_neg (by omega)]

/-- Nothing to do and nothing queued. -/
private def Done (c : Cfg Nat Nat) (w : W Nat Nat) : Prop :=
  planFrom c w.db 0 = none ∧ w.queue = [] ∧ (w.phase = .waiting ∨ w.phase = .draining [] ∨ ∃ m, w.phase = .planning m)

private theorem done_along {c : Cfg Nat Nat} {w : W Nat Nat} {f : Nat → Worker.Op Nat Nat} {N : Nat}
    (hf : ∀ i, f i = .turn ∨ f i = .job 0 5 0 ∨ f i = .trigger) (h : Done c (along c w f N)) :
    ∀ i, N ≤ i → Done c (along c w f i) ∧ (along c w f i).done = (along c w f N).done := by
  intro i hi
  induction i, hi using Nat.le_induction with
  | base => exact ⟨h, rfl⟩
  | succ m hm ih =>
    obtain ⟨⟨h1, h2, h3⟩, h4⟩ := ih
    rw [along_succ]
    rcases hf m with e | e | e <;> rw [e]
    · change Done c (Worker.turn c _) ∧ (Worker.turn c _).done = _
      unfold Worker.turn
      rcases h3 with h3 | h3 | ⟨k, h3⟩ <;> rw [h3] <;> try simp only
      · split_ifs
        · exact ⟨⟨h1, h2, .inl h3⟩, h4⟩
        · exact ⟨⟨h1, h2, .inr (.inr ⟨_, rfl⟩)⟩, h4⟩
      · rw [if_pos (show allOver ([] : List (Worker.Job Nat × Stage Nat)) = true from rfl), if_neg (by simp [h1])]
        exact ⟨⟨h1, h2, .inl rfl⟩, h4⟩
      · cases k with
        | zero =>
          simp only [h2, List.take_nil, List.map_nil, List.drop_nil]
          exact ⟨⟨h1, rfl, .inr (.inl rfl)⟩, h4⟩
        | succ k =>
          simp only [h1]
          exact ⟨⟨h1, h2, .inr (.inr ⟨_, rfl⟩)⟩, h4⟩
    · have e' : Worker.step c (along c w f m) (.job 0 5 0) = along c w f m := by
        apply jobStep_none
        intro js hjs
        rcases h3 with h3 | h3 | ⟨k, h3⟩ <;> (rw [h3] at hjs; cases hjs)
        rfl
      rw [e']
      exact ⟨⟨h1, h2, h3⟩, h4⟩
    · exact ⟨⟨h1, h2, h3⟩, h4⟩

theorem exTicks_fails : FailuresEnd (C65.exCfg 1 1) 4 0 exFailed exTicks := by
  have hf : ∀ i, exTicks i = .turn ∨ exTicks i = .job 0 5 0 ∨ exTicks i = .trigger := by
    intro i
    unfold exTicks
    split_ifs <;> simp
  refine ⟨40, fun i hi => ?_⟩
  have h0 : Done (C65.exCfg 1 1) (along (C65.exCfg 1 1) (lived (C65.exCfg 1 1) 4 0 exFailed) exTicks 40) := by
    rw [← lived_along]
    refine ⟨?_, ?_, ?_⟩
    · exact Option.isNone_iff_eq_none.1 (by decide +kernel)
    · exact List.isEmpty_iff.1 (by decide +kernel)
    · first
      | exact .inl rfl
      | exact .inr (.inl rfl)
      | exact .inr (.inr ⟨_, rfl⟩)
  have := (done_along hf h0 i hi).2
  unfold endedAs
  rw [lived_along, lived_along, this]

/-- The failed job has left the writer waiting; the ticks start another one. -/
example : (∀ i, Unpublished (exTicks i) ∧ ∀ cap', exTicks i ≠ .restart cap') ∧ Fair (C65.exCfg 1 1) exTicks ∧
    KeepsAsking exTicks ∧ FailuresEnd (C65.exCfg 1 1) 4 0 exFailed exTicks ∧
    Idle (lived (C65.exCfg 1 1) 4 0 exFailed) ∧ WorkLeft (C65.exCfg 1 1) (lived (C65.exCfg 1 1) 4 0 exFailed) ∧
    Stalled C65.exStop (C65.exCfg 1 1) (lived (C65.exCfg 1 1) 4 0 exFailed) ∧
    (lived (C65.exCfg 1 1) 4 0 (exFailed ++ firstSteps exTicks 40)).done.map (·.2) = [.failed, .published] := by
  refine ⟨fun i => ?_, exTicks_fair 1, exTicks_asks, exTicks_fails, ⟨rfl, rfl⟩, C65.work_of rfl, ⟨_, rfl⟩, by decide +kernel⟩
  unfold exTicks
  split_ifs <;> exact ⟨trivial, by simp⟩

/-- The schedule meets what the theorems ask for; there is work at its start, a writer is told to wait, and
within thirty steps both are over. -/
example : (∀ i, Unpublished (exFair i) ∧ Unasked (exFair i)) ∧ Fair (C65.exCfg 1 1) exFair ∧
    C65.Within (C65.exCfg 1 1).planner C65.exStop ∧
    WorkLeft (C65.exCfg 1 1) (lived (C65.exCfg 1 1) 4 0 C65.exTwo) ∧
    Stalled C65.exStop (C65.exCfg 1 1) (lived (C65.exCfg 1 1) 4 0 C65.exTwo) ∧
    Idle (lived (C65.exCfg 1 1) 4 0 (C65.exTwo ++ .trigger :: firstSteps exFair 30)) ∧
    (lived (C65.exCfg 1 1) 4 0 (C65.exTwo ++ .trigger :: firstSteps exFair 30)).done.map (·.2) = [.published] := by
  refine ⟨fun i => ?_, exFair_fair 1, ⟨by decide, by decide, by intro s hs; cases hs⟩, C65.work_of rfl, ⟨_, rfl⟩, ⟨?_, ?_⟩, ?_⟩
  · unfold exFair
    split_ifs <;> exact ⟨trivial, trivial⟩
  · rfl
  · rfl
  · rfl

end Example

end Tonbo.Props.C75
