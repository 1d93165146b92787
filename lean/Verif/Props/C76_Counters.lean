import Verif.Lemmas.WorkerStats
import Verif.Props.C75_WorkerEnds

/-!
# C76: what the counters of the compactions say
-/

set_option linter.unusedSectionVars false

namespace Tonbo.Props.C76
open Tonbo.Model Tonbo.Model.Manifest Tonbo.Model.Planner Tonbo.Model.Lsm Tonbo.Model.Worker Tonbo.Model.WStats Tonbo.Spec
open Tonbo.Lemmas.Manifest Tonbo.Lemmas.Lsm Tonbo.Lemmas.Worker

variable {K R : Type} [LinearOrder K]

private theorem start (c : Cfg K R) (hn : 0 < c.x.readRows) (cap sv : Nat) (pre : List (Worker.Op K R)) :
    (∃ n, Base c n (lived c cap sv pre)) ∧ Shaped c (lived c cap sv pre) :=
  ⟨C65.lived_base c hn cap sv pre, shaped_run hn pre (base_new c cap sv) (shaped_new c cap sv)⟩

private theorem counted_w (c : Cfg K R) (cap sv : Nat) (pre : List (Worker.Op K R))
    (ss : List (Worker.Op K R × Nat × Bool)) : (counted c cap sv pre ss).w = lived c cap sv (pre ++ ss.map (·.1)) := by
  unfold counted lived
  rw [watch_w, Lemmas.Worker.run_append]

/-- **C76.** The counted run is the run of C65 and C75: counting changes nothing. -/
theorem counting_changes_nothing (c : Cfg K R) (cap sv : Nat) (pre : List (Worker.Op K R))
    (ss : List (Worker.Op K R × Nat × Bool)) : (counted c cap sv pre ss).w = lived c cap sv (pre ++ ss.map (·.1)) :=
  counted_w c cap sv pre ss

/-- **C76.** `job_count` is the number of jobs this process has published, up to the largest value. -/
theorem job_count_is_the_number_of_published_jobs (c : Cfg K R) (hn : 0 < c.x.readRows) (cap sv : Nat)
    (pre : List (Worker.Op K R)) (ss : List (Worker.Op K R × Nat × Bool)) (hs : OneProcess ss) :
    (counted c cap sv pre ss).k.jobs =
      min ((endedAs .published (counted c cap sv pre ss).w).length - (endedAs .published (lived c cap sv pre)).length)
        (2 ^ 64 - 1) := by
  obtain ⟨⟨n, hB⟩, hS⟩ := start c hn cap sv pre
  obtain ⟨⟨p, fl, h1, _, h3, _⟩, _⟩ := watch_jobs hn ss (o := ⟨lived c cap sv pre, {}⟩) hB hS hs
    ⟨Nat.zero_le _, Nat.zero_le _⟩
  change (watch c _ ss).k.jobs = min ((endedAs .published (watch c _ ss).w).length - _) top
  rw [h3, h1]
  simp

/-- **C76, partial.** `job_failures` is at most the number of jobs that failed. It need not be equal: a failure before
the merge is not counted (`a_failure_that_is_not_counted`). -/
theorem job_failures_partial (c : Cfg K R) (hn : 0 < c.x.readRows) (cap sv : Nat)
    (pre : List (Worker.Op K R)) (ss : List (Worker.Op K R × Nat × Bool)) (hs : OneProcess ss) :
    (counted c cap sv pre ss).k.failures + (endedAs .failed (lived c cap sv pre)).length ≤
      (endedAs .failed (counted c cap sv pre ss).w).length := by
  obtain ⟨⟨n, hB⟩, hS⟩ := start c hn cap sv pre
  obtain ⟨⟨p, fl, _, h2, _, h4⟩, _⟩ := watch_jobs hn ss (o := ⟨lived c cap sv pre, {}⟩) hB hS hs
    ⟨Nat.zero_le _, Nat.zero_le _⟩
  change (watch c _ ss).k.failures + _ ≤ (endedAs .failed (watch c _ ss).w).length
  rw [h2]
  simp only at h4 ⊢
  omega

/-- **C76.** Bytes, rows and tombstones are conserved: what the latest version lists at the end of a history, plus what
the counters say jobs have read, is what it listed at the beginning, plus what flushes have added, plus what the
counters say jobs have written. This holds as long as neither counter has reached the largest value. -/
theorem nothing_is_lost_between_the_counters (c : Cfg K R) (hn : 0 < c.x.readRows) (cap sv : Nat)
    (pre : List (Worker.Op K R)) (ss : List (Worker.Op K R × Nat × Bool)) (hs : OneProcess ss) (m : Measure)
    (hi : m.taken (counted c cap sv pre ss).k < 2 ^ 64 - 1) (ho : m.written (counted c cap sv pre ss).k < 2 ^ 64 - 1) :
    listedTotal m.stat c (counted c cap sv pre ss).w.db + m.taken (counted c cap sv pre ss).k =
      listedTotal m.stat c (lived c cap sv pre).db + flushGains m.stat c (lived c cap sv pre) (ss.map (·.1)) +
        m.written (counted c cap sv pre ss).k := by
  obtain ⟨⟨n, hB⟩, hS⟩ := start c hn cap sv pre
  obtain ⟨_, h2⟩ := watch_sides hn m ss (o := ⟨lived c cap sv pre, {}⟩) hB hS hs
    (by cases m <;> exact ⟨Nat.zero_le _, Nat.zero_le _⟩)
  have h3 := h2 hi ho
  have e1 : m.taken ({} : Counters) = 0 := by cases m <;> rfl
  have e2 : m.written ({} : Counters) = 0 := by cases m <;> rfl
  simp only [e1, e2] at h3
  change listedTotal m.stat c (watch c _ ss).w.db + m.taken (watch c _ ss).k = _ + _ + m.written (watch c _ ss).k
  omega

/-- **C76.** When a job is published, the summary of the last job is about that job: its levels, how many tables it took
away and how many it added, and their bytes, rows and tombstones. Its statistics are complete. -/
theorem the_last_job_is_told (c : Cfg K R) (hn : 0 < c.x.readRows) (cap sv : Nat) (pre : List (Worker.Op K R))
    (ss : List (Worker.Op K R × Nat × Bool)) (hs : OneProcess ss) (op : Worker.Op K R) (ms : Nat) (b : Bool)
    (hop : ∀ cap', op ≠ .restart cap') (j : Worker.Job K)
    (hj : (counted c cap sv pre (ss ++ [(op, ms, b)])).w.done = (counted c cap sv pre ss).w.done ++ [(j, .published)]) :
    ∃ S, (counted c cap sv pre (ss ++ [(op, ms, b)])).k.last = some S ∧ S.source = j.task.source ∧
      S.target = j.task.target ∧ S.ms = ms ∧ S.aborted = false ∧ S.input.complete = true ∧ S.output.complete = true ∧
      (listedNow c (counted c cap sv pre (ss ++ [(op, ms, b)])).w.db).length + S.inputs =
        (listedNow c (counted c cap sv pre ss).w.db).length + S.outputs ∧
      ∀ m : Measure, m.side S.input < 2 ^ 64 - 1 → m.side S.output < 2 ^ 64 - 1 →
        listedTotal m.stat c (counted c cap sv pre (ss ++ [(op, ms, b)])).w.db + m.side S.input =
          listedTotal m.stat c (counted c cap sv pre ss).w.db + m.side S.output := by
  obtain ⟨⟨n, hB⟩, hS⟩ := start c hn cap sv (pre ++ ss.map (·.1))
  rw [← counted_w] at hB hS
  have e : counted c cap sv pre (ss ++ [(op, ms, b)]) = obs c (counted c cap sv pre ss) (op, ms, b) := by
    unfold counted
    rw [watch_append]
    rfl
  rw [e] at hj ⊢
  have ht := told hn hB hS (op, ms, b) hop
  cases ht with
  | calm h total done =>
    exfalso
    rw [hj] at done
    rcases done with d | ⟨j', f, hf, d⟩
    · have := congrArg List.length d
      simp at this
    · have := List.append_cancel_left d
      simp only [List.cons.injEq, Prod.mk.injEq, and_true] at this
      rw [← this.2] at hf
      rcases hf with hf | hf <;> cases hf
  | abort S j' h r a total g done =>
    exfalso
    rw [hj] at done
    have := List.append_cancel_left done
    simp at this
  | success ins outs j' h total g hi ho done len =>
    have hjj : j = j' := by
      rw [hj] at done
      have := List.append_cancel_left done
      simpa using this
    subst hjj
    refine ⟨_, by rw [h]; rfl, rfl, rfl, rfl, rfl, (io_of .rows hi).2, (io_of .rows ho).2, len, fun m h1 h2 => ?_⟩
    have e1 := (io_of m hi).1
    have e2 := (io_of m ho).1
    have e3 := total m.stat
    change m.side (Io.of ins) < top at h1
    change m.side (Io.of outs) < top at h2
    change _ + m.side (Io.of ins) = _ + m.side (Io.of outs)
    omega

/-- **C76.** Every cycle the worker begins is counted once, as a kick or as a tick. -/
theorem cycles_are_counted (c : Cfg K R) (cap sv : Nat) (pre : List (Worker.Op K R))
    (ss : List (Worker.Op K R × Nat × Bool)) (hs : OneProcess ss)
    (h1 : (counted c cap sv pre ss).k.kick < 2 ^ 64 - 1) (h2 : (counted c cap sv pre ss).k.periodic < 2 ^ 64 - 1) :
    (counted c cap sv pre ss).k.kick + (counted c cap sv pre ss).k.periodic =
      cycles c (lived c cap sv pre) (ss.map (·.1)) := by
  have := (watch_triggers (c := c) ss ⟨lived c cap sv pre, {}⟩ hs ⟨Nat.zero_le _, Nat.zero_le _⟩).2 h1 h2
  simp only [Nat.zero_add] at this
  exact this

/-- **C76.** For a worker that starts from rest: the decisions about follow-ups are no more than the published jobs from
level 0 to level 1. -/
theorem decisions_about_follow_ups (c : Cfg K R) (hn : 0 < c.x.readRows) (cap sv : Nat)
    (pre : List (Worker.Op K R)) (hp : (lived c cap sv pre).phase = .waiting)
    (ss : List (Worker.Op K R × Nat × Bool)) (hs : OneProcess ss) :
    (counted c cap sv pre ss).k.scheduled + (counted c cap sv pre ss).k.blockedCooldown +
      (counted c cap sv pre ss).k.blockedBudget + (counted c cap sv pre ss).k.cascadeFull +
      ((endedAs .published (lived c cap sv pre)).filter (fun j => decide (j.task.source = 0 ∧ j.task.target = 1))).length ≤
    ((endedAs .published (counted c cap sv pre ss).w).filter
      (fun j => decide (j.task.source = 0 ∧ j.task.target = 1))).length := by
  obtain ⟨⟨n, hB⟩, hS⟩ := start c hn cap sv pre
  have := watch_decides hn ss (o := ⟨lived c cap sv pre, {}⟩) hB hS hs
  have e0 : undecideds (lived c cap sv pre).phase = 0 := by rw [hp]; rfl
  simp only [e0] at this
  rw [← List.countP_eq_length_filter, ← List.countP_eq_length_filter]
  have e1 : decisions ({} : Counters) = 0 := rfl
  rw [e1] at this
  unfold pubTop fromTop decisions at this
  unfold counted
  omega

/-- **C76, the opposite.** `cas_retries` and `cas_aborts` are always zero, although jobs do meet conflicts
(`a_conflict_that_is_not_counted`): after a conflict the head is no longer the one the job has noted, so the job ends
in its second round without saying how many rounds it took. -/
theorem conflicts_are_never_counted (c : Cfg K R) (hn : 0 < c.x.readRows) (cap sv : Nat)
    (pre : List (Worker.Op K R)) (ss : List (Worker.Op K R × Nat × Bool)) (hs : OneProcess ss) :
    (counted c cap sv pre ss).k.retries = 0 ∧ (counted c cap sv pre ss).k.aborts = 0 := by
  obtain ⟨⟨n, hB⟩, hS⟩ := start c hn cap sv pre
  obtain ⟨_, h1, h2⟩ := watch_jobs hn ss (o := ⟨lived c cap sv pre, {}⟩) hB hS hs ⟨Nat.zero_le _, Nat.zero_le _⟩
  exact ⟨h1 rfl, h2⟩

/-! ## Concrete histories

The configuration of C65: two tables on level 0 are too many. Each step takes seven milliseconds. -/
section Example

/-- Two tables are flushed, then the worker merges them. -/
def exDone : List (Worker.Op Nat Nat × Nat × Bool) :=
  (.trigger :: C65.exTurns 4 ++ C65.exJob 3 ++ C65.exTurns 2).map (fun o => (o, 7, true))

/-- The same with a flush between the merge and the manifest call. -/
def exConflict : List (Worker.Op Nat Nat × Nat × Bool) :=
  (.trigger :: C65.exTurns 4 ++ C65.exJob 1 ++ C65.exFl 31 3 ++ C65.exJob 1).map (fun o => (o, 7, false))

theorem exOne {l : List (Worker.Op Nat Nat)} {f : Worker.Op Nat Nat → Worker.Op Nat Nat × Nat × Bool} (h : ∀ o, (f o).1 = o)
    (hl : ∀ o ∈ l, ∀ cap, o ≠ .restart cap) : OneProcess (l.map f) := by
  intro s hs
  obtain ⟨o, ho, rfl⟩ := List.mem_map.1 hs
  rw [h]
  exact hl o ho

private theorem exDone_one : OneProcess exDone := exOne (fun _ => rfl) (by
  intro o ho cap hc
  subst hc
  simp [C65.exTurns, C65.exJob] at ho)

private theorem exConflict_one : OneProcess exConflict := exOne (fun _ => rfl) (by
  intro o ho cap hc
  subst hc
  simp [C65.exTurns, C65.exJob, C65.exFl] at ho)

/-- The worker is at rest when the counting begins; two tables of one row each become one table of two rows; one tick
began one cycle. -/
example : 0 < (C65.exCfg 1 1).x.readRows ∧ OneProcess exDone ∧
    (lived (C65.exCfg 1 1) 4 0 C65.exTwo).phase = .waiting ∧
    (counted (C65.exCfg 1 1) 4 0 C65.exTwo exDone).k =
      { jobs := 1, periodic := 1, bytesIn := 2, bytesOut := 2, rowsIn := 2, rowsOut := 2, ms := 7,
        last := some ⟨0, 1, 2, 1, ⟨2, 2, 0, true⟩, ⟨2, 2, 0, true⟩, 7, 0, false⟩ } ∧
    (listedNow (C65.exCfg 1 1) (lived (C65.exCfg 1 1) 4 0 C65.exTwo).db).length = 2 ∧
    (listedNow (C65.exCfg 1 1) (counted (C65.exCfg 1 1) 4 0 C65.exTwo exDone).w.db).length = 1 ∧
    cycles (C65.exCfg 1 1) (lived (C65.exCfg 1 1) 4 0 C65.exTwo) (exDone.map (·.1)) = 1 := by
  refine ⟨by decide, exDone_one, rfl, ?_, ?_, ?_, ?_⟩ <;> decide +kernel

/-- The flushes, counted as well. -/
def exAll : List (Worker.Op Nat Nat × Nat × Bool) := C65.exTwo.map (fun o => (o, 7, false)) ++ exDone

/-- With the flushes in the history: two rows arrive and no more are listed at the end. -/
example : OneProcess exAll ∧
    flushGains Measure.rows.stat (C65.exCfg 1 1) (lived (C65.exCfg 1 1) 4 0 []) (exAll.map (·.1)) = 2 ∧
    listedTotal Measure.rows.stat (C65.exCfg 1 1) (counted (C65.exCfg 1 1) 4 0 [] exAll).w.db = 2 := by
  refine ⟨?_, by decide +kernel, by decide +kernel⟩
  intro s hs
  unfold exAll at hs
  rcases List.mem_append.1 hs with hs | hs
  · refine exOne (fun _ => rfl) ?_ s hs
    intro o ho cap hc
    subst hc
    simp [C65.exTwo, C65.exTurns, C65.exFl] at ho
  · exact exDone_one s hs

/-- **C76, the opposite.** A job that has merged its tables meets a conflict, removes what it wrote, and ends: no counter
but that of the triggers has moved, and there is no last job. -/
theorem a_conflict_that_is_not_counted : OneProcess exConflict ∧
    (∃ j, (counted (C65.exCfg 1 1) 4 0 C65.exTwo exConflict).w.phase = .draining [(j, .popped 2)]) ∧
    (counted (C65.exCfg 1 1) 4 0 C65.exTwo (exConflict ++ [(.job 0 5 0, 7, false)])).w.done.map (·.2) = [.skipped] ∧
    (counted (C65.exCfg 1 1) 4 0 C65.exTwo (exConflict ++ [(.job 0 5 0, 7, false)])).k = { kick := 1 } :=
  ⟨exConflict_one, ⟨_, rfl⟩, by decide +kernel, by decide +kernel⟩

/-- **C76, the opposite.** If storage fails in its second round instead, the job has failed, and `job_failures` is
zero. -/
theorem a_failure_that_is_not_counted :
    (counted (C65.exCfg 1 1) 4 0 C65.exTwo (exConflict ++ [(.fail 0, 7, false)])).w.done.map (·.2) = [.failed] ∧
    (counted (C65.exCfg 1 1) 4 0 C65.exTwo (exConflict ++ [(.fail 0, 7, false)])).k = { kick := 1 } :=
  ⟨by decide +kernel, by decide +kernel⟩

end Example

end Tonbo.Props.C76
