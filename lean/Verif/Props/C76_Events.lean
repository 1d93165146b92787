import Verif.Lemmas.WorkerEvents
import Verif.Props.C76_Counters

/-!
# C76: follow-ups, full queues and times are counted exactly
-/

set_option linter.unusedSectionVars false

namespace Tonbo.Props.C76
open Tonbo.Model Tonbo.Model.Manifest Tonbo.Model.Planner Tonbo.Model.Lsm Tonbo.Model.Worker Tonbo.Model.WStats Tonbo.Spec
open Tonbo.Lemmas.Worker

variable {K R : Type} [LinearOrder K]

/-- **C76.** How many follow-ups got into the queue, how many found it full, how many planned tasks found it full, how
often no follow-up was looked for because of the cooldown, and how often because the cycle had had all it may have: each
is counted exactly, up to the largest value. -/
theorem happenings_are_counted (c : Cfg K R) (hn : 0 < c.x.readRows) (cap sv : Nat) (pre : List (Worker.Op K R))
    (ss : List (Worker.Op K R × Nat × Bool)) (hs : OneProcess ss) (h : Happening) :
    h.told (counted c cap sv pre ss).k = min (h.times c (lived c cap sv pre) (ss.map (·.1))) (2 ^ 64 - 1) := by
  obtain ⟨n, hB⟩ := C65.lived_base c hn cap sv pre
  have e : h.told ({} : Counters) = 0 := by cases h <;> rfl
  have := watch_counts hn h ss n ⟨lived c cap sv pre, {}⟩ hB (cool_run pre (cool_new c cap sv)) hs (by simp only [e]; exact Nat.zero_le _)
  simp only [e, Nat.zero_add] at this
  exact this

/-- **C76.** The time counted is the time of the published jobs. -/
theorem the_time_of_published_jobs_is_counted (c : Cfg K R) (hn : 0 < c.x.readRows) (cap sv : Nat)
    (pre : List (Worker.Op K R)) (ss : List (Worker.Op K R × Nat × Bool)) (hs : OneProcess ss) :
    (counted c cap sv pre ss).k.ms = min (jobTime c (lived c cap sv pre) ss) (2 ^ 64 - 1) := by
  obtain ⟨n, hB⟩ := C65.lived_base c hn cap sv pre
  have := watch_ms hn ss n ⟨lived c cap sv pre, {}⟩ hB (shaped_run hn pre (base_new c cap sv) (shaped_new c cap sv)) hs
    (Nat.zero_le _)
  simp only [Nat.zero_add] at this
  exact this

/-- **C76.** A new process counts from zero: whatever was counted before it, its counters are those of a process that
starts to count when it opens the table. -/
theorem a_new_process_counts_from_zero (c : Cfg K R) (cap sv : Nat) (pre : List (Worker.Op K R))
    (ss ss' : List (Worker.Op K R × Nat × Bool)) (cap' ms : Nat) (b : Bool) :
    (counted c cap sv pre (ss ++ (.restart cap', ms, b) :: ss')).k =
      (counted c cap sv (pre ++ ss.map (·.1) ++ [.restart cap']) ss').k := by
  unfold counted
  rw [watch_append]
  change (watch c (obs c (watch c ⟨lived c cap sv pre, {}⟩ ss) (.restart cap', ms, b)) ss').k = _
  have e : obs c (watch c ⟨lived c cap sv pre, {}⟩ ss) (.restart cap', ms, b) =
      ⟨lived c cap sv (pre ++ ss.map (·.1) ++ [.restart cap']), {}⟩ := by
    unfold obs lived
    rw [watch_w, Lemmas.Worker.run_append, Lemmas.Worker.run_append]
    rfl
  rw [e]

/-- **C76.** Statistics that are missing are not taken for zero: one table without statistics makes its side incomplete,
and the sums of a counted job then leave out that side, and only that side. -/
theorem incomplete_sides_are_left_out (k : Counters) (j : Worker.Job K) (ins outs : List (Desc K)) (ms r : Nat) (a : Bool)
    (m : Measure) :
    let S := summary j ins outs ms r a
    (S.input.complete = true ↔ ∀ d ∈ ins, d.stats.isSome) ∧ (S.output.complete = true ↔ ∀ d ∈ outs, d.stats.isSome) ∧
    m.taken (k.success S) =
      (if S.input.complete then min (m.taken k + m.side S.input) (2 ^ 64 - 1) else m.taken k) ∧
    m.written (k.success S) =
      (if S.output.complete then min (m.written k + m.side S.output) (2 ^ 64 - 1) else m.written k) := by
  have comp : ∀ (l : List (Desc K)) (s : Io), (l.foldl Io.add s).complete = true ↔ s.complete = true ∧ ∀ d ∈ l, d.stats.isSome := by
    intro l
    induction l with
    | nil => intro s; simp
    | cons d l ih =>
      intro s
      rw [List.foldl_cons, ih]
      unfold Io.add
      cases hd : d.stats <;> simp [hd]
  intro S
  refine ⟨(comp ins Io.zero).trans (by simp [Io.zero]), (comp outs Io.zero).trans (by simp [Io.zero]), ?_, ?_⟩ <;>
    cases m <;> rfl

/-- **C76.** A follow-up always finds room in the queue: the counter for follow-ups that found it full stays zero,
whatever capacity and number of jobs are configured. -/
theorem follow_ups_find_room (c : Cfg K R) (hn : 0 < c.x.readRows) (cap sv : Nat) (pre : List (Worker.Op K R))
    (ss : List (Worker.Op K R × Nat × Bool)) (hs : OneProcess ss) : (counted c cap sv pre ss).k.cascadeFull = 0 := by
  have h := happenings_are_counted c hn cap sv pre ss hs .followFull
  obtain ⟨n, hB⟩ := C65.lived_base c hn cap sv pre
  have hR : Room c (lived c cap sv pre) := room_run hn pre (base_new c cap sv) (room_new c cap sv)
  rw [never_full hn (ss.map (·.1)) hB hR] at h
  exact h

/-! ## Concrete histories -/

/-- The history of C65, counted from the beginning. -/
def exLong : List (Worker.Op Nat Nat × Nat × Bool) := C65.exBehind.map (fun o => (o, 7, true))

theorem exLong_one : OneProcess exLong := by
  have h : C65.exBehind.all (fun o => match o with | .restart _ => false | _ => true) = true := by decide +kernel
  refine exOne (l := C65.exBehind) (f := fun o => (o, 7, true)) (fun _ => rfl) ?_
  intro o ho cap hc
  have := List.all_eq_true.1 h o ho
  rw [hc] at this
  cases this

/-- Room for two: one follow-up is queued. -/
example : 0 < (C65.exCfg 1 2).x.readRows ∧ OneProcess exLong ∧
    (fun k : Counters => (k.jobs, k.scheduled, k.plannerFull, k.blockedCooldown, k.blockedBudget, k.ms))
      (counted (C65.exCfg 1 2) 4 0 [] exLong).k = (4, 1, 0, 0, 0, 28) :=
  ⟨by decide, exLong_one, by decide +kernel⟩

/-- Room for one: a planned task finds the queue full. -/
example : (fun k : Counters => (k.jobs, k.scheduled, k.plannerFull, k.blockedCooldown, k.blockedBudget, k.ms))
      (counted (C65.exCfg 1 1) 4 0 [] exLong).k = (4, 1, 1, 0, 0, 28) := by decide +kernel

/-- No follow-ups are allowed: three times none is looked for. -/
example : (fun k : Counters => (k.jobs, k.scheduled, k.plannerFull, k.blockedCooldown, k.blockedBudget, k.ms))
      (counted { C65.exCfg 1 2 with followUps := 0 } 4 0 [] exLong).k = (4, 0, 0, 0, 3, 28) := by decide +kernel

/-- A cooldown: two times none is looked for. -/
example : (fun k : Counters => (k.jobs, k.scheduled, k.plannerFull, k.blockedCooldown, k.blockedBudget, k.ms))
      (counted { C65.exCfg 1 2 with cooldown := 9 } 4 0 [] exLong).k = (4, 0, 0, 2, 0, 28) := by decide +kernel

/-- A table without statistics: the side it is on is left out. -/
example : (fun k : Counters => (k.rowsIn, k.rowsOut)) (({} : Counters).success (summary (K := Nat) ⟨⟨0, 1, [], none⟩, none⟩
      [⟨1, 0, some ⟨3, 30, 0, none, none, none, none⟩, none, none, none⟩, ⟨2, 0, none, none, none, none⟩]
      [⟨3, 1, some ⟨3, 30, 0, none, none, none, none⟩, none, none, none⟩] 7 0 false)) = (0, 3) := by decide

end Tonbo.Props.C76
