import Verif.Lemmas.WorkerRest

/-!
# A worker that is asked again and again catches up after failures
-/

set_option linter.unusedSectionVars false

namespace Tonbo.Lemmas.Worker
open Tonbo.Model Tonbo.Model.Manifest Tonbo.Model.Planner Tonbo.Model.Outcome Tonbo.Model.Lsm Tonbo.Model.Worker
open Tonbo.Lemmas.Manifest Tonbo.Lemmas.Lsm Tonbo.Lemmas.Outcome Tonbo.Spec

variable {K R : Type} [LinearOrder K]

def lives : Model.Worker.Op K R → Bool
  | .restart _ => false
  | _ => true

/-- How far the worker is from running the jobs of its queue. -/
def cycleLeft (c : Cfg K R) (w : W K R) : Nat :=
  match w.phase with
  | .planning m => 2 * m
  | .planned m _ => 2 * m + 1
  | .waiting => 2 * c.budget + 1 + (if w.kicks = 0 then 1 else 0)
  | .draining js => 2 * c.budget + 3 + jobsLeft js

/-- The worker takes jobs from its queue. -/
def Draws (w : W K R) (op : Model.Worker.Op K R) : Prop := w.phase = .planning 0 ∧ op = .turn

theorem cycle_step {c : Cfg K R} (hn : 0 < c.x.readRows) {n : Nat} {w : W K R} (hB : Base c n w) (hS : Shaped c w)
    {op : Model.Worker.Op K R} (hop : lives op = true) (hpub : pubs (Model.Worker.step c w op) = pubs w)
    (hd : ¬ Draws w op) :
    cycleLeft c (Model.Worker.step c w op) < cycleLeft c w ∨
    (cycleLeft c (Model.Worker.step c w op) = cycleLeft c w ∧ (Model.Worker.step c w op).phase = w.phase) := by
  have jobs : ∀ w' : W K R, (w' = w ∨ ∃ js js', w.phase = .draining js ∧ w'.phase = .draining js' ∧
      jobsLeft js' < jobsLeft js ∧ w'.kicks + jobsAsk js' ≤ w.kicks + jobsAsk js ∧ w'.applied = w.applied ∧
      w.kicks ≤ w'.kicks) →
      cycleLeft c w' < cycleLeft c w ∨ (cycleLeft c w' = cycleLeft c w ∧ w'.phase = w.phase) := by
    rintro w' (rfl | ⟨js, js', h1, h2, h3, _⟩)
    · exact .inr ⟨rfl, rfl⟩
    · left
      unfold cycleLeft
      rw [h1, h2]
      simp only
      omega
  cases op with
  | restart cap => cases hop
  | trigger =>
    unfold Model.Worker.step cycleLeft
    cases hph : w.phase with
    | waiting =>
      simp only [Nat.add_eq_zero_iff, Nat.one_ne_zero, and_false, if_false]
      by_cases hk : w.kicks = 0
      · rw [if_pos hk]; left; omega
      · rw [if_neg hk]; right; exact ⟨rfl, trivial⟩
    | _ => exact .inr ⟨rfl, rfl⟩
  | other op =>
    right
    unfold Model.Worker.step
    simp only
    split_ifs <;> exact ⟨rfl, rfl⟩
  | turn =>
    change cycleLeft c (Model.Worker.turn c w) < _ ∨ (cycleLeft c (Model.Worker.turn c w) = _ ∧ (Model.Worker.turn c w).phase = _)
    unfold Model.Worker.turn
    cases hph : w.phase with
    | waiting =>
      simp only
      by_cases hk : w.kicks = 0
      · rw [if_pos hk]; exact .inr ⟨rfl, hph⟩
      · rw [if_neg hk]
        left
        unfold cycleLeft begin
        rw [hph]
        simp only [if_neg hk]
        omega
    | planning m =>
      cases m with
      | zero => exact absurd ⟨hph, rfl⟩ hd
      | succ m =>
        left
        simp only
        cases planFrom c w.db 0 with
        | none => unfold cycleLeft; rw [hph]; simp only; omega
        | some t => unfold cycleLeft; rw [hph]; simp only; omega
    | planned m t =>
      left
      simp only
      cases noteHead c w.db with
      | none => unfold cycleLeft; rw [hph]; simp only; omega
      | some hd =>
        simp only
        cases enqueue c w.queue ⟨t, hd⟩ with
        | none => unfold cycleLeft; rw [hph]; simp only; omega
        | some q => unfold cycleLeft; rw [hph]; simp only; omega
    | draining js =>
      simp only
      by_cases ho : allOver js = true
      · rw [if_pos ho]
        left
        by_cases ha : w.applied ∧ planFrom c w.db 0 ≠ none
        · rw [if_pos ha]
          unfold cycleLeft begin
          rw [hph]
          simp only
          omega
        · rw [if_neg ha]
          unfold cycleLeft
          rw [hph]
          simp only
          split_ifs <;> omega
      · rw [if_neg ho]
        exact .inr ⟨rfl, hph⟩
  | job i now skip => exact jobs _ (job_rest hn hB hS i now skip hpub)
  | fail i => exact jobs _ (fail_rest w i)

/-- The worker keeps drawing jobs. -/
theorem draws {c : Cfg K R} (hn : 0 < c.x.readRows) {n : Nat} {w : W K R} (hB : Base c n w) (hS : Shaped c w)
    {f : Nat → Model.Worker.Op K R} (hfair : Fairly c f) (hlive : ∀ i, lives (f i) = true)
    (htick : ∀ N, ∃ i, N ≤ i ∧ f i = .trigger) {N : Nat}
    (hpub : ∀ i, N ≤ i → pubs (along c w f (i + 1)) = pubs (along c w f i)) :
    ∃ i, N ≤ i ∧ Draws (along c w f i) (f i) := by
  by_contra hno
  have hno' : ∀ i, N ≤ i → ¬ Draws (along c w f i) (f i) := fun i hi h => hno ⟨i, hi, h⟩
  have hstep : ∀ i, N ≤ i → cycleLeft c (along c w f (i + 1)) < cycleLeft c (along c w f i) ∨
      (cycleLeft c (along c w f (i + 1)) = cycleLeft c (along c w f i) ∧
        (along c w f (i + 1)).phase = (along c w f i).phase) := by
    intro i hi
    obtain ⟨⟨n', h1⟩, h2⟩ := along_ok hn hB hS f i
    exact cycle_step hn h1 h2 (hlive i) (hpub i hi) (hno' i hi)
  obtain ⟨M, hM⟩ := settles (T := 0) (g := fun i _ => cycleLeft c (along c w f (N + i))) (fun i => by
    rcases hstep (N + i) (by omega) with h | ⟨h, _⟩
    · exact .inr ⟨0, Nat.le_refl _, h, fun l hl => absurd hl (Nat.not_lt_zero _)⟩
    · left; funext l; exact h)
  have hquiet : ∀ i, N + M ≤ i → cycleLeft c (along c w f (i + 1)) = cycleLeft c (along c w f i) ∧
      (along c w f (i + 1)).phase = (along c w f i).phase := by
    intro i hi
    rcases hstep i (by omega) with h | h
    · exfalso
      refine hM (i - N) (by omega) ?_
      have e : N + (i - N) = i := by omega
      have e' : N + (i - N + 1) = i + 1 := by omega
      refine ⟨0, Nat.le_refl _, ?_, fun l hl => absurd hl (Nat.not_lt_zero _)⟩
      simp only [e, e']
      exact h
    · exact h
  have hwait := stuck hn hB hS hfair (N := N + M) (fun i hi => hpub i (by omega)) (fun i hi => (hquiet i hi).2)
  -- a trigger, then a turn
  obtain ⟨i0, hi0, hf0⟩ := htick (N + M)
  have hk0 : (along c w f (i0 + 1)).kicks ≠ 0 := by
    rw [along_succ, hf0]
    change (along c w f i0).kicks + 1 ≠ 0
    omega
  obtain ⟨i1, hi1, hf1⟩ := hfair.1 (i0 + 1)
  have hk : ∀ i, i0 + 1 ≤ i → (along c w f i).kicks ≠ 0 := by
    intro i hi
    induction i, hi using Nat.le_induction with
    | base => exact hk0
    | succ m hm ih =>
      have h1 := (hquiet m (by omega)).1
      unfold cycleLeft at h1
      rw [hwait m (by omega), hwait (m + 1) (by omega)] at h1
      simp only [if_neg ih] at h1
      intro hc
      rw [if_pos hc] at h1
      omega
  have h1 := (hquiet i1 (by omega)).2
  rw [along_succ, hf1] at h1
  change (Model.Worker.turn c _).phase = _ at h1
  unfold Model.Worker.turn at h1
  rw [hwait i1 (by omega)] at h1
  simp only [if_neg (hk i1 hi1), begin] at h1
  cases h1

/-! ## The manifest stays as it is -/

theorem kv_step {c : Cfg K R} (hn : 0 < c.x.readRows) {n : Nat} {w : W K R} (hB : Base c n w) (hS : Shaped c w)
    {op : Model.Worker.Op K R} (hop : silent op = true) (hpub : pubs (Model.Worker.step c w op) = pubs w) :
    (Model.Worker.step c w op).db.kv = w.db.kv := by
  cases op with
  | other op => exact silent_kv c w op hop
  | trigger => rfl
  | turn =>
    change (Model.Worker.turn c w).db.kv = _
    unfold Model.Worker.turn begin
    repeat' split
    all_goals rfl
  | restart cap => exact (reopen_jobs hB.inv cap).2
  | fail i =>
    change (failStep w i).db.kv = _
    rcases fail_cases w i with e | ⟨js, j, a, hph, hi, e⟩ <;> rw [e]
  | job i now skip =>
    change (jobStep c w i now skip).db.kv = _
    change pubs (jobStep c w i now skip) = _ at hpub
    cases hph : w.phase with
    | draining js =>
      cases hi : js[i]? with
      | none => rw [jobStep_none (fun js' hjs => by rw [hph] at hjs; cases hjs; exact hi)]
      | some r =>
        rw [jobStep_some hph hi] at hpub ⊢
        rcases act_lowers hn hB hph hi hS now skip with ⟨h, _⟩ | ⟨_, h⟩
        · exact h
        · simp only at hpub
          have : pubs (act c w r.1 now skip r.2).1 = pubs w := hpub
          omega
    | _ => rw [jobStep_none (fun js' hjs => by rw [hph] at hjs; cases hjs)]

/-- All jobs of the queue but the first `k` are fresh. -/
def FreshFrom (n k : Nat) (q : List (Model.Worker.Job K)) : Prop := Fresh n (q.drop k)

theorem freshFrom_append {n k : Nat} {q : List (Model.Worker.Job K)} (h : FreshFrom n k q) {j : Model.Worker.Job K}
    (hj : j.head = some n) : FreshFrom n k (q ++ [j]) := by
  intro j' hj'
  rw [List.drop_append] at hj'
  rcases List.mem_append.1 hj' with h' | h'
  · exact h j' h'
  · rw [List.mem_singleton.1 (List.mem_of_mem_drop h')]
    exact hj

theorem fresh_step {c : Cfg K R} (hn : 0 < c.x.readRows) {n : Nat} {w : W K R} (hB : Base c n w)
    {op : Model.Worker.Op K R} (hop : lives op = true)
    (hB' : Base c n (Model.Worker.step c w op)) {k : Nat} (h : FreshFrom n k w.queue) :
    FreshFrom n k (Model.Worker.step c w op).queue ∧
    (Draws w op → FreshFrom n (k - 1) (Model.Worker.step c w op).queue) := by
  by_cases hd : Draws w op
  · obtain ⟨h1, rfl⟩ := hd
    have e : (Model.Worker.step c w .turn).queue = w.queue.drop c.budget := by
      change (Model.Worker.turn c w).queue = _
      unfold Model.Worker.turn
      rw [h1]
    rw [e]
    have sub : ∀ k', k ≤ c.budget + k' → FreshFrom n k' (w.queue.drop c.budget) := by
      intro k' hk j hj
      rw [List.drop_drop] at hj
      refine h j ?_
      have e' : c.budget + k' = k + (c.budget + k' - k) := by omega
      rw [e', ← List.drop_drop] at hj
      exact List.mem_of_mem_drop hj
    have := budget_pos c
    exact ⟨sub k (by omega), fun _ => sub (k - 1) (by omega)⟩
  refine ⟨?_, fun hc => absurd hc hd⟩
  cases op with
  | restart cap => cases hop
  | trigger => exact h
  | other op =>
    unfold Model.Worker.step
    simp only
    split_ifs <;> exact h
  | turn =>
    change FreshFrom n k (Model.Worker.turn c w).queue
    unfold Model.Worker.turn
    cases hph : w.phase with
    | waiting =>
      simp only
      split_ifs <;> exact h
    | planning m =>
      cases m with
      | zero => exact absurd ⟨hph, rfl⟩ hd
      | succ m =>
        simp only
        cases planFrom c w.db 0 <;> exact h
    | planned m t =>
      have hpos := hB.phase
      rw [hph] at hpos
      simp only
      rw [noteHead_spec hB.inv, lastOf_pos hpos]
      simp only
      unfold enqueue
      split_ifs
      · exact freshFrom_append h rfl
      · exact h
    | draining js =>
      simp only
      split_ifs <;> exact h
  | fail i =>
    change FreshFrom n k (failStep w i).queue
    rcases fail_cases w i with e | ⟨js, j, a, hph, hi, e⟩ <;> (rw [e]; exact h)
  | job i now skip =>
    change FreshFrom n k (jobStep c w i now skip).queue
    change Base c n (jobStep c w i now skip) at hB'
    cases hph : w.phase with
    | draining js =>
      cases hi : js[i]? with
      | none =>
        rw [jobStep_none (fun js' hjs => by rw [hph] at hjs; cases hjs; exact hi)]
        exact h
      | some r =>
        obtain ⟨w', st', n', e, ha⟩ := job_spec hn hB hph hi now skip
        rw [e] at hB' ⊢
        have hnn : n' = n := inv_num hB'.inv ha.inv rfl
        simp only
        rcases ha.how with ⟨_, _, h', _⟩ | ⟨h0, _⟩ | ⟨_, _, ⟨t, _, h'⟩, _⟩
        · rw [h']; exact h
        · omega
        · rw [h']; exact freshFrom_append h rfl
    | _ =>
      rw [jobStep_none (fun js' hjs => by rw [hph] at hjs; cases hjs)]
      exact h

/-- Nobody publishes, and there is work: the queue is fresh, and not empty when the worker draws. -/
def Primed (c : Cfg K R) (n : Nat) (w : W K R) : Prop :=
  Fresh n w.queue ∧ ∀ m, w.phase = .planning m → w.queue = [] → m = c.budget

theorem primed_step {c : Cfg K R} (hn : 0 < c.x.readRows) {n : Nat} {w : W K R} (hB : Base c n w)
    (hplan : planFrom c w.db 0 ≠ none) {op : Model.Worker.Op K R} (hop : lives op = true)
    (hB' : Base c n (Model.Worker.step c w op)) (h : Primed c n w) : Primed c n (Model.Worker.step c w op) := by
  obtain ⟨h1, h2⟩ := h
  have hpos : 1 ≤ n := by
    obtain ⟨t, ht⟩ := Option.ne_none_iff_exists'.1 hplan
    exact plan_pos hB.inv ht
  cases op with
  | restart cap => cases hop
  | trigger => exact ⟨h1, h2⟩
  | other op =>
    unfold Model.Worker.step
    simp only
    split_ifs <;> exact ⟨h1, h2⟩
  | turn =>
    change Primed c n (Model.Worker.turn c w)
    unfold Model.Worker.turn
    cases hph : w.phase with
    | waiting =>
      simp only
      split_ifs
      · exact ⟨h1, fun m hm => by rw [hph] at hm; cases hm⟩
      · refine ⟨h1, fun m hm _ => ?_⟩
        simp only [begin, Phase.planning.injEq] at hm
        exact hm.symm
    | planning m =>
      cases m with
      | zero =>
        simp only
        exact ⟨fun j hj => h1 j (List.mem_of_mem_drop hj), fun m hm => by cases hm⟩
      | succ m =>
        simp only
        cases hp : planFrom c w.db 0 with
        | none => exact absurd hp hplan
        | some t => exact ⟨h1, fun m hm => by cases hm⟩
    | planned m t =>
      simp only
      rw [noteHead_spec hB.inv, lastOf_pos hpos]
      simp only
      unfold enqueue
      by_cases hq : w.queue.length < c.slots
      · rw [if_pos hq]
        refine ⟨?_, fun m _ hm => ?_⟩
        · intro j hj
          rcases List.mem_append.1 hj with hj | hj
          · exact h1 j hj
          · rw [List.mem_singleton.1 hj]
        · simp at hm
      · rw [if_neg hq]
        refine ⟨h1, fun m _ hm => ?_⟩
        simp only at hm
        rw [hm] at hq
        have := slots_pos c
        simp only [List.length_nil] at hq
        omega
    | draining js =>
      simp only
      split_ifs
      · refine ⟨h1, fun m hm _ => ?_⟩
        simp only [begin, Phase.planning.injEq] at hm
        exact hm.symm
      · exact ⟨h1, fun m hm => by cases hm⟩
      · exact ⟨h1, fun m hm => by rw [hph] at hm; cases hm⟩
  | fail i =>
    change Primed c n (failStep w i)
    rcases fail_cases w i with e | ⟨js, j, a, hph, hi, e⟩
    · rw [e]; exact ⟨h1, h2⟩
    · rw [e]
      exact ⟨h1, fun m hm => by cases hm⟩
  | job i now skip =>
    change Primed c n (jobStep c w i now skip)
    change Base c n (jobStep c w i now skip) at hB'
    cases hph : w.phase with
    | draining js =>
      cases hi : js[i]? with
      | none =>
        rw [jobStep_none (fun js' hjs => by rw [hph] at hjs; cases hjs; exact hi)]
        exact ⟨h1, h2⟩
      | some r =>
        obtain ⟨w', st', n', e, ha⟩ := job_spec hn hB hph hi now skip
        rw [e] at hB' ⊢
        have hnn : n' = n := inv_num hB'.inv ha.inv rfl
        refine ⟨?_, fun m hm => by cases hm⟩
        simp only
        rcases ha.how with ⟨_, _, h, _⟩ | ⟨h0, _⟩ | ⟨_, _, ⟨t, _, h⟩, _⟩
        · rw [h]; exact h1
        · omega
        · rw [h]
          intro j hj
          rcases List.mem_append.1 hj with hj | hj
          · exact h1 j hj
          · rw [List.mem_singleton.1 hj]
    | _ =>
      rw [jobStep_none (fun js' hjs => by rw [hph] at hjs; cases hjs)]
      exact ⟨h1, h2⟩

/-- Jobs that note the current head are running. -/
def Running (n : Nat) (w : W K R) : Prop :=
  ∃ js, w.phase = .draining js ∧ js ≠ [] ∧ ∀ r ∈ js, r.1.head = some n ∧ (r.2 = .popped 1 ∨ ∃ p, r.2 = .merged 1 p)

/-- The first of them has written its tables. -/
def Written (w : W K R) : Prop := ∃ js j p, w.phase = .draining js ∧ js[0]? = some (j, .merged 1 p)

theorem running_step {c : Cfg K R} (hn : 0 < c.x.readRows) {n : Nat} {w : W K R} (hB : Base c n w)
    {op : Model.Worker.Op K R} (hop : lives op = true) (hB' : Base c n (Model.Worker.step c w op))
    (hfail : (Model.Worker.step c w op).done.filter (fun e => decide (e.2 = .failed)) =
      w.done.filter (fun e => decide (e.2 = .failed))) (h : Running n w) :
    Running n (Model.Worker.step c w op) ∧
    (∀ now skip, op = .job 0 now skip → Written (Model.Worker.step c w op) ∧ ¬ Written w) ∧
    (Written w → Written (Model.Worker.step c w op)) := by
  obtain ⟨js, hph, hne, hall⟩ := h
  have same : ∀ w' : W K R, w'.phase = w.phase → Running n w' ∧ (Written w → Written w') := by
    intro w' e
    refine ⟨⟨js, by rw [e, hph], hne, hall⟩, ?_⟩
    rintro ⟨js', j, p, h1, h2⟩
    exact ⟨js', j, p, by rw [e, h1], h2⟩
  cases op with
  | restart cap => cases hop
  | trigger => exact ⟨(same _ rfl).1, (fun _ _ hc => by cases hc), (same _ rfl).2⟩
  | other op =>
    have e : (Model.Worker.step c w (.other op)).phase = w.phase := by
      unfold Model.Worker.step
      simp only
      split_ifs <;> rfl
    exact ⟨(same _ e).1, (fun _ _ hc => by cases hc), (same _ e).2⟩
  | turn =>
    have e : (Model.Worker.step c w .turn).phase = w.phase := by
      change (Model.Worker.turn c w).phase = _
      unfold Model.Worker.turn
      rw [hph]
      simp only
      rw [if_neg]
      · exact hph
      · intro ho
        unfold allOver at ho
        rw [List.all_eq_true] at ho
        obtain ⟨r, hr⟩ := List.exists_mem_of_ne_nil _ hne
        have h1 := ho r hr
        simp only [decide_eq_true_eq] at h1
        rcases (hall r hr).2 with h2 | ⟨p, h2⟩ <;> (rw [h1] at h2; cases h2)
    exact ⟨(same _ e).1, (fun _ _ hc => by cases hc), (same _ e).2⟩
  | fail i =>
    change (failStep w i).done.filter _ = _ at hfail
    rcases fail_cases w i with e | ⟨js', j, a, hph', hi, e⟩
    · have e' : (Model.Worker.step c w (.fail i)).phase = w.phase := by
        change (failStep w i).phase = _
        rw [e]
      exact ⟨(same _ e').1, (fun _ _ hc => by cases hc), (same _ e').2⟩
    · exfalso
      rw [e] at hfail
      simp only [List.filter_append] at hfail
      simp at hfail
  | job i now skip =>
    change Base c n (jobStep c w i now skip) at hB'
    change (jobStep c w i now skip).done.filter _ = _ at hfail
    change Running n (jobStep c w i now skip) ∧ (∀ now' skip', _ → Written (jobStep c w i now skip) ∧ _) ∧
      (_ → Written (jobStep c w i now skip))
    cases hi : js[i]? with
    | none =>
      rw [jobStep_none (fun js' hjs => by rw [hph] at hjs; cases hjs; exact hi)]
      refine ⟨⟨js, hph, hne, hall⟩, ?_, id⟩
      intro now' skip' hc
      exfalso
      cases hc
      cases js with
      | nil => exact hne rfl
      | cons _ _ => simp at hi
    | some r =>
      obtain ⟨w', st', n', e, ha⟩ := job_spec hn hB hph hi now skip
      obtain ⟨j, st⟩ := r
      rw [e] at hB' hfail ⊢
      have hnn : n' = n := inv_num hB'.inv ha.inv rfl
      obtain ⟨g1, g2⟩ := hall _ (List.mem_of_getElem? hi)
      simp only at g1 g2 hfail
      -- the job was popped and has now merged
      obtain ⟨hst, p, hp⟩ : st = .popped 1 ∧ ∃ p, st' = .merged 1 p := by
        rcases ha.how with ⟨_, _, _, _, _, _, a6, a7⟩ | ⟨h0, _⟩ | ⟨_, _, ⟨t, h, _⟩, _⟩
        · rcases g2 with g2 | ⟨p, g2⟩
          · refine ⟨g2, ?_⟩
            rcases a6 g1 g2 with h | h
            · exact h
            · exfalso
              rw [h] at hfail
              simp only [List.filter_append] at hfail
              simp at hfail
          · exact absurd g1 (a7 1 p g2)
        · omega
        · exfalso
          rcases g2 with g2 | ⟨p, g2⟩ <;> (rw [g2] at h; cases h)
      subst hst
      subst hp
      have hlt := (List.getElem?_eq_some_iff.1 hi).1
      refine ⟨⟨_, rfl, ?_, ?_⟩, ?_, ?_⟩
      · intro hc
        have : (js.set i (j, Stage.merged 1 p)).length = 0 := by rw [hc]; rfl
        rw [List.length_set] at this
        omega
      · intro r hr
        rcases List.mem_or_eq_of_mem_set hr with hr | rfl
        · exact hall r hr
        · exact ⟨g1, .inr ⟨p, rfl⟩⟩
      · intro now' skip' hc
        cases hc
        refine ⟨⟨_, j, p, rfl, List.getElem?_set_self hlt⟩, ?_⟩
        rintro ⟨js', j', p', h1, h2⟩
        rw [hph] at h1
        cases h1
        rw [hi] at h2
        cases h2
      · rintro ⟨js', j', p', h1, h2⟩
        rw [hph] at h1
        cases h1
        by_cases h0 : i = 0
        · subst h0
          rw [hi] at h2
          cases h2
        · refine ⟨_, j', p', rfl, ?_⟩
          rw [List.getElem?_set_ne h0]
          exact h2

/-- If nothing is published and no job fails from some step on, there is nothing to do. -/
theorem nothing_left {c : Cfg K R} (hn : 0 < c.x.readRows) {n : Nat} {w : W K R}
    (hB : Base c n w) (hS : Shaped c w)
    {f : Nat → Model.Worker.Op K R} (hfair : Fairly c f) (hlive : ∀ i, lives (f i) = true)
    (hsil : ∀ i, silent (f i) = true) (htick : ∀ N, ∃ i, N ≤ i ∧ f i = .trigger) {N : Nat}
    (hpub : ∀ i, N ≤ i → pubs (along c w f (i + 1)) = pubs (along c w f i))
    (hfail : ∀ i, N ≤ i → (along c w f (i + 1)).done.filter (fun e => decide (e.2 = .failed)) =
      (along c w f i).done.filter (fun e => decide (e.2 = .failed))) :
    ∀ i, N ≤ i → planFrom c (along c w f i).db 0 = none := by
  intro i0 hi0
  by_contra hplan0
  obtain ⟨⟨n0, hB0⟩, _⟩ := along_ok hn hB hS f i0
  have hkv : ∀ i, i0 ≤ i → (along c w f i).db.kv = (along c w f i0).db.kv := by
    intro i hi
    induction i, hi using Nat.le_induction with
    | base => rfl
    | succ m hm ih =>
      obtain ⟨⟨n', h1⟩, h2⟩ := along_ok hn hB hS f m
      rw [along_succ, kv_step hn h1 h2 (hsil m) (hpub m (by omega)), ih]
  have hbase : ∀ i, i0 ≤ i → Base c n0 (along c w f i) := by
    intro i hi
    obtain ⟨⟨n', h1⟩, _⟩ := along_ok hn hB hS f i
    have := inv_num hB0.inv h1.inv (hkv i hi)
    rw [← this]; exact h1
  have hplan : ∀ i, i0 ≤ i → planFrom c (along c w f i).db 0 ≠ none := by
    intro i hi
    rw [plan_kv (hkv i hi)]
    exact hplan0
  -- jobs that were queued before are used up
  have hkeep : ∀ k i, i0 ≤ i → FreshFrom n0 k (along c w f i).queue → ∀ i', i ≤ i' → FreshFrom n0 k (along c w f i').queue := by
    intro k i hi h i' hi'
    induction i', hi' using Nat.le_induction with
    | base => exact h
    | succ m hm ih => exact (fresh_step hn (hbase m (by omega)) (hlive m) (hbase (m + 1) (by omega)) ih).1
  have hfresh : ∀ k i, i0 ≤ i → FreshFrom n0 k (along c w f i).queue →
      ∃ i', i0 ≤ i' ∧ FreshFrom n0 0 (along c w f i').queue := by
    intro k
    induction k with
    | zero => exact fun i hi h => ⟨i, hi, h⟩
    | succ k ih =>
      intro i hi h
      obtain ⟨i', hi', hd⟩ := draws hn hB hS hfair hlive htick (N := i) (fun i hi => hpub i (by omega))
      exact ih (i' + 1) (by omega) ((fresh_step hn (hbase i' (by omega)) (hlive i') (hbase (i' + 1) (by omega))
        (hkeep (k + 1) i hi h i' hi')).2 hd)
  obtain ⟨j0, hj0, hq0⟩ := hfresh (along c w f i0).queue.length i0 (Nat.le_refl _) (by
    unfold FreshFrom
    rw [List.drop_length]
    exact fun j hj => by cases hj)
  -- the next draw
  obtain ⟨i1, hi1', hd1, hf1⟩ := draws hn hB hS hfair hlive htick (N := j0) (fun i hi => hpub i (by omega))
  have hi1 : i0 ≤ i1 := by omega
  have hp1 : Primed c n0 (along c w f (i1 + 1)) := by
    refine ⟨hkeep 0 j0 hj0 hq0 (i1 + 1) (by omega), ?_⟩
    rw [along_succ, hf1]
    change ∀ m, (Model.Worker.turn c _).phase = _ → (Model.Worker.turn c _).queue = _ → _
    unfold Model.Worker.turn
    rw [hd1]
    exact fun m hm => by cases hm
  have hprimed : ∀ i, i1 + 1 ≤ i → Primed c n0 (along c w f i) := by
    intro i hi
    induction i, hi using Nat.le_induction with
    | base => exact hp1
    | succ m hm ih =>
      exact primed_step hn (hbase m (by omega)) (hplan m (by omega)) (hlive m) (hbase (m + 1) (by omega)) ih
  -- second draw: fresh jobs
  obtain ⟨i2, hi2, hd2, hf2⟩ := draws hn hB hS hfair hlive htick (N := i1 + 1) (fun i hi => hpub i (by omega))
  have hr2 : Running n0 (along c w f (i2 + 1)) := by
    obtain ⟨g1, g2⟩ := hprimed i2 hi2
    have hq : (along c w f i2).queue ≠ [] := by
      intro hc
      have := g2 0 hd2 hc
      have := budget_pos c
      omega
    rw [along_succ, hf2]
    change Running n0 (Model.Worker.turn c _)
    unfold Model.Worker.turn
    rw [hd2]
    simp only
    refine ⟨_, rfl, ?_, ?_⟩
    · intro hc
      rw [List.map_eq_nil_iff, List.take_eq_nil_iff] at hc
      rcases hc with hc | hc
      · have := budget_pos c
        omega
      · exact hq hc
    · intro r hr
      obtain ⟨j, hj, rfl⟩ := List.mem_map.1 hr
      exact ⟨g1 j (List.mem_of_mem_take hj), .inl rfl⟩
  have hrun : ∀ i, i2 + 1 ≤ i → Running n0 (along c w f i) := by
    intro i hi
    induction i, hi using Nat.le_induction with
    | base => exact hr2
    | succ m hm ih =>
      exact (running_step hn (hbase m (by omega)) (hlive m) (hbase (m + 1) (by omega)) (hfail m (by omega)) ih).1
  -- its first job takes two steps
  obtain ⟨i3, hi3, now3, skip3, hf3⟩ := hfair.2 0 (budget_pos c) (i2 + 1)
  have hw3 := ((running_step hn (hbase i3 (by omega)) (hlive i3) (hbase (i3 + 1) (by omega)) (hfail i3 (by omega))
    (hrun i3 (by omega))).2.1 now3 skip3 hf3).1
  have hw : ∀ i, i3 + 1 ≤ i → Written (along c w f i) := by
    intro i hi
    induction i, hi using Nat.le_induction with
    | base => exact hw3
    | succ m hm ih =>
      exact (running_step hn (hbase m (by omega)) (hlive m) (hbase (m + 1) (by omega)) (hfail m (by omega))
        (hrun m (by omega))).2.2 ih
  obtain ⟨i4, hi4, now4, skip4, hf4⟩ := hfair.2 0 (budget_pos c) (i3 + 1)
  exact ((running_step hn (hbase i4 (by omega)) (hlive i4) (hbase (i4 + 1) (by omega)) (hfail i4 (by omega))
    (hrun i4 (by omega))).2.1 now4 skip4 hf4).2 (hw i4 (by omega))

end Tonbo.Lemmas.Worker
