import Verif.Lemmas.WorkerEnds

/-!
# Once nothing is published any more, the worker comes to rest
-/

set_option linter.unusedSectionVars false

namespace Tonbo.Lemmas.Worker
open Tonbo.Model Tonbo.Model.Manifest Tonbo.Model.Planner Tonbo.Model.Outcome Tonbo.Model.Lsm Tonbo.Model.Worker
open Tonbo.Lemmas.Manifest Tonbo.Lemmas.Lsm Tonbo.Lemmas.Outcome Tonbo.Spec

variable {K R : Type} [LinearOrder K]

/-! ## How far a job, and the worker, is -/

def stageLeft : Stage K → Nat
  | .popped a => 4 + 2 * (2 - a)
  | .merged a _ => 3 + 2 * (2 - a)
  | .ended => 2
  | .follow _ => 1
  | .over => 0

/-- The job may still ask for a follow-up. -/
def stageAsks : Stage K → Nat
  | .ended => 1
  | .follow _ => 1
  | _ => 0

def jobsLeft (js : List (Model.Worker.Job K × Stage K)) : Nat := (js.map (fun r => stageLeft r.2)).sum
def jobsAsk (js : List (Model.Worker.Job K × Stage K)) : Nat := (js.map (fun r => stageAsks r.2)).sum

/-- How often the worker may still begin a cycle. -/
def asked (w : W K R) : Nat :=
  w.kicks + match w.phase with
    | .draining js => jobsAsk js + (if w.applied then 1 else 0)
    | _ => 0

/-- How far it is from waiting. -/
def posLeft (c : Cfg K R) : Phase K → Nat
  | .waiting => 0
  | .draining js => 1 + jobsLeft js
  | .planning m => 2 + 6 * c.budget + 2 * m
  | .planned m _ => 2 + 6 * c.budget + 2 * m + 1

theorem sum_set {α : Type} (f : α → Nat) : ∀ {l : List α} {i : Nat} {a b : α}, l[i]? = some a →
    ((l.set i b).map f).sum + f a = (l.map f).sum + f b
  | x :: l, 0, a, b, h => by
    simp only [List.length_cons, Nat.zero_lt_succ, List.getElem?_eq_getElem, List.getElem_cons_zero, Option.some.injEq] at h
    subst h
    simp only [List.set_cons_zero, List.map_cons, List.sum_cons]
    omega
  | x :: l, i + 1, a, b, h => by
    simp only [List.getElem?_cons_succ] at h
    have := sum_set f (b := b) h
    simp only [List.set_cons_succ, List.map_cons, List.sum_cons]
    omega
  | [], i, a, b, h => by simp at h

theorem set_same {α : Type} {l : List α} {i : Nat} {a : α} (h : l[i]? = some a) : l.set i a = l := by
  obtain ⟨hi, e⟩ := List.getElem?_eq_some_iff.1 h
  subst e
  exact List.set_getElem_self hi

/-- A step of a job that publishes nothing. -/
theorem act_rest {c : Cfg K R} (hn : 0 < c.x.readRows) {n : Nat} {w : W K R} (hB : Base c n w) (hS : Shaped c w)
    {js : List (Model.Worker.Job K × Stage K)} (hph : w.phase = .draining js) {i : Nat} {j : Model.Worker.Job K}
    {st : Stage K} (hi : js[i]? = some (j, st)) (now skip : Nat)
    (hpub : pubs (act c w j now skip st).1 = pubs w) (hst : st ≠ .over) :
    stageLeft (act c w j now skip st).2 < stageLeft st ∧
    (act c w j now skip st).1.kicks + stageAsks (act c w j now skip st).2 ≤ w.kicks + stageAsks st ∧
    (act c w j now skip st).1.applied = w.applied := by
  have hmem := List.mem_of_getElem? hi
  have hP := hB.phase
  rw [hph] at hP
  have hlow := act_lowers hn hB hph hi hS now skip
  have hne : ∀ a p, st = .merged a p → (act c w j now skip st).2 ≠ .ended := by
    rcases hlow with ⟨_, _, h⟩ | ⟨_, h⟩
    · exact h
    · omega
  obtain ⟨k, hk1, _, hk3, hk4⟩ := hP _ hmem
  simp only at hk3
  generalize hr : act c w j now skip st = r at *
  cases st with
  | popped a =>
    obtain ⟨_, _, h3⟩ := start_cases (ext := c.ext) hB.inv hn j.task k skip hk1
    simp only [act] at hr
    rw [hk3] at hr
    rcases h3 with ⟨h3, h4, h5⟩ | ⟨h3, ⟨e, h4, h5⟩ | ⟨p, h4, h5, h6⟩⟩
    · rw [h4] at hr
      subst hr
      exact ⟨by simp only [stageLeft]; omega, by simp [stageAsks, W.note], rfl⟩
    · rw [h4] at hr
      subst hr
      exact ⟨by simp only [stageLeft]; omega, by simp [stageAsks, W.note], rfl⟩
    · rw [h4] at hr
      subst hr
      exact ⟨by simp only [stageLeft]; omega, by simp [stageAsks], rfl⟩
  | merged a p =>
    have hne := hne a p rfl
    simp only [act] at hr
    split at hr
    · subst hr
      exact absurd rfl hne
    · split_ifs at hr with ha
      · subst hr
        exact ⟨by simp only [stageLeft]; omega, by simp [stageAsks, W.note], rfl⟩
      · subst hr
        exact ⟨by simp only [stageLeft]; omega, by simp [stageAsks], rfl⟩
    · subst hr
      exact ⟨by simp only [stageLeft]; omega, by simp [stageAsks, W.note], rfl⟩
  | ended =>
    simp only [act] at hr
    split_ifs at hr
    · split at hr
      · split at hr
        · subst hr
          exact ⟨by simp [stageLeft], by simp [stageAsks], rfl⟩
        · subst hr
          exact ⟨by simp [stageLeft], by simp [stageAsks], rfl⟩
      · subst hr
        exact ⟨by simp [stageLeft], by simp [stageAsks], rfl⟩
    · subst hr
      exact ⟨by simp [stageLeft], by simp [stageAsks], rfl⟩
  | follow t =>
    simp only [act] at hr
    split at hr
    · subst hr
      exact ⟨by simp [stageLeft], by simp [stageAsks], rfl⟩
    · split at hr
      · subst hr
        exact ⟨by simp [stageLeft], by simp [stageAsks], rfl⟩
      · subst hr
        exact ⟨by simp [stageLeft], by simp [stageAsks], rfl⟩
  | over => exact absurd rfl hst

theorem jobStep_some {c : Cfg K R} {w : W K R} {js : List (Model.Worker.Job K × Stage K)} (hph : w.phase = .draining js)
    {i : Nat} {r : Model.Worker.Job K × Stage K} (hi : js[i]? = some r) (now skip : Nat) :
    jobStep c w i now skip = { (act c w r.1 now skip r.2).1 with
      phase := .draining (js.set i (r.1, (act c w r.1 now skip r.2).2)) } := by
  unfold jobStep
  rw [hph]
  simp only
  rw [hi]

theorem jobStep_none {c : Cfg K R} {w : W K R} {i : Nat}
    (h : ∀ js, w.phase = .draining js → js[i]? = none) (now skip : Nat) : jobStep c w i now skip = w := by
  unfold jobStep
  cases hph : w.phase with
  | draining js => simp only; rw [h js hph]
  | _ => rfl

/-- A step of the running job `i`, if it publishes nothing. -/
theorem job_rest {c : Cfg K R} (hn : 0 < c.x.readRows) {n : Nat} {w : W K R} (hB : Base c n w) (hS : Shaped c w)
    (i now skip : Nat) (hpub : pubs (jobStep c w i now skip) = pubs w) :
    jobStep c w i now skip = w ∨
    ∃ js js', w.phase = .draining js ∧ (jobStep c w i now skip).phase = .draining js' ∧ jobsLeft js' < jobsLeft js ∧
      (jobStep c w i now skip).kicks + jobsAsk js' ≤ w.kicks + jobsAsk js ∧
      (jobStep c w i now skip).applied = w.applied ∧ w.kicks ≤ (jobStep c w i now skip).kicks := by
  cases hph : w.phase with
  | draining js =>
    cases hi : js[i]? with
    | none =>
      left
      exact jobStep_none (fun js' hjs => by rw [hph] at hjs; cases hjs; exact hi) now skip
    | some r =>
      have e := jobStep_some (c := c) hph hi now skip
      obtain ⟨j, st⟩ := r
      by_cases hst : st = .over
      · left
        subst hst
        rw [e]
        simp only [act]
        rw [set_same hi, ← hph]
      · right
        rw [e] at hpub ⊢
        obtain ⟨h1, h2, h3⟩ := act_rest hn hB hS hph hi now skip hpub hst
        refine ⟨js, _, rfl, rfl, ?_, ?_, h3, ?_⟩
        · have := sum_set (fun r : Model.Worker.Job K × Stage K => stageLeft r.2) (b := (j, (act c w j now skip st).2)) hi
          unfold jobsLeft
          simp only at this ⊢
          omega
        · have := sum_set (fun r : Model.Worker.Job K × Stage K => stageAsks r.2) (b := (j, (act c w j now skip st).2)) hi
          unfold jobsAsk
          simp only at this ⊢
          omega
        · have hP := hB.phase
          rw [hph] at hP
          obtain ⟨n', ha⟩ := act_spec hn hB.inv (hP _ (List.mem_of_getElem? hi)) (by
            intro a p hs
            have := hB.perm
            rw [hph] at this
            rw [this.mem_iff]
            unfold waitings
            rw [List.mem_filterMap]
            exact ⟨_, List.mem_of_getElem? hi, by rw [hs]; rfl⟩) now skip
          simp only
          rcases ha.how with ⟨_, _, _, h, _⟩ | ⟨_, _, _, _, h, _⟩ | ⟨_, _, _, _, h, _⟩ <;> omega
  | _ =>
    left
    exact jobStep_none (fun js' hjs => by rw [hph] at hjs; cases hjs) now skip

theorem fail_rest (w : W K R) (i : Nat) : failStep w i = w ∨
    ∃ js js', w.phase = .draining js ∧ (failStep w i).phase = .draining js' ∧ jobsLeft js' < jobsLeft js ∧
      (failStep w i).kicks + jobsAsk js' ≤ w.kicks + jobsAsk js ∧ (failStep w i).applied = w.applied ∧
      w.kicks ≤ (failStep w i).kicks := by
  rcases fail_cases w i with e | ⟨js, j, a, hph, hi, e⟩
  · exact .inl e
  · right
    refine ⟨js, js.set i (j, .over), hph, by rw [e], ?_, ?_, by rw [e], by rw [e]⟩
    · have := sum_set (fun r : Model.Worker.Job K × Stage K => stageLeft r.2) (b := (j, .over)) hi
      unfold jobsLeft
      simp only [stageLeft] at this ⊢
      omega
    · have := sum_set (fun r : Model.Worker.Job K × Stage K => stageAsks r.2) (b := (j, .over)) hi
      rw [e]
      unfold jobsAsk
      simp only [stageAsks] at this ⊢
      omega

theorem allOver_zero {js : List (Model.Worker.Job K × Stage K)} (h : allOver js = true) : jobsAsk js = 0 ∧ jobsLeft js = 0 := by
  unfold allOver at h
  rw [List.all_eq_true] at h
  unfold jobsAsk jobsLeft
  constructor
  · apply List.sum_eq_zero
    intro x hx
    obtain ⟨r, hr, rfl⟩ := List.mem_map.1 hx
    have := h r hr
    simp only [decide_eq_true_eq] at this
    rw [this]
    rfl
  · apply List.sum_eq_zero
    intro x hx
    obtain ⟨r, hr, rfl⟩ := List.mem_map.1 hx
    have := h r hr
    simp only [decide_eq_true_eq] at this
    rw [this]
    rfl

theorem popped_sums (q : List (Model.Worker.Job K)) :
    jobsAsk (q.map (fun j => (j, Stage.popped 1))) = 0 ∧ jobsLeft (q.map (fun j => (j, Stage.popped 1))) = 6 * q.length := by
  unfold jobsAsk jobsLeft
  induction q with
  | nil => exact ⟨rfl, rfl⟩
  | cons j q ih =>
    simp only [List.map_cons, List.sum_cons, List.length_cons, stageAsks, stageLeft] at ih ⊢
    omega

/-- The pair of measures. -/
def rank (c : Cfg K R) (w : W K R) : Nat → Nat
  | 0 => asked w
  | _ => posLeft c w.phase

theorem lower_of {c : Cfg K R} {w' w : W K R} (h : asked w' < asked w ∨ (asked w' = asked w ∧ posLeft c w'.phase < posLeft c w.phase)) :
    Lower 1 (rank c w') (rank c w) := by
  rcases h with h | ⟨h1, h2⟩
  · exact ⟨0, by omega, h, fun l hl => absurd hl (Nat.not_lt_zero _)⟩
  · refine ⟨1, Nat.le_refl _, h2, fun l hl => ?_⟩
    have : l = 0 := by omega
    subst this
    exact h1

theorem turn_rest {c : Cfg K R} (w : W K R) :
    Lower 1 (rank c (Model.Worker.turn c w)) (rank c w) ∨
    (Model.Worker.turn c w = w ∧ (w.phase = .waiting ∧ w.kicks = 0 ∨ ∃ js, w.phase = .draining js ∧ allOver js = false)) := by
  unfold Model.Worker.turn
  cases hph : w.phase with
  | waiting =>
    simp only
    by_cases hk : w.kicks = 0
    · rw [if_pos hk]; exact .inr ⟨rfl, .inl ⟨trivial, hk⟩⟩
    · rw [if_neg hk]
      left
      apply lower_of
      left
      unfold asked begin
      rw [hph]
      simp only
      omega
  | planning m =>
    left
    apply lower_of
    right
    cases m with
    | zero =>
      simp only
      refine ⟨?_, ?_⟩
      · unfold asked
        rw [hph]
        simp only [(popped_sums _).1]
        simp
      · rw [hph]
        simp only [posLeft, popped_sums, List.length_take]
        omega
    | succ m =>
      simp only
      cases planFrom c w.db 0 with
      | none =>
        refine ⟨?_, ?_⟩
        · unfold asked; rw [hph]
        · rw [hph]; simp only [posLeft]; omega
      | some t =>
        refine ⟨?_, ?_⟩
        · unfold asked; rw [hph]
        · rw [hph]; simp only [posLeft]; omega
  | planned m t =>
    left
    apply lower_of
    right
    simp only
    cases noteHead c w.db with
    | none =>
      refine ⟨?_, ?_⟩
      · unfold asked; rw [hph]
      · rw [hph]; simp only [posLeft]; omega
    | some hd =>
      simp only
      cases enqueue c w.queue ⟨t, hd⟩ with
      | none =>
        refine ⟨?_, ?_⟩
        · unfold asked; rw [hph]
        · rw [hph]; simp only [posLeft]; omega
      | some q =>
        refine ⟨?_, ?_⟩
        · unfold asked; rw [hph]
        · rw [hph]; simp only [posLeft]; omega
  | draining js =>
    simp only
    by_cases ho : allOver js = true
    · rw [if_pos ho]
      left
      apply lower_of
      by_cases ha : w.applied ∧ planFrom c w.db 0 ≠ none
      · rw [if_pos ha]
        left
        unfold asked begin
        rw [hph]
        simp only [ha.1, if_true]
        omega
      · rw [if_neg ha]
        by_cases hap : w.applied = true
        · left
          unfold asked
          rw [hph]
          simp only [hap, if_true]
          omega
        · right
          refine ⟨?_, ?_⟩
          · unfold asked
            rw [hph]
            simp [allOver_zero ho, hap]
          · rw [hph]; simp only [posLeft]; omega
    · rw [if_neg ho]
      exact .inr ⟨rfl, .inr ⟨js, rfl, by simpa using ho⟩⟩

/-- Nobody asks the worker. -/
def unasked : Model.Worker.Op K R → Bool
  | .trigger => false
  | .restart _ => false
  | _ => true

theorem rest_step {c : Cfg K R} (hn : 0 < c.x.readRows) {n : Nat} {w : W K R} (hB : Base c n w) (hS : Shaped c w)
    {op : Model.Worker.Op K R} (hop : unasked op = true) (hpub : pubs (Model.Worker.step c w op) = pubs w) :
    Lower 1 (rank c (Model.Worker.step c w op)) (rank c w) ∨
    (rank c (Model.Worker.step c w op) = rank c w ∧ (Model.Worker.step c w op).phase = w.phase ∧
      (Model.Worker.step c w op).kicks = w.kicks) := by
  have jobs : ∀ w' : W K R, (w' = w ∨ ∃ js js', w.phase = .draining js ∧ w'.phase = .draining js' ∧
      jobsLeft js' < jobsLeft js ∧ w'.kicks + jobsAsk js' ≤ w.kicks + jobsAsk js ∧ w'.applied = w.applied ∧
      w.kicks ≤ w'.kicks) →
      Lower 1 (rank c w') (rank c w) ∨ (rank c w' = rank c w ∧ w'.phase = w.phase ∧ w'.kicks = w.kicks) := by
    rintro w' (rfl | ⟨js, js', h1, h2, h3, h4, h5, _⟩)
    · exact .inr ⟨rfl, rfl, rfl⟩
    · left
      apply lower_of
      have e1 : asked w' = w'.kicks + (jobsAsk js' + (if w'.applied then 1 else 0)) := by unfold asked; rw [h2]
      have e2 : asked w = w.kicks + (jobsAsk js + (if w.applied then 1 else 0)) := by unfold asked; rw [h1]
      have hp : posLeft c w'.phase < posLeft c w.phase := by
        rw [h1, h2]
        simp only [posLeft]
        omega
      rw [h5] at e1
      by_cases heq : asked w' = asked w
      · exact .inr ⟨heq, hp⟩
      · left; omega
  cases op with
  | trigger => cases hop
  | restart cap => cases hop
  | other op =>
    right
    unfold Model.Worker.step
    simp only
    split_ifs
    · refine ⟨?_, rfl, rfl⟩
      funext l
      cases l <;> rfl
    · exact ⟨rfl, rfl, rfl⟩
  | turn =>
    change Lower 1 (rank c (Model.Worker.turn c w)) _ ∨ (rank c (Model.Worker.turn c w) = _ ∧ (Model.Worker.turn c w).phase = _ ∧
      (Model.Worker.turn c w).kicks = _)
    rcases turn_rest (c := c) w with h | ⟨h, _⟩
    · exact .inl h
    · rw [h]; exact .inr ⟨rfl, rfl, rfl⟩
  | job i now skip => exact jobs _ (job_rest hn hB hS i now skip hpub)
  | fail i => exact jobs _ (fail_rest w i)

theorem pubs_of_filter {w w' : W K R} (h : w'.done.filter (fun e => decide (e.2 = .published)) =
    w.done.filter (fun e => decide (e.2 = .published))) : pubs w' = pubs w := by
  unfold pubs; rw [h]

/-- The loop of the worker, and each of its jobs, keeps taking steps. -/
def Fairly (c : Cfg K R) (f : Nat → Model.Worker.Op K R) : Prop :=
  (∀ N, ∃ i, N ≤ i ∧ f i = .turn) ∧
  ∀ k, k < c.budget → ∀ N, ∃ i, N ≤ i ∧ ∃ now skip, f i = .job k now skip

theorem along_succ (c : Cfg K R) (w : W K R) (f : Nat → Model.Worker.Op K R) (i : Nat) :
    along c w f (i + 1) = Model.Worker.step c (along c w f i) (f i) := rfl

theorem turn_same {c : Cfg K R} {u : W K R} (hstep : (Model.Worker.turn c u).phase = u.phase) :
    u.phase = .waiting ∨ ∃ js, u.phase = .draining js ∧ allOver js = false := by
  cases hph : u.phase with
  | waiting => exact .inl rfl
  | planning m =>
    exfalso
    unfold Model.Worker.turn at hstep
    rw [hph] at hstep
    cases m with
    | zero => simp at hstep
    | succ m =>
      simp only at hstep
      split at hstep <;> simp at hstep
  | planned m t =>
    exfalso
    unfold Model.Worker.turn at hstep
    rw [hph] at hstep
    simp only at hstep
    split at hstep
    · simp at hstep
    · split at hstep <;> simp at hstep
  | draining js =>
    right
    by_cases ho : allOver js = true
    · exfalso
      unfold Model.Worker.turn at hstep
      rw [hph] at hstep
      simp only [ho, if_true] at hstep
      split_ifs at hstep
      simp [begin] at hstep
    · exact ⟨js, rfl, by simpa using ho⟩

/-- If the phase stays the same, this is because the worker waits for a trigger. -/
theorem stuck {c : Cfg K R} (hn : 0 < c.x.readRows) {n : Nat} {w : W K R} (hB : Base c n w) (hS : Shaped c w)
    {f : Nat → Model.Worker.Op K R} (hfair : Fairly c f) {N : Nat}
    (hpub : ∀ i, N ≤ i → pubs (along c w f (i + 1)) = pubs (along c w f i))
    (hsame : ∀ i, N ≤ i → (along c w f (i + 1)).phase = (along c w f i).phase) :
    ∀ i, N ≤ i → (along c w f i).phase = .waiting := by
  have hall : ∀ i, N ≤ i → (along c w f i).phase = (along c w f N).phase := by
    intro i hi
    induction i, hi using Nat.le_induction with
    | base => rfl
    | succ m hm ih => rw [hsame m hm, ih]
  obtain ⟨i0, hi0, hf0⟩ := hfair.1 N
  have hstep : (Model.Worker.turn c (along c w f i0)).phase = (along c w f i0).phase := by
    have := hsame i0 hi0
    rw [along_succ, hf0] at this
    exact this
  have hwait : (along c w f i0).phase = .waiting := by
    rcases turn_same hstep with h | ⟨js, hjs, ho⟩
    · exact h
    · exfalso
      obtain ⟨r, hr, hro⟩ : ∃ r ∈ js, r.2 ≠ .over := by
        unfold allOver at ho
        rw [List.all_eq_false] at ho
        obtain ⟨r, hr, h⟩ := ho
        exact ⟨r, hr, by simpa using h⟩
      obtain ⟨k, hk⟩ := List.getElem?_of_mem hr
      obtain ⟨⟨n0, hB0⟩, _⟩ := along_ok hn hB hS f i0
      have hkb : k < c.budget := Nat.lt_of_lt_of_le (List.getElem?_eq_some_iff.1 hk).1 (hB0.few js hjs)
      obtain ⟨i1, hi1, now, skip, hf1⟩ := hfair.2 k hkb i0
      have hph : (along c w f i1).phase = .draining js := by
        rw [hall i1 (by omega), ← hall i0 hi0, hjs]
      obtain ⟨⟨n1, hB1⟩, hS1⟩ := along_ok hn hB hS f i1
      have h1 := hsame i1 (by omega)
      have h2 := hpub i1 (by omega)
      rw [along_succ, hf1] at h1 h2
      change (jobStep c _ k now skip).phase = _ at h1
      change pubs (jobStep c _ k now skip) = _ at h2
      rw [jobStep_some hph hk] at h1 h2
      obtain ⟨h3, _⟩ := act_rest hn hB1 hS1 hph hk now skip h2 hro
      rw [hph] at h1
      simp only [Phase.draining.injEq] at h1
      have h4 := congrArg (fun l => l[k]?) h1
      simp only [hk] at h4
      rw [List.getElem?_set_self (List.getElem?_eq_some_iff.1 hk).1] at h4
      simp only [Option.some.injEq] at h4
      have := congrArg Prod.snd h4
      simp only at this
      rw [this] at h3
      exact lt_irrefl _ h3
  intro i hi
  rw [hall i hi, ← hall i0 hi0, hwait]

/-- From some step on the worker waits and nothing is asked of it. -/
theorem rests {c : Cfg K R} (hn : 0 < c.x.readRows) {n : Nat} {w : W K R} (hB : Base c n w) (hS : Shaped c w)
    {f : Nat → Model.Worker.Op K R} (hfair : Fairly c f) (hf : ∀ i, noFlush (f i) = true)
    (hu : ∀ i, unasked (f i) = true) :
    ∃ N, ∀ i, N ≤ i → (along c w f i).phase = .waiting ∧ (along c w f i).kicks = 0 := by
  obtain ⟨N0, hN0⟩ := publications_end hn hB hS hf
  have hpub : ∀ i, N0 ≤ i → pubs (along c w f (i + 1)) = pubs (along c w f i) :=
    fun i hi => pubs_of_filter (hN0 i hi).2
  have hstep : ∀ i, N0 ≤ i → Lower 1 (rank c (along c w f (i + 1))) (rank c (along c w f i)) ∨
      (rank c (along c w f (i + 1)) = rank c (along c w f i) ∧ (along c w f (i + 1)).phase = (along c w f i).phase ∧
        (along c w f (i + 1)).kicks = (along c w f i).kicks) := by
    intro i hi
    obtain ⟨⟨n', h1⟩, h2⟩ := along_ok hn hB hS f i
    exact rest_step hn h1 h2 (hu i) (hpub i hi)
  obtain ⟨M, hM⟩ := settles (T := 1) (g := fun i => rank c (along c w f (N0 + i))) (fun i => by
    rcases hstep (N0 + i) (by omega) with h | ⟨h, _⟩
    · exact .inr h
    · exact .inl h)
  have hquiet : ∀ i, N0 + M ≤ i → (along c w f (i + 1)).phase = (along c w f i).phase ∧
      (along c w f (i + 1)).kicks = (along c w f i).kicks := by
    intro i hi
    rcases hstep i (by omega) with h | ⟨_, h1, h2⟩
    · exfalso
      refine hM (i - N0) (by omega) ?_
      have e : N0 + (i - N0) = i := by omega
      have e' : N0 + (i - N0 + 1) = i + 1 := by omega
      simp only [e, e']
      exact h
    · exact ⟨h1, h2⟩
  have hwait := stuck hn hB hS hfair (N := N0 + M) (fun i hi => hpub i (by omega)) (fun i hi => (hquiet i hi).1)
  refine ⟨N0 + M, fun i hi => ⟨hwait i hi, ?_⟩⟩
  -- a turn would use up a trigger
  obtain ⟨i0, hi0, hf0⟩ := hfair.1 i
  have hk : ∀ i', i ≤ i' → (along c w f i').kicks = (along c w f i).kicks := by
    intro i' hi'
    induction i', hi' using Nat.le_induction with
    | base => rfl
    | succ m hm ih => rw [(hquiet m (by omega)).2, ih]
  have h1 := (hquiet i0 (by omega)).2
  rw [along_succ, hf0] at h1
  change (Model.Worker.turn c _).kicks = _ at h1
  rw [← hk i0 hi0]
  by_contra hne
  unfold Model.Worker.turn at h1
  rw [hwait i0 (by omega)] at h1
  simp only at h1
  rw [if_neg hne] at h1
  simp only [begin] at h1
  omega

end Tonbo.Lemmas.Worker
