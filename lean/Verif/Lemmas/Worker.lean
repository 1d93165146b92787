import Verif.Lemmas.LsmStep
import Verif.Model.Worker

/-!
# What holds after every step of the compaction worker
-/

set_option linter.unusedSectionVars false

namespace Tonbo.Lemmas.Worker
open Tonbo.Model Tonbo.Model.Manifest Tonbo.Model.Planner Tonbo.Model.Outcome Tonbo.Model.Lsm Tonbo.Model.Worker
open Tonbo.Lemmas.Manifest Tonbo.Lemmas.Lsm Tonbo.Lemmas.Outcome

variable {K R : Type} [LinearOrder K]

/-! ## The two halves of a job -/

theorem tableOk_num {P : Type} {m : Kv P} {t n n' : Nat} {h h' : Head} (a : TableOk m t n h) (b : TableOk m t n' h') :
    n = n' := by
  have e : h = h' := by
    have := a.head.symm.trans b.head
    simpa using this
  have := a.last
  rw [e, b.last] at this
  unfold lastOf at this
  split_ifs at this
  · omega
  · simpa using this.symm

theorem inv_num {ext : R → Option K} {x : Exec K R} {t n n' : Nat} {s s' : Db K R} (a : Inv ext x t n s)
    (b : Inv ext x t n' s') (h : s'.kv = s.kv) : n' = n := by
  obtain ⟨_, ha⟩ := a.reg
  obtain ⟨_, hb⟩ := b.reg
  rw [h] at hb
  exact tableOk_num hb ha

theorem lastOf_pos {n : Nat} (h : 1 ≤ n) : lastOf n = some n := by
  unfold lastOf; rw [if_neg (by omega)]

theorem outcomeOf_edits {order : List (Nat × List Nat) → List (Nat × List Nat)} {v : Version (Info K)}
    {floor : Option WalRef} {level : Nat} {ins outs : List (Desc K)} {o : Outcome K}
    (h : outcomeOf v floor level ins outs = some o) : toEdits order o ≠ [] := by
  unfold outcomeOf at h
  cases hf : fromOutputs outs ins level with
  | none => rw [hf] at h; cases h
  | some o' =>
    rw [hf] at h
    simp only [Option.some.injEq] at h
    have : ∃ s, o.wal = some s := by
      rw [← h]
      unfold reconcile
      split
      · exact ⟨_, rfl⟩
      · exact ⟨_, rfl⟩
    obtain ⟨s, hs⟩ := this
    unfold toEdits
    rw [hs]
    simp

/-- A job that notes the head `k`. -/
theorem start_cases {ext : R → Option K} {x : Exec K R} {t n : Nat} {s : Db K R} (h : Inv ext x t n s)
    (hn : 0 < x.readRows) (task : PTask K) (k skip : Nat) (hk : 1 ≤ k) :
    Inv ext x t n (Lsm.step ext x t s (.start task (some k) skip)).2 ∧
    (Lsm.step ext x t s (.start task (some k) skip)).2.kv = s.kv ∧
    ((k ≠ n ∧ (start x t s task (some k) skip).2 = .skipped ∧
        (Lsm.step ext x t s (.start task (some k) skip)).2.jobs = s.jobs) ∨
     (k = n ∧ ((∃ e, (start x t s task (some k) skip).2 = .failed e ∧
          (Lsm.step ext x t s (.start task (some k) skip)).2.jobs = s.jobs) ∨
        ∃ p, (start x t s task (some k) skip).2 = .ready p ∧ p.expected = some (some n) ∧
          (Lsm.step ext x t s (.start task (some k) skip)).2.jobs = s.jobs ++ [p]))) := by
  obtain ⟨hd, hok⟩ := h.reg
  obtain ⟨s', r, e, a1, a2, a3, a4, a5, a6, a7, a8⟩ := start_spec h hn task (some k) skip
  refine ⟨inv_start h hn task (some k) skip, ?_, ?_⟩
  · unfold Lsm.step
    simp only [e]
    cases r <;> exact a2
  have hjobs : (∀ p, r ≠ .ready p) → (Lsm.step ext x t s (.start task (some k) skip)).2.jobs = s.jobs := by
    intro hr
    unfold Lsm.step
    simp only [e]
    cases r with
    | ready p => exact absurd rfl (hr p)
    | _ => exact a5
  have hlast : hd.last = lastOf n := hok.last
  by_cases hkn : k = n
  · right
    refine ⟨hkn, ?_⟩
    rcases snapshotLatest_spec hok with ⟨h0, _⟩ | ⟨h0, v, hv, hts, es⟩
    · omega
    cases hr : r with
    | ready p =>
      right
      obtain ⟨⟨v, o, hj, _⟩, _⟩ := a8 p hr
      refine ⟨p, by rw [e, hr], hj.expected, ?_⟩
      unfold Lsm.step
      simp only [e, hr, a5]
    | failed err =>
      left
      exact ⟨err, by rw [e, hr], hjobs (by rw [hr]; simp)⟩
    | skipped =>
      exfalso
      have hs : (start x t s task (some k) skip).2 = .skipped := by rw [e, hr]
      unfold start at hs
      rw [es] at hs
      simp only at hs
      rw [if_neg (by rw [hlast, lastOf_pos h0, hkn]; simp)] at hs
      split at hs
      · cases hs
      · split at hs
        · cases hs
        · split at hs
          · cases hs
          · split at hs
            · cases hs
            · split at hs <;> cases hs
    | done =>
      exfalso
      have hs : (start x t s task (some k) skip).2 = .done := by rw [e, hr]
      unfold start at hs
      rw [es] at hs
      simp only at hs
      rw [if_neg (by rw [hlast, lastOf_pos h0, hkn]; simp)] at hs
      split at hs
      · cases hs
      · split at hs
        · cases hs
        · split at hs
          · cases hs
          · rename_i o ho
            split at hs
            · cases hs
            · split at hs
              · rename_i hed
                exact outcomeOf_edits ho hed
              · cases hs
  · left
    have hs : start x t s task (some k) skip = (s, .skipped) := by
      unfold start
      rcases snapshotLatest_spec hok with ⟨h0, es⟩ | ⟨h0, v, hv, hts, es⟩
      · rw [es]
      · rw [es]
        simp only
        rw [if_pos]
        rw [hlast, lastOf_pos h0]
        refine ⟨by simp, ?_⟩
        simpa using fun hc : n = k => hkn hc.symm
    refine ⟨hkn, by rw [hs], hjobs ?_⟩
    rw [hs] at e
    cases e
    simp

/-- A waiting job that expects the head `k`. -/
theorem finish_cases {ext : R → Option K} {x : Exec K R} {t n : Nat} {s : Db K R} (h : Inv ext x t n s)
    {i : Nat} {p : Pending K} (hi : s.jobs[i]? = some p) {k : Nat} (hk : 1 ≤ k) (hp : p.expected = some (some k)) :
    (Lsm.step ext x t s (.finish i)).2.jobs = s.jobs.eraseIdx i ∧
    ((k ≠ n ∧ Inv ext x t n (Lsm.step ext x t s (.finish i)).2 ∧ (Lsm.step ext x t s (.finish i)).2.kv = s.kv ∧
        (finish t { s with jobs := s.jobs.eraseIdx i } p).2 = .error .casConflict) ∨
     (k = n ∧ Inv ext x t (n + 1) (Lsm.step ext x t s (.finish i)).2 ∧
        (finish t { s with jobs := s.jobs.eraseIdx i } p).2 = .ok (n + 1))) := by
  obtain ⟨hd, hreg⟩ := h.reg
  have e2 : (Lsm.step ext x t s (.finish i)).2 = (finish t { s with jobs := s.jobs.eraseIdx i } p).1 := by
    unfold Lsm.step; simp only [hi]
  rw [e2]
  obtain ⟨s', r, e, hc⟩ := finish_spec h hi
  rw [e]
  have hr : r = (apply s.kv t p.edits p.expected).2 := by
    have : (finish t { s with jobs := s.jobs.eraseIdx i } p).2 = r := by rw [e]
    rw [← this]
    unfold finish
    simp only
    split <;> rename_i ha <;> rw [ha]
  have hpj : p ∈ s.jobs := List.mem_of_getElem? hi
  obtain ⟨⟨k', u, target, o, hj⟩, _⟩ := h.jobs p hpj
  have hed : p.edits ≠ [] := by
    rw [hj.edits]
    obtain ⟨fl, ho⟩ := hj.out
    exact outcomeOf_edits ho
  have hkk : k' = k := by
    have := hj.expected
    rw [hp] at this
    simpa using this.symm
  subst hkk
  have conflict : k' ≠ n → (apply s.kv t p.edits p.expected).2 = .error .casConflict := by
    intro hkn
    rcases apply_cases h.good t p.edits p.expected with ⟨h1, _⟩ | ⟨_, h1, _⟩ | ⟨n0, h0, hok0, _, hx⟩
    · exact absurd h1 hed
    · rw [hreg.head] at h1; cases h1
    · have := tableOk_num hok0 hreg
      subst this
      rcases hx with ⟨_, _, ha⟩ | ⟨hx, _⟩
      · rw [ha]
      · rw [hp] at hx
        rcases hx with hx | hx
        · cases hx
        · simp only [Option.some.injEq] at hx
          unfold lastOf at hx
          split_ifs at hx
          simp at hx
          exact absurd hx hkn
  have granted : k' = n → ∃ n', (apply s.kv t p.edits p.expected).2 = .ok n' := by
    intro hkn
    rcases apply_cases h.good t p.edits p.expected with ⟨h1, _⟩ | ⟨_, h1, _⟩ | ⟨n0, h0, hok0, _, hx⟩
    · exact absurd h1 hed
    · rw [hreg.head] at h1; cases h1
    · have := tableOk_num hok0 hreg
      subst this
      rcases hx with ⟨_, hx, _⟩ | ⟨_, v, hb, _, hvo, hx⟩
      · exfalso
        rw [hp, hkn] at hx
        exact hx (by rw [lastOf_pos (hkn ▸ hk)])
      · rcases hx with ⟨hx, _⟩ | ⟨_, v', _, _, _, _, ha⟩
        · exfalso
          have hv : v = u := by
            have h1 := hj.here
            unfold At at h1
            rw [hkn] at h1
            unfold baseVersion at hb
            rw [hok0.last, lastOf_pos (hkn ▸ hk)] at hb
            simp only at hb
            rw [h1] at hb
            simpa [asVersion] using hb.symm
          subst hv
          have hdesc : ∀ d ∈ p.outputs, DescOk s.files s.next d :=
            fun d hd => (h.pend p (List.mem_append_right _ hpj) d hd).1
          obtain ⟨floor, hout⟩ := hj.out
          obtain ⟨a1, a2, a3, a4, _, _, L, hL, hseg⟩ := outcomeOf_spec hvo hout
          have hlev : ∀ d ∈ o.remove, d.level < v.ssts.length := by
            rw [a2]
            intro d hd
            have := (hj.names d hd).1
            by_contra hc
            rw [List.getD_eq_getElem?_getD, List.getElem?_eq_none (by omega)] at this
            cases this
          obtain ⟨t1, _⟩ := toEdits_spec x.orderPerm o v.ssts.length hlev (mapOf v) L hL
          rw [← hj.edits] at t1
          exact t1 hx
        · exact ⟨_, by rw [ha]⟩
  rcases hc with ⟨err, h1, h2, h3, _, _, _, _, _, h4⟩ | ⟨h1, h2, _, _, _, _, _, h4, _⟩
  · refine ⟨h4, .inl ⟨?_, h2, h3, ?_⟩⟩
    · intro hkn
      obtain ⟨n', hn'⟩ := granted hkn
      rw [hr, hn'] at h1
      cases h1
    · simp only
      rw [hr]
      apply conflict
      intro hkn
      obtain ⟨n', hn'⟩ := granted hkn
      rw [hr, hn'] at h1
      cases h1
  · refine ⟨h4, .inr ⟨?_, h2, h1⟩⟩
    by_contra hkn
    rw [hr, conflict hkn] at h1
    cases h1

/-! ## The invariant -/

/-- The table a running job has written and not yet published. -/
def pendOf (r : Model.Worker.Job K × Stage K) : Option (Pending K) :=
  match r.2 with
  | .merged _ p => some p
  | _ => none

/-- Those of all running jobs. -/
def waitings : Phase K → List (Pending K)
  | .draining js => js.filterMap pendOf
  | _ => []

/-- A running job notes a head that was once the head. -/
def RunOk (n : Nat) (r : Model.Worker.Job K × Stage K) : Prop :=
  ∃ k, 1 ≤ k ∧ k ≤ n ∧ r.1.head = some k ∧
    match r.2 with
    | .popped a => a = 1 ∨ (a = 2 ∧ k < n)
    | .merged a p => a = 1 ∧ p.expected = some (some k)
    | _ => True

def PhaseOk (n : Nat) : Phase K → Prop
  | .planned _ _ => 1 ≤ n
  | .draining js => ∀ r ∈ js, RunOk n r
  | _ => True

/-- The invariant; `n` versions are published. -/
structure Base (c : Cfg K R) (n : Nat) (w : W K R) : Prop where
  inv : Inv c.ext c.x c.table n w.db
  perm : w.db.jobs.Perm (waitings w.phase)
  queue : ∀ j ∈ w.queue, ∃ k, 1 ≤ k ∧ k ≤ n ∧ j.head = some k
  phase : PhaseOk n w.phase
  appl : w.applied = true → ∀ js, w.phase = .draining js → ∀ r ∈ js, ∀ k, r.1.head = some k → k < n
  room : w.queue.length ≤ c.slots
  few : ∀ js, w.phase = .draining js → js.length ≤ c.budget
  fates : ∀ e ∈ w.done, e.2 = .skipped ∨ e.2 = .failed ∨ e.2 = .published

theorem runOk_mono {n n' : Nat} (h : n ≤ n') {r : Model.Worker.Job K × Stage K} (hr : RunOk n r) : RunOk n' r := by
  obtain ⟨k, h1, h2, h3, h4⟩ := hr
  refine ⟨k, h1, by omega, h3, ?_⟩
  cases hs : r.2 with
  | popped a =>
    rw [hs] at h4
    simp only at h4 ⊢
    omega
  | merged a p => rw [hs] at h4; exact h4
  | ended => trivial
  | follow t => trivial
  | over => trivial

theorem phaseOk_mono {n n' : Nat} (h : n ≤ n') {ph : Phase K} (hp : PhaseOk n ph) : PhaseOk n' ph := by
  cases ph with
  | waiting => trivial
  | planning m => trivial
  | planned m t => exact Nat.le_trans hp h
  | draining js => exact fun r hr => runOk_mono h (hp r hr)

theorem noteHead_spec {c : Cfg K R} {n : Nat} {db : Db K R} (h : Inv c.ext c.x c.table n db) :
    noteHead c db = some (lastOf n) := by
  obtain ⟨hd, hok⟩ := h.reg
  unfold noteHead
  rcases snapshotLatest_spec hok with ⟨_, e⟩ | ⟨_, v, _, _, e⟩
  · rw [e]; simp only; rw [hok.last]
  · rw [e]; simp only; rw [hok.last]

theorem plan_pos {c : Cfg K R} {n m : Nat} {db : Db K R} (h : Inv c.ext c.x c.table n db) {t : PTask K}
    (hp : planFrom c db m = some t) : 1 ≤ n := by
  obtain ⟨hd, hok⟩ := h.reg
  unfold planFrom at hp
  rcases snapshotLatest_spec hok with ⟨_, e⟩ | ⟨h0, v, _, _, e⟩
  · rw [e] at hp; cases hp
  · exact h0

theorem plan_kv {c : Cfg K R} {m : Nat} {db db' : Db K R} (h : db'.kv = db.kv) : planFrom c db' m = planFrom c db m := by
  unfold planFrom; rw [h]

theorem set_perm {α β : Type} {f : α → Option β} : ∀ {l : List α} {i : Nat} {a b : α}, l[i]? = some a →
    ((l.set i b).filterMap f ++ (f a).toList).Perm (l.filterMap f ++ (f b).toList)
  | x :: l, 0, a, b, h => by
    simp only [List.length_cons, Nat.zero_lt_succ, List.getElem?_eq_getElem, List.getElem_cons_zero, Option.some.injEq] at h
    subst h
    simp only [List.set_cons_zero, List.filterMap_cons]
    cases f x with
    | none =>
      cases f b with
      | none => exact List.Perm.refl _
      | some v => simpa using (List.perm_append_singleton v _).symm
    | some u =>
      cases f b with
      | none => simpa using List.perm_append_singleton u _
      | some v =>
        refine (List.Perm.cons v (List.perm_append_singleton u _)).trans ?_
        refine (List.Perm.swap u v _).trans ?_
        exact (List.Perm.cons u (List.perm_append_singleton v _)).symm
  | x :: l, i + 1, a, b, h => by
    simp only [List.getElem?_cons_succ] at h
    have ih := set_perm (f := f) (b := b) h
    simp only [List.set_cons_succ, List.filterMap_cons]
    cases f x with
    | none => exact ih
    | some y => exact List.Perm.cons y ih
  | [], i, a, b, h => by simp at h

/-- What a step of a running job does. -/
structure ActOk (c : Cfg K R) (n : Nat) (w : W K R) (j : Model.Worker.Job K) (st : Stage K) (w' : W K R) (st' : Stage K)
    (n' : Nat) : Prop where
  more : n ≤ n'
  inv : Inv c.ext c.x c.table n' w'.db
  run : RunOk n' (j, st')
  perm : (w'.db.jobs ++ (pendOf (j, st)).toList).Perm (w.db.jobs ++ (pendOf (j, st')).toList)
  how :
    -- nothing published, nothing queued
    (n' = n ∧ w'.db.kv = w.db.kv ∧ w'.queue = w.queue ∧ w'.kicks = w.kicks ∧ w'.applied = w.applied ∧
      (w'.done = w.done ∨ ∃ f, (f = .skipped ∨ f = .failed) ∧ w'.done = w.done ++ [(j, f)]) ∧
      (j.head = some n → st = .popped 1 →
        (∃ p, st' = .merged 1 p) ∨ w'.done = w.done ++ [(j, .failed)]) ∧
      (∀ a p, st = .merged a p → j.head ≠ some n)) ∨
    -- published
    (n' = n + 1 ∧ j.head = some n ∧ (∃ a p, st = .merged a p) ∧ w'.queue = w.queue ∧ w'.kicks = w.kicks ∧
      w'.applied = true ∧ w'.done = w.done ++ [(j, .published)]) ∨
    -- a follow-up is queued
    (n' = n ∧ w'.db.kv = w.db.kv ∧ (∃ t, st = .follow t ∧ w'.queue = w.queue ++ [⟨t, some n⟩]) ∧
      w.queue.length < c.slots ∧ w'.kicks = w.kicks + 1 ∧ w'.applied = w.applied ∧ w'.done = w.done)

theorem act_spec {c : Cfg K R} (hn : 0 < c.x.readRows) {n : Nat} {w : W K R} (h : Inv c.ext c.x c.table n w.db)
    {j : Model.Worker.Job K} {st : Stage K} (hr : RunOk n (j, st)) (hp : ∀ a p, st = .merged a p → p ∈ w.db.jobs)
    (now skip : Nat) :
    ∃ n', ActOk c n w j st (act c w j now skip st).1 (act c w j now skip st).2 n' := by
  obtain ⟨k, hk1, hk2, hk3, hk4⟩ := hr
  simp only at hk3
  have quiet : ∀ w' : W K R, w'.db = w.db → w'.queue = w.queue → w'.kicks = w.kicks → w'.applied = w.applied →
      w'.done = w.done → (∀ a p, st ≠ .merged a p) → (∀ a, st ≠ .popped a) → ∀ st', (∀ a p, st' ≠ .merged a p) →
      (∀ a, st' ≠ .popped a) → ActOk c n w j st w' st' n := by
    intro w' h1 h2 h3 h4 h5 h6 h6' st' h7 h7'
    refine ⟨Nat.le_refl _, by rw [h1]; exact h, ⟨k, hk1, hk2, hk3, ?_⟩, ?_, .inl ⟨rfl, by rw [h1], h2, h3, h4, .inl h5,
      fun _ hc => absurd hc (h6' 1), fun a p hc => absurd hc (h6 a p)⟩⟩
    · cases st' with
      | popped a => exact absurd rfl (h7' a)
      | merged a p => exact absurd rfl (h7 a p)
      | _ => trivial
    · have e1 : pendOf (j, st) = none := by
        cases st with
        | merged a p => exact absurd rfl (h6 a p)
        | _ => rfl
      have e2 : pendOf (j, st') = none := by
        cases st' with
        | merged a p => exact absurd rfl (h7 a p)
        | _ => rfl
      rw [e1, e2, h1]
  cases st with
  | popped a =>
    obtain ⟨h1, h2, h3⟩ := start_cases (ext := c.ext) h hn j.task k skip hk1
    unfold act
    simp only
    rw [hk3]
    rcases h3 with ⟨h3, h4, h5⟩ | ⟨h3, ⟨e, h4, h5⟩ | ⟨p, h4, h5, h6⟩⟩
    · rw [h4]
      refine ⟨n, Nat.le_refl _, h1, ⟨k, hk1, hk2, hk3, trivial⟩, ?_, .inl ⟨rfl, h2, rfl, rfl, rfl, .inr ⟨_, .inl rfl, rfl⟩, ?_, ?_⟩⟩
      · simp only [W.note, pendOf, h5]
        exact List.Perm.refl _
      · intro hc
        simp only [hk3, Option.some.injEq] at hc
        exact absurd hc h3
      · intro a p hc
        cases hc
    · rw [h4]
      refine ⟨n, Nat.le_refl _, h1, ⟨k, hk1, hk2, hk3, trivial⟩, ?_, .inl ⟨rfl, h2, rfl, rfl, rfl, .inr ⟨_, .inr rfl, rfl⟩, ?_, ?_⟩⟩
      · simp only [W.note, pendOf, h5]
        exact List.Perm.refl _
      · intro _ _
        exact .inr rfl
      · intro a p hc
        cases hc
    · rw [h4]
      subst h3
      have ha : a = 1 := by
        rcases hk4 with hk4 | ⟨_, hk4⟩
        · exact hk4
        · omega
      refine ⟨k, Nat.le_refl _, h1, ⟨k, hk1, hk2, hk3, ha, h5⟩, ?_, .inl ⟨rfl, h2, rfl, rfl, rfl, .inl rfl, ?_, ?_⟩⟩
      · simp only [pendOf, h6]
        simp
      · intro _ _
        exact .inl ⟨p, by rw [ha]⟩
      · intro a p hc
        cases hc
  | merged a p =>
    have hm := hp a p rfl
    have hi : w.db.jobs[w.db.jobs.idxOf p]? = some p := List.getElem?_idxOf hm
    obtain ⟨h1, h2⟩ := finish_cases h hi hk1 hk4.2
    have hperm : ((Lsm.step c.ext c.x c.table w.db (.finish (w.db.jobs.idxOf p))).2.jobs ++ [p]).Perm (w.db.jobs ++ []) := by
      rw [h1, List.append_nil]
      refine (List.perm_append_singleton _ _).trans ?_
      exact (eraseIdx_perm hi).symm
    unfold act
    simp only
    rcases h2 with ⟨h2, h3, h4, h5⟩ | ⟨h2, h3, h5⟩
    · rw [h5]
      simp only
      rw [if_neg (by rw [hk4.1]; omega)]
      refine ⟨n, Nat.le_refl _, h3, ⟨k, hk1, hk2, hk3, .inr ⟨by rw [hk4.1], by omega⟩⟩, hperm, .inl ⟨rfl, h4, rfl, rfl, rfl, .inl rfl, ?_, ?_⟩⟩
      · intro _ hc
        cases hc
      · intro _ _ _ hc
        rw [hk3] at hc
        simp only [Option.some.injEq] at hc
        exact h2 hc
    · rw [h5]
      subst h2
      refine ⟨k + 1, Nat.le_succ _, h3, ⟨k, hk1, by omega, hk3, trivial⟩, hperm, .inr (.inl ⟨rfl, hk3, ⟨a, p, rfl⟩, rfl, rfl, rfl, rfl⟩)⟩
  | ended =>
    refine ⟨n, ?_⟩
    unfold act
    split_ifs with hc
    · cases w.control.acquire now with
      | mk v k =>
        cases v with
        | allowed =>
          simp only
          cases planFrom c w.db 1 with
          | none => exact quiet { w with control := k } rfl rfl rfl rfl rfl (by simp) (by simp) .over (by simp) (by simp)
          | some t => exact quiet { w with control := k } rfl rfl rfl rfl rfl (by simp) (by simp) (.follow t) (by simp) (by simp)
        | budget => exact quiet { w with control := k } rfl rfl rfl rfl rfl (by simp) (by simp) .over (by simp) (by simp)
        | cooldown => exact quiet { w with control := k } rfl rfl rfl rfl rfl (by simp) (by simp) .over (by simp) (by simp)
    · exact quiet _ rfl rfl rfl rfl rfl (by simp) (by simp) _ (by simp) (by simp)
  | follow t =>
    refine ⟨n, ?_⟩
    unfold act
    rw [noteHead_spec h, lastOf_pos (by omega)]
    simp only
    unfold enqueue
    by_cases hq : w.queue.length < c.slots
    · rw [if_pos hq]
      refine ⟨Nat.le_refl _, h, ⟨k, hk1, hk2, hk3, trivial⟩, List.Perm.refl _, .inr (.inr ⟨rfl, rfl, ⟨t, rfl, rfl⟩, hq, rfl, rfl, rfl⟩)⟩
    · rw [if_neg hq]
      exact quiet _ rfl rfl rfl rfl rfl (by simp) (by simp) _ (by simp) (by simp)
  | over =>
    exact ⟨n, quiet w rfl rfl rfl rfl rfl (by simp) (by simp) .over (by simp) (by simp)⟩

theorem foreign_jobs (ext : R → Option K) (x : Exec K R) (t : Nat) (s : Db K R) (op : Lsm.Op K R) (hf : foreign op = true) :
    (Lsm.step ext x t s op).2.jobs = s.jobs := by
  have fw : ∀ count refs, (flushWrite ext x s count refs).jobs = s.jobs := by
    intro count refs
    unfold flushWrite
    split
    · split_ifs
      · rfl
      · split
        · rfl
        · split <;> rfl
    · rfl
  cases op with
  | write o => rfl
  | flushWrite refs => exact fw _ _
  | flushSome count refs => exact fw _ _
  | setWal refs =>
    change (setWal t s refs).jobs = _
    unfold setWal
    split_ifs <;> rfl
  | flushPublish =>
    change (flushPublish t s).jobs = _
    unfold flushPublish
    split
    · split <;> rfl
    · rfl
  | flushDrain =>
    change (flushDrain s).jobs = _
    unfold flushDrain
    split <;> rfl
  | start t h sk => cases hf
  | finish i => cases hf
  | reopen cap => cases hf

theorem reopen_jobs {ext : R → Option K} {x : Exec K R} {t n : Nat} {s : Db K R} (h : Inv ext x t n s) (cap : Nat) :
    (Lsm.step ext x t s (.reopen cap)).2.jobs = [] ∧ (Lsm.step ext x t s (.reopen cap)).2.kv = s.kv := by
  obtain ⟨k, hk, hlt⟩ := allocator_spec h
  unfold Lsm.step
  simp only [reopen, hk]
  exact ⟨trivial, trivial⟩

theorem budget_pos (c : Cfg K R) : 1 ≤ c.budget := by unfold Cfg.budget; omega
theorem slots_pos (c : Cfg K R) : 1 ≤ c.slots := by unfold Cfg.slots; omega
theorem budget_slots (c : Cfg K R) : c.budget ≤ c.slots := by unfold Cfg.slots; omega

theorem waitings_popped (q : List (Model.Worker.Job K)) :
    waitings (.draining (q.map (fun j => (j, Stage.popped 1)))) = [] := by
  unfold waitings
  induction q with
  | nil => rfl
  | cons j q ih =>
    simp only at ih ⊢
    rw [List.map_cons, List.filterMap_cons, ih]
    rfl

/-- A step of a running job, in full. -/
theorem job_spec {c : Cfg K R} (hn : 0 < c.x.readRows) {n : Nat} {w : W K R} (hB : Base c n w)
    {js : List (Model.Worker.Job K × Stage K)} (hph : w.phase = .draining js) {i : Nat} {j : Model.Worker.Job K}
    {st : Stage K} (hi : js[i]? = some (j, st)) (now skip : Nat) :
    ∃ w' st' n', jobStep c w i now skip = { w' with phase := .draining (js.set i (j, st')) } ∧
      ActOk c n w j st w' st' n' := by
  have hmem := List.mem_of_getElem? hi
  have hP := hB.phase
  rw [hph] at hP
  obtain ⟨n', ha⟩ := act_spec hn hB.inv (hP _ hmem) (by
    intro a p hs
    have := hB.perm
    rw [hph] at this
    rw [this.mem_iff]
    unfold waitings
    rw [List.mem_filterMap]
    exact ⟨_, hmem, by rw [hs]; rfl⟩) now skip
  refine ⟨_, _, n', ?_, ha⟩
  unfold jobStep
  rw [hph]
  simp only
  rw [hi]

theorem base_act {c : Cfg K R} {n n' : Nat} {w w' : W K R} (hB : Base c n w)
    {js : List (Model.Worker.Job K × Stage K)} (hph : w.phase = .draining js) {i : Nat} {j : Model.Worker.Job K}
    {st st' : Stage K} (hi : js[i]? = some (j, st)) (ha : ActOk c n w j st w' st' n') :
    Base c n' { w' with phase := .draining (js.set i (j, st')) } := by
  have hmem := List.mem_of_getElem? hi
  have hP := hB.phase
  rw [hph] at hP
  have hset : ∀ r ∈ js.set i (j, st'), r = (j, st') ∨ r ∈ js := fun r hr => (List.mem_or_eq_of_mem_set hr).symm
  have hfates : ∀ e ∈ w'.done, e.2 = .skipped ∨ e.2 = .failed ∨ e.2 = .published := by
    rcases ha.how with ⟨_, _, _, _, _, h, _⟩ | ⟨_, _, _, _, _, _, h⟩ | ⟨_, _, _, _, _, _, h⟩
    · rcases h with h | ⟨f, hf, h⟩
      · rw [h]; exact hB.fates
      · rw [h]
        intro e he
        rcases List.mem_append.1 he with he | he
        · exact hB.fates e he
        · rw [List.mem_singleton.1 he]
          rcases hf with rfl | rfl
          · exact .inl rfl
          · exact .inr (.inl rfl)
    · rw [h]
      intro e he
      rcases List.mem_append.1 he with he | he
      · exact hB.fates e he
      · rw [List.mem_singleton.1 he]
        exact .inr (.inr rfl)
    · rw [h]; exact hB.fates
  refine ⟨ha.inv, ?_, ?_, ?_, ?_, ?_, ?_, hfates⟩
  · have h1 := ha.perm
    have h2 := hB.perm
    rw [hph] at h2
    have h3 := set_perm (f := pendOf) (b := (j, st')) hi
    have h4 := (h1.trans (h2.append_right _)).trans h3.symm
    exact (List.perm_append_right_iff _).1 h4
  · have old : ∀ j ∈ w.queue, ∃ k, 1 ≤ k ∧ k ≤ n' ∧ j.head = some k := by
      intro j hj
      obtain ⟨k, h1, h2, h3⟩ := hB.queue j hj
      exact ⟨k, h1, Nat.le_trans h2 ha.more, h3⟩
    rcases ha.how with ⟨_, _, h, _⟩ | ⟨_, _, _, h, _⟩ | ⟨hnn, _, ⟨t, _, h⟩, _⟩
    · simp only [h]; exact old
    · simp only [h]; exact old
    · simp only [h]
      intro j hj
      rcases List.mem_append.1 hj with hj | hj
      · exact old j hj
      · rw [List.mem_singleton.1 hj]
        obtain ⟨k, h1, h2, _⟩ := hP _ hmem
        exact ⟨n, by omega, by omega, rfl⟩
  · intro r hr
    rcases hset r hr with rfl | hr
    · exact ha.run
    · exact runOk_mono ha.more (hP r hr)
  · intro hap js' hjs r hr k hk
    simp only [Phase.draining.injEq] at hjs
    subst hjs
    have hle : k ≤ n := by
      rcases hset r hr with rfl | hr
      · obtain ⟨k', _, h2, h3, _⟩ := hP _ hmem
        simp only at h3 hk
        rw [h3] at hk
        simp only [Option.some.injEq] at hk
        omega
      · obtain ⟨k', _, h2, h3, _⟩ := hP _ hr
        rw [h3] at hk
        simp only [Option.some.injEq] at hk
        omega
    have hold : w.applied = true → k < n := by
      intro hap
      rcases hset r hr with rfl | hr
      · exact hB.appl hap js hph _ hmem k hk
      · exact hB.appl hap js hph _ hr k hk
    rcases ha.how with ⟨h0, _, _, _, h, _⟩ | ⟨h0, _⟩ | ⟨h0, _, _, _, _, h, _⟩
    · have := hold (by rw [← h]; exact hap); omega
    · omega
    · have := hold (by rw [← h]; exact hap); omega
  · rcases ha.how with ⟨_, _, h, _⟩ | ⟨_, _, _, h, _⟩ | ⟨_, _, ⟨t, _, h⟩, h', _⟩
    · simp only [h]; exact hB.room
    · simp only [h]; exact hB.room
    · simp only [h, List.length_append, List.length_singleton]; omega
  · intro js' hjs
    simp only [Phase.draining.injEq] at hjs
    subst hjs
    rw [List.length_set]
    exact hB.few js hph

/-- Storage fails under a job. -/
theorem fail_cases (w : W K R) (i : Nat) : failStep w i = w ∨
    ∃ js j a, w.phase = .draining js ∧ js[i]? = some (j, .popped a) ∧
      failStep w i = { w with done := w.done ++ [(j, .failed)], phase := .draining (js.set i (j, .over)) } := by
  unfold failStep
  cases hph : w.phase with
  | draining js =>
    simp only
    cases hi : js[i]? with
    | none => exact .inl rfl
    | some r =>
      obtain ⟨j, st⟩ := r
      cases st with
      | popped a => exact .inr ⟨js, j, a, rfl, hi, rfl⟩
      | merged a p => exact .inl rfl
      | ended => exact .inl rfl
      | follow t => exact .inl rfl
      | over => exact .inl rfl
  | waiting => exact .inl rfl
  | planning m => exact .inl rfl
  | planned m t => exact .inl rfl

theorem fail_act {c : Cfg K R} {n : Nat} {w : W K R} (hB : Base c n w)
    {js : List (Model.Worker.Job K × Stage K)} (hph : w.phase = .draining js) {i : Nat} {j : Model.Worker.Job K} {a : Nat}
    (hi : js[i]? = some (j, .popped a)) :
    ActOk c n w j (.popped a) { w with done := w.done ++ [(j, .failed)] } .over n := by
  have hP := hB.phase
  rw [hph] at hP
  obtain ⟨k, h1, h2, h3, _⟩ := hP _ (List.mem_of_getElem? hi)
  refine ⟨Nat.le_refl _, hB.inv, ⟨k, h1, h2, h3, trivial⟩, List.Perm.refl _, .inl ⟨rfl, rfl, rfl, rfl, rfl, .inr ⟨_, .inr rfl, rfl⟩, fun _ _ => .inr rfl, ?_⟩⟩
  intro a p hc
  cases hc

theorem base_turn {c : Cfg K R} {n : Nat} {w : W K R} (hB : Base c n w) : Base c n (Model.Worker.turn c w) := by
  unfold Model.Worker.turn
  have hperm := hB.perm
  cases hph : w.phase with
  | waiting =>
    rw [hph] at hperm
    simp only
    split_ifs
    · exact hB
    · exact ⟨hB.inv, hperm, hB.queue, trivial, (fun _ js hj => by cases hj), hB.room, (fun js hj => by cases hj), hB.fates⟩
  | planning m =>
    rw [hph] at hperm
    cases m with
    | zero =>
      simp only
      refine ⟨hB.inv, ?_, fun j hj => hB.queue j (List.mem_of_mem_drop hj), ?_, by simp, ?_, ?_, hB.fates⟩
      · simp only
        rw [waitings_popped]
        exact hperm
      · intro r hr
        obtain ⟨j, hj, rfl⟩ := List.mem_map.1 hr
        obtain ⟨k, h1, h2, h3⟩ := hB.queue j (List.mem_of_mem_take hj)
        exact ⟨k, h1, h2, h3, .inl rfl⟩
      · simp only [List.length_drop]
        have := hB.room
        omega
      · intro js hj
        simp only [Phase.draining.injEq] at hj
        subst hj
        simp only [List.length_map, List.length_take]
        omega
    | succ m =>
      simp only
      cases hp : planFrom c w.db 0 with
      | none => exact ⟨hB.inv, hperm, hB.queue, trivial, (fun _ js hj => by cases hj), hB.room, (fun js hj => by cases hj), hB.fates⟩
      | some t =>
        exact ⟨hB.inv, hperm, hB.queue, plan_pos hB.inv hp, (fun _ js hj => by cases hj), hB.room, (fun js hj => by cases hj), hB.fates⟩
  | planned m t =>
    rw [hph] at hperm
    have hpos : 1 ≤ n := by
      have := hB.phase
      rw [hph] at this
      exact this
    simp only
    rw [noteHead_spec hB.inv, lastOf_pos hpos]
    simp only
    unfold enqueue
    by_cases hq : w.queue.length < c.slots
    · rw [if_pos hq]
      refine ⟨hB.inv, hperm, ?_, trivial, (fun _ js hj => by cases hj), ?_, (fun js hj => by cases hj), hB.fates⟩
      · intro j hj
        rcases List.mem_append.1 hj with hj | hj
        · exact hB.queue j hj
        · rw [List.mem_singleton.1 hj]
          exact ⟨n, hpos, Nat.le_refl _, rfl⟩
      · simp only [List.length_append, List.length_singleton]
        omega
    · rw [if_neg hq]
      exact ⟨hB.inv, hperm, hB.queue, trivial, (fun _ js hj => by cases hj), hB.room, (fun js hj => by cases hj), hB.fates⟩
  | draining js =>
    simp only
    by_cases ho : allOver js = true
    · rw [if_pos ho]
      have hnil : waitings (.draining js) = [] := by
        unfold waitings
        simp only
        rw [List.filterMap_eq_nil_iff]
        intro r hr
        unfold allOver at ho
        rw [List.all_eq_true] at ho
        have := ho r hr
        simp only [decide_eq_true_eq] at this
        unfold pendOf
        rw [this]
      rw [hph, hnil] at hperm
      split_ifs
      · exact ⟨hB.inv, hperm, hB.queue, trivial, (fun _ js hj => by cases hj), hB.room, (fun js hj => by cases hj), hB.fates⟩
      · exact ⟨hB.inv, hperm, hB.queue, trivial, (fun _ js hj => by cases hj), hB.room, (fun js hj => by cases hj), hB.fates⟩
    · rw [if_neg ho]
      exact hB

theorem base_step {c : Cfg K R} (hn : 0 < c.x.readRows) {n : Nat} {w : W K R} (hB : Base c n w)
    (op : Model.Worker.Op K R) : ∃ n', n ≤ n' ∧ Base c n' (Model.Worker.step c w op) := by
  cases op with
  | other op =>
    unfold Model.Worker.step
    simp only
    by_cases hf : foreign op = true
    · rw [if_pos hf]
      obtain ⟨n', h1, h2⟩ := inv_step hB.inv hn op
      refine ⟨n', h1, h2, ?_, ?_, phaseOk_mono h1 hB.phase, ?_, hB.room, hB.few, hB.fates⟩
      · simp only
        rw [foreign_jobs _ _ _ _ _ hf]
        exact hB.perm
      · intro j hj
        obtain ⟨k, a, b, d⟩ := hB.queue j hj
        exact ⟨k, a, Nat.le_trans b h1, d⟩
      · intro ha js hj r hr k hk
        exact Nat.lt_of_lt_of_le (hB.appl ha js hj r hr k hk) h1
    · rw [if_neg hf]
      exact ⟨n, Nat.le_refl _, hB⟩
  | trigger =>
    exact ⟨n, Nat.le_refl _, hB.inv, hB.perm, hB.queue, hB.phase, hB.appl, hB.room, hB.few, hB.fates⟩
  | turn => exact ⟨n, Nat.le_refl _, base_turn hB⟩
  | job i now skip =>
    change ∃ n', n ≤ n' ∧ Base c n' (jobStep c w i now skip)
    cases hph : w.phase with
    | draining js =>
      cases hi : js[i]? with
      | none =>
        refine ⟨n, Nat.le_refl _, ?_⟩
        unfold jobStep
        rw [hph]
        simp only
        rw [hi]
        exact hB
      | some r =>
        obtain ⟨w', st', n', e, ha⟩ := job_spec hn hB hph hi now skip
        rw [e]
        exact ⟨n', ha.more, base_act hB hph hi ha⟩
    | _ =>
      refine ⟨n, Nat.le_refl _, ?_⟩
      unfold jobStep
      rw [hph]
      exact hB
  | fail i =>
    change ∃ n', n ≤ n' ∧ Base c n' (failStep w i)
    rcases fail_cases w i with e | ⟨js, j, a, hph, hi, e⟩
    · rw [e]; exact ⟨n, Nat.le_refl _, hB⟩
    · rw [e]
      exact ⟨n, Nat.le_refl _, base_act hB hph hi (fail_act hB hph hi)⟩
  | restart cap =>
    unfold Model.Worker.step
    refine ⟨n, Nat.le_refl _, inv_reopen hB.inv cap, ?_, by simp, trivial, by simp, by simp, by simp, hB.fates⟩
    simp only
    rw [(reopen_jobs hB.inv cap).1]
    exact List.Perm.refl _

theorem base_new (c : Cfg K R) (cap sv : Nat) : Base c 0 (W.new c cap sv) :=
  ⟨inv_new c.ext c.x cap c.table sv, List.Perm.refl _, by simp [W.new], trivial, by simp [W.new], by simp [W.new],
    by simp [W.new], by simp [W.new]⟩

theorem base_run {c : Cfg K R} (hn : 0 < c.x.readRows) : ∀ (ops : List (Model.Worker.Op K R)) {n : Nat} {w : W K R},
    Base c n w → ∃ n', n ≤ n' ∧ Base c n' (Model.Worker.run c w ops)
  | [], n, w, h => ⟨n, Nat.le_refl _, h⟩
  | o :: os, n, w, h => by
    obtain ⟨n1, h1, h2⟩ := base_step hn h o
    obtain ⟨n2, h3, h4⟩ := base_run hn os h2
    exact ⟨n2, Nat.le_trans h1 h3, h4⟩

theorem run_append (c : Cfg K R) : ∀ (a b : List (Model.Worker.Op K R)) (w : W K R),
    Model.Worker.run c w (a ++ b) = Model.Worker.run c (Model.Worker.run c w a) b
  | [], _, _ => rfl
  | o :: os, b, w => run_append c os b _

/-! ## At most one publication per round -/

/-- The number of jobs that were published. -/
def pubs (w : W K R) : Nat := (w.done.filter (fun e => decide (e.2 = .published))).length

theorem pubs_append (w : W K R) (e : Model.Worker.Job K × Fate) :
    ((w.done ++ [e]).filter (fun e => decide (e.2 = .published))).length = pubs w + (if e.2 = .published then 1 else 0) := by
  rw [List.filter_append, List.length_append]
  unfold pubs
  congr 1
  by_cases h : e.2 = .published
  · rw [if_pos h, List.filter_cons_of_pos (by simp [h])]; rfl
  · rw [if_neg h, List.filter_cons_of_neg (by simp [h])]; rfl

/-- A step that neither ends the round nor the process. -/
def inRound : Model.Worker.Op K R → Bool
  | .turn => false
  | .restart _ => false
  | _ => true

theorem pubs_act {c : Cfg K R} {n n' : Nat} {w w' : W K R} (hB : Base c n w)
    {js : List (Model.Worker.Job K × Stage K)} (hph : w.phase = .draining js) {i : Nat} {j : Model.Worker.Job K}
    {st st' : Stage K} (hi : js[i]? = some (j, st)) (ha : ActOk c n w j st w' st' n') :
    (pubs w' = pubs w ∧ w'.applied = w.applied) ∨ (w.applied = false ∧ pubs w' = pubs w + 1 ∧ w'.applied = true) := by
  rcases ha.how with ⟨_, _, _, _, h1, h2, _⟩ | ⟨_, h0, _, _, _, h1, h2⟩ | ⟨_, _, _, _, _, h1, h2⟩
  · left
    refine ⟨?_, h1⟩
    unfold pubs
    rcases h2 with h2 | ⟨f, hf, h2⟩
    · rw [h2]
    · rw [h2, pubs_append]
      rcases hf with rfl | rfl <;> rfl
  · right
    refine ⟨?_, ?_, h1⟩
    · cases hap : w.applied with
      | false => rfl
      | true =>
        have := hB.appl hap js hph _ (List.mem_of_getElem? hi) n h0
        omega
    · unfold pubs
      rw [h2, pubs_append]
      rfl
  · left
    refine ⟨?_, h1⟩
    unfold pubs
    rw [h2]

theorem pubs_step {c : Cfg K R} (hn : 0 < c.x.readRows) {n : Nat} {w : W K R} (hB : Base c n w)
    {op : Model.Worker.Op K R} (hop : inRound op = true) :
    (pubs (Model.Worker.step c w op) = pubs w ∧ (Model.Worker.step c w op).applied = w.applied) ∨
    (w.applied = false ∧ pubs (Model.Worker.step c w op) = pubs w + 1 ∧ (Model.Worker.step c w op).applied = true) ∨
    (∀ js, w.phase ≠ .draining js) := by
  cases op with
  | turn => cases hop
  | restart cap => cases hop
  | other op =>
    left
    unfold Model.Worker.step
    simp only
    split_ifs <;> exact ⟨rfl, rfl⟩
  | trigger => exact .inl ⟨rfl, rfl⟩
  | fail i =>
    change (pubs (failStep w i) = _ ∧ (failStep w i).applied = _) ∨ (_ ∧ pubs (failStep w i) = _ ∧ (failStep w i).applied = _) ∨ _
    rcases fail_cases w i with e | ⟨js, j, a, hph, hi, e⟩
    · rw [e]; exact .inl ⟨rfl, rfl⟩
    · rw [e]
      rcases pubs_act hB hph hi (fail_act hB hph hi) with h | h
      · exact .inl h
      · exact .inr (.inl h)
  | job i now skip =>
    change (pubs (jobStep c w i now skip) = _ ∧ (jobStep c w i now skip).applied = _) ∨
      (_ ∧ pubs (jobStep c w i now skip) = _ ∧ (jobStep c w i now skip).applied = _) ∨ _
    cases hph : w.phase with
    | draining js =>
      cases hi : js[i]? with
      | none =>
        left
        unfold jobStep
        rw [hph]
        simp only
        rw [hi]
        exact ⟨rfl, rfl⟩
      | some r =>
        obtain ⟨w', st', n', e, ha⟩ := job_spec hn hB hph hi now skip
        rw [e]
        rcases pubs_act hB hph hi ha with h | h
        · exact .inl h
        · exact .inr (.inl h)
    | _ => exact .inr (.inr (by simp))

theorem phase_step {c : Cfg K R} {w : W K R} {op : Model.Worker.Op K R} (hop : inRound op = true) :
    (∃ js, w.phase = .draining js ∧ ∃ js', (Model.Worker.step c w op).phase = .draining js') ∨
    ((∀ js, w.phase ≠ .draining js) ∧ (Model.Worker.step c w op).phase = w.phase ∧
      (Model.Worker.step c w op).done = w.done) := by
  cases hph : w.phase with
  | draining js =>
    left
    refine ⟨js, rfl, ?_⟩
    cases op with
    | turn => cases hop
    | restart cap => cases hop
    | other op =>
      unfold Model.Worker.step
      simp only
      split_ifs <;> exact ⟨js, hph⟩
    | trigger => exact ⟨js, hph⟩
    | fail i =>
      change ∃ js', (failStep w i).phase = .draining js'
      rcases fail_cases w i with e | ⟨js', j, a, h1, hi, e⟩
      · rw [e]; exact ⟨js, hph⟩
      · rw [e]; exact ⟨_, rfl⟩
    | job i now skip =>
      change ∃ js', (jobStep c w i now skip).phase = .draining js'
      unfold jobStep
      rw [hph]
      simp only
      split
      · exact ⟨js, hph⟩
      · exact ⟨_, rfl⟩
  | _ =>
    right
    refine ⟨by simp, ?_⟩
    cases op with
    | turn => cases hop
    | restart cap => cases hop
    | other op =>
      unfold Model.Worker.step
      simp only
      split_ifs
      · exact ⟨hph, rfl⟩
      · exact ⟨hph, rfl⟩
    | trigger => exact ⟨hph, rfl⟩
    | fail i =>
      unfold Model.Worker.step failStep
      simp only [hph]
      exact ⟨trivial, trivial⟩
    | job i now skip =>
      unfold Model.Worker.step jobStep
      simp only [hph]
      exact ⟨trivial, trivial⟩

theorem pubs_run {c : Cfg K R} (hn : 0 < c.x.readRows) : ∀ (ops : List (Model.Worker.Op K R)) {n : Nat} {w : W K R},
    Base c n w → (∀ o ∈ ops, inRound o = true) →
    pubs (Model.Worker.run c w ops) ≤ pubs w + 1 ∧
    (w.applied = true → ∀ js, w.phase = .draining js → pubs (Model.Worker.run c w ops) ≤ pubs w)
  | [], n, w, _, _ => ⟨Nat.le_add_right _ _, fun _ _ _ => Nat.le_refl _⟩
  | o :: os, n, w, hB, hops => by
    obtain ⟨n1, _, hB1⟩ := base_step hn hB o
    obtain ⟨ih1, ih2⟩ := pubs_run hn os hB1 (fun o' ho' => hops o' (List.mem_cons_of_mem _ ho'))
    have ho := hops o List.mem_cons_self
    change pubs (Model.Worker.run c (Model.Worker.step c w o) os) ≤ _ ∧
      (_ → ∀ js, _ → pubs (Model.Worker.run c (Model.Worker.step c w o) os) ≤ _)
    rcases phase_step (c := c) (w := w) ho with ⟨js, hph, js', hph'⟩ | ⟨hph, hph', hd⟩
    · rcases pubs_step hn hB ho with ⟨h1, h2⟩ | ⟨h0, h1, h2⟩ | h
      · refine ⟨by omega, fun hap _ _ => ?_⟩
        have := ih2 (by rw [h2]; exact hap) js' hph'
        omega
      · have := ih2 h2 js' hph'
        refine ⟨by omega, fun hap => ?_⟩
        rw [h0] at hap
        cases hap
      · exact absurd hph (h js)
    · have hp : pubs (Model.Worker.step c w o) = pubs w := by unfold pubs; rw [hd]
      exact ⟨by omega, fun _ js hj => absurd hj (hph js)⟩

/-! ## Catching up -/

/-- The jobs of the queue note the current head. -/
def Fresh (n : Nat) (q : List (Model.Worker.Job K)) : Prop := ∀ j ∈ q, j.head = some n

/-- A job failed after the first `d` ones. -/
def Trouble (d : Nat) (w : W K R) : Prop := ∃ e ∈ w.done.drop d, e.2 = .failed

/-- The triggers in the channel suffice to work off the queue, and one more. -/
def Late (w : W K R) : Prop :=
  match w.phase with
  | .waiting => w.queue.length + 1 ≤ w.kicks
  | .draining _ => w.queue.length + 1 ≤ w.kicks
  | _ => 1 ≤ w.kicks

/-- The worker is up to date with the table. -/
def Clean (c : Cfg K R) (n : Nat) (w : W K R) : Prop :=
  match w.phase with
  | .waiting => Fresh n w.queue ∧ (1 ≤ w.kicks ∨ planFrom c w.db 0 = none)
  | .planning m => Fresh n w.queue ∧ (w.queue = [] → m = c.budget ∨ planFrom c w.db 0 = none)
  | .planned _ _ => Fresh n w.queue
  | .draining js =>
    (w.applied = false ∧ w.queue = [] ∧ (js = [] → planFrom c w.db 0 = none) ∧
      ∀ r ∈ js, r.1.head = some n ∧ (r.2 = .popped 1 ∨ ∃ p, r.2 = .merged 1 p)) ∨
    (w.applied = true ∧ Fresh n w.queue)

/-- The triggers in the channel suffice to work off the queue. -/
def Ahead (w : W K R) : Prop :=
  match w.phase with
  | .waiting => w.queue.length ≤ w.kicks
  | .draining _ => w.queue.length ≤ w.kicks
  | _ => True

theorem ahead_act {c : Cfg K R} {n n' : Nat} {w w' : W K R} {j : Model.Worker.Job K} {st st' : Stage K}
    {js js' : List (Model.Worker.Job K × Stage K)} (hph : w.phase = .draining js) (h : Ahead w)
    (ha : ActOk c n w j st w' st' n') : Ahead { w' with phase := .draining js' } := by
  unfold Ahead at h ⊢
  rw [hph] at h
  simp only at h ⊢
  rcases ha.how with ⟨_, _, h1, h2, _⟩ | ⟨_, _, _, h1, h2, _⟩ | ⟨_, _, ⟨t, _, h1⟩, _, h2, _⟩
  · rw [h1, h2]; exact h
  · rw [h1, h2]; exact h
  · rw [h1, h2, List.length_append, List.length_singleton]; omega

theorem ahead_step {c : Cfg K R} (hn : 0 < c.x.readRows) (hs : c.slots = c.budget) {n : Nat} {w : W K R} (hB : Base c n w)
    (h : Ahead w) (op : Model.Worker.Op K R) : Ahead (Model.Worker.step c w op) := by
  cases op with
  | other op =>
    unfold Model.Worker.step
    simp only
    split_ifs <;> exact h
  | trigger =>
    unfold Model.Worker.step Ahead at *
    cases hph : w.phase <;> simp only [hph] at h ⊢ <;> omega
  | restart cap =>
    unfold Model.Worker.step Ahead
    simp
  | turn =>
    change Ahead (Model.Worker.turn c w)
    have hroom := hB.room
    unfold Model.Worker.turn
    cases hph : w.phase with
    | waiting =>
      simp only
      split_ifs
      · exact h
      · unfold Ahead begin; trivial
    | planning m =>
      cases m with
      | zero =>
        unfold Ahead
        simp only [List.length_drop]
        omega
      | succ m =>
        simp only
        split <;> (unfold Ahead; trivial)
    | planned m t =>
      simp only
      split
      · unfold Ahead; trivial
      · split <;> (unfold Ahead; trivial)
    | draining js =>
      unfold Ahead at h
      simp only [hph] at h
      simp only
      split_ifs
      · unfold Ahead begin; trivial
      · unfold Ahead; exact h
      · unfold Ahead; simp only [hph]; exact h
  | job i now skip =>
    change Ahead (jobStep c w i now skip)
    cases hph : w.phase with
    | draining js =>
      cases hi : js[i]? with
      | none =>
        unfold jobStep
        rw [hph]
        simp only
        rw [hi]
        exact h
      | some r =>
        obtain ⟨w', st', n', e, ha⟩ := job_spec hn hB hph hi now skip
        rw [e]
        exact ahead_act hph h ha
    | _ =>
      unfold jobStep
      rw [hph]
      exact h
  | fail i =>
    change Ahead (failStep w i)
    rcases fail_cases w i with e | ⟨js, j, a, hph, hi, e⟩
    · rw [e]; exact h
    · rw [e]
      exact ahead_act (w' := { w with done := w.done ++ [(j, .failed)] }) hph h (fail_act hB hph hi)

/-- Steps that are not a publication by someone else. -/
def silent : Model.Worker.Op K R → Bool
  | .other .flushPublish => false
  | .other (.setWal _) => false
  | _ => true

theorem silent_kv (c : Cfg K R) (w : W K R) (op : Lsm.Op K R) (h : silent (.other op : Model.Worker.Op K R) = true) :
    (Model.Worker.step c w (.other op)).db.kv = w.db.kv := by
  unfold Model.Worker.step
  simp only
  have fw : ∀ count refs, (flushWrite c.ext c.x w.db count refs).kv = w.db.kv := by
    intro count refs
    unfold flushWrite
    split
    · split_ifs
      · rfl
      · split
        · rfl
        · split <;> rfl
    · rfl
  cases op with
  | write o => rfl
  | flushWrite refs => exact fw _ _
  | flushSome count refs => exact fw _ _
  | setWal refs => cases h
  | flushPublish => cases h
  | flushDrain =>
    change (flushDrain w.db).kv = _
    unfold flushDrain
    split <;> rfl
  | start t h sk => rfl
  | finish i => rfl
  | reopen cap => rfl

theorem trouble_mono {d : Nat} {w w' : W K R} (h : Trouble d w) (hd : w.done <+: w'.done) : Trouble d w' := by
  obtain ⟨e, he, hf⟩ := h
  obtain ⟨l, hl⟩ := hd
  refine ⟨e, ?_, hf⟩
  rw [← hl, List.drop_append]
  exact List.mem_append_left _ he

theorem act_done {c : Cfg K R} {n n' : Nat} {w w' : W K R} {j : Model.Worker.Job K} {st st' : Stage K}
    (ha : ActOk c n w j st w' st' n') : w.done <+: w'.done := by
  rcases ha.how with ⟨_, _, _, _, _, h, _⟩ | ⟨_, _, _, _, _, _, h⟩ | ⟨_, _, _, _, _, _, h⟩
  · rcases h with h | ⟨f, _, h⟩
    · rw [h]
    · rw [h]; exact List.prefix_append _ _
  · rw [h]; exact List.prefix_append _ _
  · rw [h]

theorem done_step {c : Cfg K R} (hn : 0 < c.x.readRows) {n : Nat} {w : W K R} (hB : Base c n w)
    (op : Model.Worker.Op K R) : w.done <+: (Model.Worker.step c w op).done := by
  cases op with
  | other op =>
    unfold Model.Worker.step
    simp only
    split_ifs <;> exact List.prefix_refl _
  | trigger => exact List.prefix_refl _
  | restart cap => exact List.prefix_refl _
  | turn =>
    change w.done <+: (Model.Worker.turn c w).done
    unfold Model.Worker.turn begin
    repeat' split
    all_goals exact List.prefix_refl _
  | job i now skip =>
    change w.done <+: (jobStep c w i now skip).done
    cases hph : w.phase with
    | draining js =>
      cases hi : js[i]? with
      | none =>
        unfold jobStep
        rw [hph]
        simp only
        rw [hi]
      | some r =>
        obtain ⟨w', st', n', e, ha⟩ := job_spec hn hB hph hi now skip
        rw [e]
        have := act_done ha
        exact this
    | _ =>
      unfold jobStep
      rw [hph]
  | fail i =>
    change w.done <+: (failStep w i).done
    rcases fail_cases w i with e | ⟨js, j, a, hph, hi, e⟩
    · rw [e]
    · rw [e]; exact List.prefix_append _ _

/-- What holds from a trigger on. -/
def Busy (c : Cfg K R) (d n : Nat) (w : W K R) : Prop := Trouble d w ∨ Late w ∨ Clean c n w

theorem busy_act {c : Cfg K R} {d n n' : Nat} {w w' : W K R} (hB : Base c n w) (hd : d ≤ w.done.length)
    {js : List (Model.Worker.Job K × Stage K)} (hph : w.phase = .draining js) {i : Nat} {j : Model.Worker.Job K}
    {st st' : Stage K} (hi : js[i]? = some (j, st)) (ha : ActOk c n w j st w' st' n') (h : Busy c d n w) :
    Busy c d n' { w' with phase := .draining (js.set i (j, st')) } := by
  have hmem := List.mem_of_getElem? hi
  rcases h with h | h | h
  · left
    have := act_done ha
    exact trouble_mono h this
  · right; left
    unfold Late at h ⊢
    rw [hph] at h
    simp only at h ⊢
    rcases ha.how with ⟨_, _, h1, h2, _⟩ | ⟨_, _, _, h1, h2, _⟩ | ⟨_, _, ⟨t, _, h1⟩, _, h2, _⟩
    · rw [h1, h2]; exact h
    · rw [h1, h2]; exact h
    · rw [h1, h2, List.length_append, List.length_singleton]; omega
  · unfold Clean at h
    rw [hph] at h
    rcases h with ⟨h1, h2, h3, h4⟩ | ⟨h1, h2⟩
    · obtain ⟨g1, g2⟩ := h4 _ hmem
      simp only at g1 g2
      rcases ha.how with ⟨a0, a1, a2, a3, a4, a5, a6, a7⟩ | ⟨a0, a1, a2, a3, a4, a5, a6⟩ | ⟨_, _, ⟨t, a2, _⟩, _⟩
      · rcases g2 with g2 | ⟨p, g2⟩
        · rcases a6 g1 g2 with ⟨p, hp⟩ | hp
          · right; right
            unfold Clean
            simp only
            left
            refine ⟨by rw [a4]; exact h1, by rw [a2]; exact h2, ?_, ?_⟩
            · intro hc
              have : (js.set i (j, st')).length = 0 := by rw [hc]; rfl
              rw [List.length_set] at this
              have : js = [] := List.length_eq_zero_iff.1 this
              rw [plan_kv a1]
              exact h3 this
            · intro r hr
              rcases List.mem_or_eq_of_mem_set hr with hr | rfl
              · rw [a0]; exact h4 r hr
              · exact ⟨by rw [a0]; exact g1, .inr ⟨p, hp⟩⟩
          · left
            refine ⟨(j, .failed), ?_, rfl⟩
            simp only
            rw [hp, List.drop_append_of_le_length hd]
            exact List.mem_append_right _ List.mem_cons_self
        · exact absurd g1 (a7 1 p g2)
      · right; right
        unfold Clean
        simp only
        right
        refine ⟨a5, ?_⟩
        rw [a3, h2]
        intro j hj
        cases hj
      · rcases g2 with g2 | ⟨p, g2⟩
        · rw [g2] at a2; cases a2
        · rw [g2] at a2; cases a2
    · right; right
      unfold Clean
      simp only
      right
      rcases ha.how with ⟨a0, a1, a2, a3, a4, _⟩ | ⟨a0, a1, a2, a3, a4, a5, a6⟩ | ⟨a0, _, ⟨t, _, a2⟩, _, _, a4, _⟩
      · exact ⟨by rw [a4]; exact h1, by rw [a2, a0]; exact h2⟩
      · have := hB.appl h1 js hph _ hmem n a1
        omega
      · refine ⟨by rw [a4]; exact h1, ?_⟩
        rw [a2, a0]
        intro j' hj'
        rcases List.mem_append.1 hj' with hj' | hj'
        · exact h2 j' hj'
        · rw [List.mem_singleton.1 hj']

theorem busy_turn {c : Cfg K R} (hs : c.slots = c.budget) {d n : Nat} {w : W K R} (hB : Base c n w)
    (h : Busy c d n w) : Busy c d n (Model.Worker.turn c w) := by
  have hroom := hB.room
  have hb := budget_pos c
  rcases h with h | h | h
  · left
    refine trouble_mono h ?_
    unfold Model.Worker.turn begin
    repeat' split
    all_goals exact List.prefix_refl _
  · unfold Late at h
    unfold Model.Worker.turn
    cases hph : w.phase with
    | waiting =>
      rw [hph] at h
      simp only at h ⊢
      rw [if_neg (by omega)]
      by_cases hq : w.queue = []
      · right; right
        unfold Clean begin
        simp only
        rw [hq]
        exact ⟨(fun j hj => by cases hj), fun _ => .inl trivial⟩
      · right; left
        have : w.queue.length ≠ 0 := fun hc => hq (List.length_eq_zero_iff.1 hc)
        unfold Late begin
        simp only
        omega
    | planning m =>
      rw [hph] at h
      simp only at h
      cases m with
      | zero =>
        right; left
        unfold Late
        simp only [List.length_drop]
        omega
      | succ m =>
        right; left
        simp only
        split <;> (unfold Late; exact h)
    | planned m t =>
      rw [hph] at h
      right; left
      simp only
      split
      · unfold Late; exact h
      · split <;> (unfold Late; exact h)
    | draining js =>
      right; left
      have h' := h
      rw [hph] at h
      simp only at h ⊢
      split_ifs
      · unfold Late begin; simp only; omega
      · unfold Late; exact h
      · unfold Late; exact h'
  · unfold Clean at h
    right; right
    unfold Model.Worker.turn
    cases hph : w.phase with
    | waiting =>
      have h' := h
      rw [hph] at h
      simp only at h ⊢
      split_ifs with hk
      · unfold Clean; exact h'
      · unfold Clean begin
        simp only
        exact ⟨h.1, fun _ => .inl trivial⟩
    | planning m =>
      rw [hph] at h
      simp only at h
      cases m with
      | zero =>
        unfold Clean
        simp only
        left
        refine ⟨trivial, ?_, ?_, ?_⟩
        · apply List.drop_eq_nil_of_le; omega
        · intro hc
          have : w.queue = [] := by
            have h1 : ((w.queue.take c.budget).map (fun j => (j, (Stage.popped 1 : Stage K)))).length = 0 := by rw [hc]; rfl
            rw [List.length_map, List.length_take] at h1
            exact List.length_eq_zero_iff.1 (by omega)
          rcases h.2 this with h2 | h2
          · omega
          · exact h2
        · intro r hr
          obtain ⟨j, hj, rfl⟩ := List.mem_map.1 hr
          exact ⟨h.1 j (List.mem_of_mem_take hj), .inl rfl⟩
      | succ m =>
        simp only
        cases hp : planFrom c w.db 0 with
        | none =>
          unfold Clean
          simp only
          exact ⟨h.1, fun _ => .inr hp⟩
        | some t =>
          unfold Clean
          exact h.1
    | planned m t =>
      have hpos : 1 ≤ n := by
        have := hB.phase
        rw [hph] at this
        exact this
      rw [hph] at h
      simp only at h ⊢
      rw [noteHead_spec hB.inv, lastOf_pos hpos]
      simp only
      unfold enqueue
      by_cases hq : w.queue.length < c.slots
      · rw [if_pos hq]
        unfold Clean
        simp only
        refine ⟨?_, fun hc => absurd hc (by simp)⟩
        intro j hj
        rcases List.mem_append.1 hj with hj | hj
        · exact h j hj
        · rw [List.mem_singleton.1 hj]
      · rw [if_neg hq]
        unfold Clean
        simp only
        refine ⟨h, fun hc => ?_⟩
        rw [hc] at hq
        have := slots_pos c
        simp at hq
        omega
    | draining js =>
      have h' := h
      rw [hph] at h
      simp only at h ⊢
      by_cases ho : allOver js = true
      · rw [if_pos ho]
        rcases h with ⟨h1, h2, h3, h4⟩ | ⟨h1, h2⟩
        · have hjs : js = [] := by
            cases js with
            | nil => rfl
            | cons r js =>
              exfalso
              unfold allOver at ho
              rw [List.all_eq_true] at ho
              have e := ho r List.mem_cons_self
              simp only [decide_eq_true_eq] at e
              rcases (h4 r List.mem_cons_self).2 with g | ⟨p, g⟩ <;> (rw [e] at g; cases g)
          rw [if_neg (by rw [h1]; simp)]
          unfold Clean
          simp only
          exact ⟨(by rw [h2]; intro j hj; cases hj), .inr (h3 hjs)⟩
        · by_cases hp : planFrom c w.db 0 = none
          · rw [if_neg (fun hc => hc.2 hp)]
            unfold Clean
            simp only
            exact ⟨h2, .inr hp⟩
          · rw [if_pos ⟨h1, hp⟩]
            unfold Clean begin
            simp only
            exact ⟨h2, fun _ => .inl trivial⟩
      · rw [if_neg ho]
        unfold Clean
        exact h'

theorem busy_step {c : Cfg K R} (hn : 0 < c.x.readRows) (hs : c.slots = c.budget) {d n n' : Nat} {w : W K R}
    (hB : Base c n w) (hd : d ≤ w.done.length) (h : Busy c d n w) {op : Model.Worker.Op K R} (hop : silent op = true)
    (hB' : Base c n' (Model.Worker.step c w op)) : Busy c d n' (Model.Worker.step c w op) := by
  cases op with
  | other op =>
    have hkv := silent_kv c w op hop
    have hnn := inv_num hB.inv hB'.inv hkv
    subst hnn
    have : ∃ db', Model.Worker.step c w (.other op) = { w with db := db' } := by
      unfold Model.Worker.step
      simp only
      split_ifs
      · exact ⟨_, rfl⟩
      · exact ⟨w.db, rfl⟩
    obtain ⟨db', e⟩ := this
    rw [e] at hkv ⊢
    simp only at hkv
    rcases h with h | h | h
    · exact .inl h
    · exact .inr (.inl h)
    · right; right
      unfold Clean at h ⊢
      simp only [plan_kv hkv]
      exact h
  | trigger =>
    have hnn := inv_num hB.inv hB'.inv rfl
    subst hnn
    unfold Model.Worker.step
    rcases h with h | h | h
    · exact .inl h
    · right; left
      unfold Late at h ⊢
      cases hph : w.phase <;> simp only [hph] at h ⊢ <;> omega
    · right; right
      unfold Clean at h ⊢
      cases hph : w.phase with
      | waiting =>
        simp only [hph] at h ⊢
        exact ⟨h.1, .inl (by omega)⟩
      | planning m => simp only [hph] at h ⊢; exact h
      | planned m t => simp only [hph] at h ⊢; exact h
      | draining js => simp only [hph] at h ⊢; exact h
  | restart cap =>
    right; right
    unfold Model.Worker.step Clean
    simp only
    exact ⟨(fun j hj => by cases hj), .inl (Nat.le_refl _)⟩
  | turn =>
    have hnn := inv_num (base_turn hB).inv hB'.inv rfl
    subst hnn
    exact busy_turn hs hB h
  | job i now skip =>
    change Busy c d n' (jobStep c w i now skip)
    change Base c n' (jobStep c w i now skip) at hB'
    have same : jobStep c w i now skip = w → Busy c d n' (jobStep c w i now skip) := by
      intro e
      rw [e] at hB' ⊢
      have hnn := inv_num hB.inv hB'.inv rfl
      subst hnn
      exact h
    cases hph : w.phase with
    | draining js =>
      cases hi : js[i]? with
      | none =>
        apply same
        unfold jobStep
        rw [hph]
        simp only
        rw [hi]
      | some r =>
        obtain ⟨w', st', n1, e, ha⟩ := job_spec hn hB hph hi now skip
        rw [e] at hB' ⊢
        have hnn := inv_num (base_act hB hph hi ha).inv hB'.inv rfl
        subst hnn
        exact busy_act hB hd hph hi ha h
    | _ =>
      apply same
      unfold jobStep
      rw [hph]
  | fail i =>
    change Busy c d n' (failStep w i)
    change Base c n' (failStep w i) at hB'
    rcases fail_cases w i with e | ⟨js, j, a, hph, hi, e⟩
    · rw [e] at hB' ⊢
      have hnn := inv_num hB.inv hB'.inv rfl
      subst hnn
      exact h
    · rw [e] at hB' ⊢
      have hnn := inv_num (base_act hB hph hi (fail_act hB hph hi)).inv hB'.inv rfl
      subst hnn
      exact busy_act hB hd hph hi (fail_act hB hph hi) h

theorem busy_run {c : Cfg K R} (hn : 0 < c.x.readRows) (hs : c.slots = c.budget) {d : Nat} :
    ∀ (ops : List (Model.Worker.Op K R)) {n : Nat} {w : W K R}, Base c n w → d ≤ w.done.length → Busy c d n w →
      (∀ o ∈ ops, silent o = true) → ∃ n', Base c n' (Model.Worker.run c w ops) ∧ Busy c d n' (Model.Worker.run c w ops)
  | [], n, w, hB, _, h, _ => ⟨n, hB, h⟩
  | o :: os, n, w, hB, hd, h, hops => by
    obtain ⟨n1, _, hB1⟩ := base_step hn hB o
    have h1 := busy_step hn hs hB hd h (hops o List.mem_cons_self) hB1
    have hd1 : d ≤ (Model.Worker.step c w o).done.length := Nat.le_trans hd (done_step hn hB o).length_le
    exact busy_run hn hs os hB1 hd1 h1 (fun o' ho' => hops o' (List.mem_cons_of_mem _ ho'))

theorem ahead_run {c : Cfg K R} (hn : 0 < c.x.readRows) (hs : c.slots = c.budget) :
    ∀ (ops : List (Model.Worker.Op K R)) {n : Nat} {w : W K R}, Base c n w → Ahead w → Ahead (Model.Worker.run c w ops)
  | [], _, _, _, h => h
  | o :: os, n, w, hB, h => by
    obtain ⟨n1, _, hB1⟩ := base_step hn hB o
    exact ahead_run hn hs os hB1 (ahead_step hn hs hB h o)

theorem late_trigger {w : W K R} (h : Ahead w) : Late { w with kicks := w.kicks + 1 } := by
  unfold Ahead at h
  unfold Late
  cases hph : w.phase <;> simp only [hph] at h ⊢ <;> omega

end Tonbo.Lemmas.Worker
