import Verif.Lemmas.LsmInv

/-!
# The steps keep the invariant
-/

set_option linter.unusedSectionVars false

namespace Tonbo.Lemmas.Lsm
open Tonbo.Model Tonbo.Model.Manifest Tonbo.Model.Planner Tonbo.Model.Outcome Tonbo.Model.Lsm Tonbo.Spec
open Tonbo.Lemmas.Manifest Tonbo.Lemmas.Outcome
open Tonbo.Model.Sst (File)
open Tonbo.Model.Mem (Imm Runs)

variable {K R : Type} [LinearOrder K]

theorem resolve_spec {v : Version (Info K)} : ∀ {is : List Input} {ds : List (Desc K)}, resolve v is = .ok ds →
    ∀ d ∈ ds, ∃ e ∈ v.ssts.getD d.level [], d = descAt d.level e
  | [], ds, h => by
    simp only [resolve, Except.ok.injEq] at h
    subst h
    simp
  | i :: is, ds, h => by
    unfold resolve at h
    cases hb : v.ssts[i.level]? with
    | none => rw [hb] at h; cases h
    | some b =>
      rw [hb] at h
      simp only at h
      cases hf : b.find? (fun e => decide (e.id = i.id)) with
      | none => rw [hf] at h; cases h
      | some e =>
        rw [hf] at h
        simp only at h
        cases hr : resolve v is with
        | error x => rw [hr] at h; cases h
        | ok ds' =>
          rw [hr] at h
          simp only [Except.ok.injEq] at h
          subst h
          intro d hd
          rcases List.mem_cons.1 hd with rfl | hd
          · refine ⟨e, ?_, rfl⟩
            rw [List.getD_eq_getElem?_getD, hb]
            exact List.mem_of_find?_eq_some hf
          · exact resolve_spec hr d hd

/-- The first half of a job. -/
theorem start_spec {ext : R → Option K} {x : Exec K R} {t n : Nat} {s : Db K R} (h : Inv ext x t n s)
    (hn : 0 < x.readRows) (task : PTask K) (head : Option Nat) (skip : Nat) :
    ∃ s' r, start x t s task head skip = (s', r) ∧
      s'.runs = s.runs ∧ s'.kv = s.kv ∧ s'.gc = s.gc ∧ s'.flushing = s.flushing ∧ s'.jobs = s.jobs ∧
      s.next ≤ s'.next ∧ (∀ p : Path, p.id < s.next → s'.files p = s.files p) ∧
      ∀ p, r = .ready p → (∃ v o, JobFor x s.kv t p n v task.target o ∧ resolve v task.input = .ok p.inputs) ∧
        JobFiles x.readRows s'.files p ∧
        (∀ d ∈ p.outputs, DescOk s'.files s'.next d ∧ s.next ≤ d.id) ∧ (p.outputs.map (·.id)).Nodup := by
  obtain ⟨hd, hok⟩ := h.reg
  have triv : ∀ r : Started K, (∀ p, r ≠ .ready p) →
      ∀ s', (s'.runs = s.runs ∧ s'.kv = s.kv ∧ s'.gc = s.gc ∧ s'.flushing = s.flushing ∧ s'.jobs = s.jobs ∧
      s.next ≤ s'.next ∧ (∀ p : Path, p.id < s.next → s'.files p = s.files p)) →
      start x t s task head skip = (s', r) →
      ∃ s' r, start x t s task head skip = (s', r) ∧
      s'.runs = s.runs ∧ s'.kv = s.kv ∧ s'.gc = s.gc ∧ s'.flushing = s.flushing ∧ s'.jobs = s.jobs ∧
      s.next ≤ s'.next ∧ (∀ p : Path, p.id < s.next → s'.files p = s.files p) ∧
      ∀ p, r = .ready p → (∃ v o, JobFor x s.kv t p n v task.target o ∧ resolve v task.input = .ok p.inputs) ∧
        JobFiles x.readRows s'.files p ∧
        (∀ d ∈ p.outputs, DescOk s'.files s'.next d ∧ s.next ≤ d.id) ∧ (p.outputs.map (·.id)).Nodup := by
    rintro r hr s' ⟨a, b, c, d, e, f, g⟩ hs
    exact ⟨s', r, hs, a, b, c, d, e, f, g, fun p hp => absurd hp (hr p)⟩
  have same : s.runs = s.runs ∧ s.kv = s.kv ∧ s.gc = s.gc ∧ s.flushing = s.flushing ∧ s.jobs = s.jobs ∧
      s.next ≤ s.next ∧ (∀ p : Path, p.id < s.next → s.files p = s.files p) :=
    ⟨rfl, rfl, rfl, rfl, rfl, Nat.le_refl _, fun _ _ => rfl⟩
  rcases snapshotLatest_spec hok with ⟨_, e⟩ | ⟨h0, v, hv, hts, e⟩
  · exact triv .skipped (by simp) s same (by unfold start; rw [e])
  have hat : At s.kv t n v := hv
  by_cases hh : head ≠ none ∧ hd.last ≠ head
  · exact triv .skipped (by simp) s same (by unfold start; rw [e]; simp only; rw [if_pos hh])
  cases hr : resolve v task.input with
  | error err =>
    exact triv (.failed (.plan err)) (by simp) s same (by unfold start; rw [e]; simp only; rw [if_neg hh, hr])
  | ok inputs =>
    have hnames : ∀ d ∈ inputs, Names v d := by
      intro d hd'
      obtain ⟨en, he, hde⟩ := resolve_spec hr d hd'
      have hent := h.ent _ _ ⟨n, v, hat, he⟩
      rw [hde]
      refine ⟨?_, by simp [descAt, hent.1]⟩
      simp only [descAt, ← hent.1]
      rw [hde] at he
      exact he
    have hin : ∀ d ∈ inputs, DescOk s.files s.next d := fun d hd' => names_descOk h.ent hat (hnames d hd')
    have hexp : start x t s task head skip =
        (match execute x s task.target inputs skip with
        | (s', .error e) => (s', .failed e)
        | (s', .ok outs) =>
          match outcomeOf v ((walFloor s.kv t).toOption.join) task.target inputs outs with
          | none => ({ s' with files := cleanup s'.files outs }, .failed .missingPath)
          | some o =>
            match gcPlan o with
            | none => (s', .failed .missingPath)
            | some plan =>
              if toEdits x.order o = [] then (s', .done)
              else (s', .ready ⟨some (head.or hd.last), toEdits x.order o, inputs, outs, plan⟩)) := by
      unfold start; rw [e]; simp only; rw [if_neg hh, hr]
      rfl
    rcases execute_spec (level := task.target) (skip := skip) hn hin with ⟨err, k, hx⟩ | ⟨s', outs, hx, hm⟩
    · refine triv (.failed err) (by simp) _ ?_ (by rw [hexp, hx])
      exact ⟨rfl, rfl, rfl, rfl, rfl, Nat.le_add_right _ _, fun _ _ => rfl⟩
    · obtain ⟨m1, m2, m3, m4, m5⟩ := hm.rest
      have base : s'.runs = s.runs ∧ s'.kv = s.kv ∧ s'.gc = s.gc ∧ s'.flushing = s.flushing ∧ s'.jobs = s.jobs ∧
          s.next ≤ s'.next ∧ (∀ p : Path, p.id < s.next → s'.files p = s.files p) :=
        ⟨m1, m2, m3, m4, m5, hm.next, hm.old⟩
      cases ho : outcomeOf v ((walFloor s.kv t).toOption.join) task.target inputs outs with
      | none =>
        refine triv (.failed .missingPath) (by simp) { s' with files := cleanup s'.files outs } ?_
          (by rw [hexp, hx]; simp only; rw [ho])
        refine ⟨m1, m2, m3, m4, m5, hm.next, fun p hp => ?_⟩
        simp only
        rw [cleanup_other, hm.old p hp]
        intro d hd' he
        rw [(hm.ok d hd').1] at he
        cases he
        have := hm.fresh d hd'
        simp only at hp
        omega
      | some o =>
        cases hg : gcPlan o with
        | none => exact triv (.failed .missingPath) (by simp) s' base (by rw [hexp, hx]; simp only; rw [ho]; simp only; rw [hg])
        | some plan =>
          by_cases hed : toEdits x.order o = []
          · exact triv .done (by simp) s' base (by rw [hexp, hx]; simp only; rw [ho]; simp only; rw [hg]; simp only; rw [if_pos hed])
          · refine ⟨s', _, by rw [hexp, hx]; simp only; rw [ho]; simp only; rw [hg]; simp only; rw [if_neg hed],
              m1, m2, m3, m4, m5, hm.next, hm.old, ?_⟩
            intro p hp
            simp only [Started.ready.injEq] at hp
            subst hp
            have hlast : hd.last = some n := by
              rw [hok.last]; unfold lastOf; rw [if_neg (by omega)]
            refine ⟨⟨v, o, ⟨hat, ?_, hnames, ?_, hm.ne, ⟨_, ho⟩, rfl, hg, hm.level, ?_, hm.wal⟩, hr⟩, ?_, ?_, hm.ids⟩
            · simp only [Option.some.injEq]
              rw [hlast] at hh ⊢
              cases head with
              | none => rfl
              | some k =>
                simp only [ne_eq, reduceCtorEq, not_false_eq_true, true_and, not_not] at hh
                rw [← hh]; rfl
            · rintro rfl
              simp only [execute, if_true, Prod.mk.injEq, reduceCtorEq, and_false] at hx
            · intro k u l en hk hu he d hd'
              have h1 := (h.ent l en ⟨k, u, hu, he⟩).2.1
              have h2 := hm.fresh d hd'
              omega
            · obtain ⟨fs, gs, f1, f2⟩ := hm.files
              refine ⟨fs, gs, ?_, f2⟩
              simp only
              rw [readAll_congr _ ?_, f1]
              intro d hd' q hq
              have := hin d hd'
              rw [this.1] at hq
              cases hq
              exact hm.old _ this.2.2.1
            · exact fun d hd' => ⟨hm.ok d hd', hm.fresh d hd'⟩

/-- Adding a waiting job whose outputs are new. -/
theorem inv_add_job {ext : R → Option K} {x : Exec K R} {t n : Nat} {s s' : Db K R} {p : Pending K}
    (h : Inv ext x t n s) (hs' : Inv ext x t n s') (hk : s'.kv = s.kv) (hp : pendings s' = pendings s)
    {k : Nat} {v : Version (Info K)} {target : Nat} {o : Outcome K} (hj : JobFor x s.kv t p k v target o)
    (hf : JobFiles x.readRows s'.files p)
    (hd : ∀ d ∈ p.outputs, DescOk s'.files s'.next d ∧ s.next ≤ d.id) (hnd : (p.outputs.map (·.id)).Nodup) :
    Inv ext x t n { s' with jobs := s'.jobs ++ [p] } := by
  have hpend : pendings { s' with jobs := s'.jobs ++ [p] } = pendings s' ++ [p] := by
    unfold pendings
    simp [List.append_assoc]
  refine ⟨hs'.good, hs'.reg, hs'.mem, hs'.ent, hs'.uniq, hs'.top, ?_, ?_, hs'.flush, ?_, hs'.gc⟩
  · rw [hpend]
    intro q hq d hdq
    rcases List.mem_append.1 hq with hq | hq
    · exact hs'.pend q hq d hdq
    · rw [List.mem_singleton.1 hq] at hdq
      refine ⟨(hd d hdq).1, fun l e he => ?_⟩
      simp only [hk] at he
      have h1 := (h.ent l e he).2.1
      have h2 := (hd d hdq).2
      omega
  · unfold pendIds
    rw [hpend, List.flatMap_append, List.nodup_append]
    refine ⟨hs'.apart, by simpa using hnd, ?_⟩
    intro a ha b hb
    rw [hp] at ha
    obtain ⟨q, hq, hqa⟩ := List.mem_flatMap.1 ha
    obtain ⟨d, hdq, rfl⟩ := List.mem_map.1 hqa
    simp only [List.flatMap_cons, List.flatMap_nil, List.append_nil, List.mem_map] at hb
    obtain ⟨d', hd', rfl⟩ := hb
    have h1 := (h.pend q hq d hdq).1.2.2.1
    have h2 := (hd d' hd').2
    simp only [entryOf] at h1
    omega
  · intro q hq
    rcases List.mem_append.1 hq with hq | hq
    · exact hs'.jobs q hq
    · rw [List.mem_singleton.1 hq]
      exact ⟨⟨k, v, target, o, by simp only [hk]; exact hj⟩, hf⟩

theorem inv_start {ext : R → Option K} {x : Exec K R} {t n : Nat} {s : Db K R} (h : Inv ext x t n s)
    (hn : 0 < x.readRows) (task : PTask K) (head : Option Nat) (skip : Nat) :
    Inv ext x t n (Lsm.step ext x t s (.start task head skip)).2 := by
  obtain ⟨s', r, e, a1, a2, a3, a4, a5, a6, a7, a8⟩ := start_spec h hn task head skip
  have hs' : Inv ext x t n s' := inv_frame h (by rw [a1]; exact h.mem) a2 a6 a7 a3 a4 a5
  unfold Lsm.step
  simp only [e]
  cases r with
  | skipped => exact hs'
  | failed err => exact hs'
  | done => exact hs'
  | ready p =>
    obtain ⟨⟨v, o, b1, _⟩, b2, b3, b4⟩ := a8 p rfl
    exact inv_add_job h hs' a2 (by unfold pendings; rw [a4, a5]) b1 b2 b3 b4

/-! ## Publishing a job -/

theorem gcPlan_mem {o : Outcome K} {plan : GcPlan} (h : gcPlan o = some (some plan)) :
    ∀ r ∈ plan.ssts, ∃ d ∈ o.remove, r.id = d.id ∧ r.level = d.level ∧ d.data = some r.data ∧ r.del = d.del := by
  unfold gcPlan at h
  split_ifs at h
  · simp at h
  cases hr : gcRefs o.remove with
  | none => rw [hr] at h; cases h
  | some rs =>
    rw [hr] at h
    simp only [Option.some.injEq] at h
    subst h
    exact (gcRefs_some hr).2

/-- Old garbage stays garbage when a version without it is published. -/
theorem gcOk_publish {ext : R → Option K} {x : Exec K R} {t n : Nat} {s : Db K R} (h : Inv ext x t n s)
    {p : Pending K} (hp : p ∈ pendings s) {kv' : Kv (Info K)} {v v' : Version (Info K)}
    (hk : ∀ k, k ≠ n + 1 → kget kv' (.version t k) = kget s.kv (.version t k)) (hat : At kv' t (n + 1) v')
    (hb : Base s.kv t n v)
    (hnew : ∀ l, ∀ e ∈ v'.ssts.getD l [], e ∈ v.ssts.getD l [] ∨ ∃ d ∈ p.outputs, d.level = l ∧ e = entryOf d) :
    GcOk kv' t (n + 1) s.gc := by
  obtain ⟨hd, hreg⟩ := h.reg
  intro plan hplan r hr
  obtain ⟨⟨e, g1, g2, g3⟩, g4⟩ := h.gc plan hplan r hr
  refine ⟨⟨e, (lst_publish hreg hk hat _ _).2 (.inl g1), g2, g3⟩, ?_⟩
  intro w hw l e' he'
  rw [at_unique hw hat] at he'
  rcases hnew l e' he' with h1 | ⟨d, hd1, _, rfl⟩
  · exact g4 v (base_sub hb h1).2 l e' h1
  · rw [← g2]
    intro hc
    exact (h.pend p hp d hd1).2 _ _ g1 hc.symm

theorem eraseIdx_perm {α : Type} : ∀ {l : List α} {i : Nat} {a : α}, l[i]? = some a → l.Perm (a :: l.eraseIdx i)
  | b :: l, 0, a, h => by
    simp at h
    subst h
    simp
  | b :: l, i + 1, a, h => by
    simp only [List.getElem?_cons_succ] at h
    have := eraseIdx_perm h
    rw [List.eraseIdx_cons_succ]
    exact (List.Perm.cons b this).trans (List.Perm.swap a b _)
  | [], i, a, h => by simp at h

/-- What a successful job does. -/
theorem finish_spec {ext : R → Option K} {x : Exec K R} {t n : Nat} {s : Db K R} (h : Inv ext x t n s)
    {i : Nat} {p : Pending K} (hi : s.jobs[i]? = some p) :
    ∃ s' r, finish t { s with jobs := s.jobs.eraseIdx i } p = (s', r) ∧
      ((∃ e, r = .error e ∧ Inv ext x t n s' ∧ s'.kv = s.kv ∧ s'.files = cleanup s.files p.outputs ∧
          s'.runs = s.runs ∧ s'.next = s.next ∧ s'.gc = s.gc ∧ s'.flushing = s.flushing ∧ s'.jobs = s.jobs.eraseIdx i) ∨
       (r = .ok (n + 1) ∧ Inv ext x t (n + 1) s' ∧ s'.files = s.files ∧ s'.gc = p.gc.or s.gc ∧ s'.runs = s.runs ∧
          s'.next = s.next ∧ s'.flushing = s.flushing ∧ s'.jobs = s.jobs.eraseIdx i ∧
          ∃ v v' target o, JobFor x s.kv t p n v target o ∧ At s'.kv t (n + 1) v' ∧ VersionOk v' ∧
            (∀ k, k ≠ n + 1 → kget s'.kv (.version t k) = kget s.kv (.version t k)) ∧
            (∀ l e, e ∈ v'.ssts.getD l [] ↔ (∃ d ∈ p.outputs, d.level = l ∧ e = entryOf d) ∨
              (e ∈ v.ssts.getD l [] ∧ ∀ d ∈ p.inputs, ¬ (d.level = l ∧ d.id = e.id))) ∧
            ∃ L, SegmentsOk v o L o.obsoleteWal ∧ v'.wal.Perm L)) := by
  obtain ⟨hd, hreg⟩ := h.reg
  have hpj : p ∈ s.jobs := List.mem_of_getElem? hi
  have hp : p ∈ pendings s := List.mem_append_right _ hpj
  have hperm : ∀ s' : Db K R, s'.flushing = s.flushing → s'.jobs = s.jobs.eraseIdx i →
      (pendings s).Perm (p :: pendings s') := by
    intro s' hf hj
    unfold pendings
    rw [hf, hj]
    refine (List.Perm.append_left _ (eraseIdx_perm hi)).trans ?_
    exact List.perm_middle
  unfold finish
  rcases apply_spec h.good hreg p.edits p.expected with ⟨e, ha⟩ | ⟨m', h', v, v', ha, hg, hok, hk, hat, hx, hb, hv', hl, hw, _⟩
  · simp only [ha]
    refine ⟨_, _, rfl, .inl ⟨e, rfl, ?_, rfl, rfl, rfl, rfl, rfl, rfl, rfl⟩⟩
    exact inv_drop h (hperm _ rfl rfl) h.mem rfl rfl (.inr rfl) (.inl rfl) (List.eraseIdx_sublist _ _) rfl
  · simp only [ha]
    refine ⟨_, _, rfl, .inr ⟨rfl, ?_⟩⟩
    obtain ⟨⟨k, u, target, o, hj⟩, hjf⟩ := h.jobs p hpj
    -- the job was computed on the present version
    have hkn : k = n := by
      rw [hj.expected] at hx
      rcases hx with hx | hx
      · cases hx
      · unfold lastOf at hx
        split_ifs at hx <;> simp at hx
        exact hx
    subst hkn
    have huv : u = v := at_unique hj.here (hb.2.2 (at_le hreg hj.here).1)
    subst huv
    have hdesc : ∀ d ∈ p.outputs, DescOk s.files s.next d := fun d hd => (h.pend p hp d hd).1
    have hnd : (p.outputs.map (·.id)).Nodup := by
      obtain ⟨a, b, hab⟩ := List.append_of_mem hp
      have := h.apart
      unfold pendIds at this
      rw [hab, List.flatMap_append, List.flatMap_cons] at this
      exact (List.nodup_append.1 (List.nodup_append.1 this).2.1).1
    obtain ⟨_, j2, L, j3, j4⟩ := job_version (v' := v') hj hb.1 hdesc hnd hl
    rw [j4] at hw
    have hnew : ∀ l, ∀ e ∈ v'.ssts.getD l [], e ∈ u.ssts.getD l [] ∨ ∃ d ∈ p.outputs, d.level = l ∧ e = entryOf d := by
      intro l e he
      rcases (j2 l e).1 he with h1 | h1
      · exact .inr h1
      · exact .inl h1.1
    have hgc : GcOk m' t (k + 1) (p.gc.or s.gc) := by
      cases hpg : p.gc with
      | none =>
        simp only [Option.none_or]
        exact gcOk_publish h hp hk hat hb hnew
      | some plan0 =>
        simp only [Option.some_or]
        intro plan hplan r hr
        cases hplan
        have hgp := hj.gc
        rw [hpg] at hgp
        obtain ⟨d, d1, d2, d3, d4, d5⟩ := gcPlan_mem hgp r hr
        obtain ⟨floor, hout⟩ := hj.out
        obtain ⟨_, a2, _⟩ := outcomeOf_spec hb.1 hout
        rw [a2] at d1
        have hnm := hj.names d d1
        rw [hnm.2] at d4
        simp only [Option.some.injEq] at d4
        refine ⟨⟨_, (lst_publish hreg hk hat _ _).2 (.inl ⟨k, u, hj.here, by rw [d3]; exact hnm.1⟩), d2.symm, d4, d5.symm⟩, ?_⟩
        intro w hw l e he
        rw [at_unique hw hat] at he
        rcases (j2 l e).1 he with ⟨d', hd', _, rfl⟩ | ⟨h1, h2⟩
        · intro hc
          simp only [entryOf] at hc
          refine (h.pend p hp d' hd').2 _ _ ⟨k, u, hj.here, hnm.1⟩ ?_
          simp only
          rw [hc, d2]
        · intro hc
          obtain ⟨q1, q2⟩ := h.uniq _ _ _ _ ⟨k, u, hj.here, h1⟩ ⟨k, u, hj.here, hnm.1⟩ (by simp only; rw [hc, d2])
          exact h2 d d1 ⟨q1.symm, by rw [hc, d2]⟩
    refine ⟨?_, rfl, rfl, rfl, rfl, rfl, rfl, u, v', target, o, hj, hat, hv', hk, j2, L, j3, hw⟩
    refine inv_publish h (hperm _ rfl rfl) h.mem hg hok hk hat hb hnew ?_ rfl rfl (.inl rfl) (List.eraseIdx_sublist _ _) hgc
    intro l e he
    obtain ⟨d, hd1⟩ := List.exists_mem_of_ne_nil _ hj.outne
    refine ⟨d.level, entryOf d, (j2 _ _).2 (.inl ⟨d, hd1, rfl, rfl⟩), ?_⟩
    have := hj.above k u l e (Nat.le_refl _) hj.here he d hd1
    simp only [entryOf]
    omega

/-! ## The other steps -/

theorem inv_write {ext : R → Option K} {x : Exec K R} {t n : Nat} {s : Db K R} (h : Inv ext x t n s) (op : Mem.Op K R) :
    Inv ext x t n (Lsm.step ext x t s (.write op)).2 :=
  inv_frame h (memOk_call h.mem op) rfl (Nat.le_refl _) (fun _ _ => rfl) rfl rfl rfl

theorem inv_flushWrite {ext : R → Option K} {x : Exec K R} {t n : Nat} {s : Db K R} (h : Inv ext x t n s)
    (count : Nat) (refs : Option (List WalRef)) : Inv ext x t n (flushWrite ext x s count refs) := by
  unfold flushWrite
  cases hfl : s.flushing with
  | written p c => exact h
  | published c => exact h
  | idle =>
    simp only
    by_cases hr : s.runs.runs.take count = []
    · rw [if_pos hr]; exact h
    rw [if_neg hr]
    have hskip : Inv ext x t n { s with next := s.next + 1 } :=
      inv_frame h h.mem rfl (Nat.le_succ _) (fun _ _ => rfl) rfl rfl rfl
    have hmem := fun m (hm : m ∈ s.runs.runs.take count) => h.mem.2 m (List.mem_of_mem_take hm)
    cases hf : Flush.flush ext (s.runs.runs.take count) with
    | error e => rw [hfl] at hskip; exact hskip
    | ok tab =>
      simp only
      cases hfile : tab.file ext with
      | none => rw [hfl] at hskip; exact hskip
      | some f =>
        simp only
        have hok : DescOk (setFile s.files ⟨0, s.next⟩ (some f)) (s.next + 1)
            (descOf x 0 s.next f tab.stats (flushWal refs)) := by
          have hne : ∃ m ∈ s.runs.runs.take count, ∃ v, Lemmas.Mem.Imm.Content m v := by
            obtain ⟨m, hm⟩ := List.exists_mem_of_ne_nil _ hr
            exact ⟨m, hm, Lemmas.Mem.Imm.exists_content (hmem m hm)⟩
          obtain ⟨tab', f', g1, g2, g3, _, g4, g5, g6, g7, g8⟩ := Lemmas.Flush.flush_spec hmem hne
          rw [hf] at g1
          cases g1
          rw [hfile] at g2
          cases g2
          refine ⟨rfl, rfl, Nat.lt_succ_self _, f, setFile_eq _ _ _, g3, ?_, rfl, _, rfl, g6, g7, g8⟩
          obtain ⟨m, hm, w, hw⟩ := hne
          obtain ⟨key, ts, op⟩ := w
          cases op with
          | put r => exact ⟨⟨key, ts⟩, .inl ⟨r, (g4 _ _).2 ⟨m, hm, hw⟩⟩⟩
          | del => exact ⟨⟨key, ts⟩, .inr ((g5 _).2 ⟨m, hm, hw⟩)⟩
        have hs' : Inv ext x t n { s with files := setFile s.files ⟨0, s.next⟩ (some f), next := s.next + 1 } := by
          refine inv_frame h h.mem rfl (Nat.le_succ _) (fun p hp => ?_) rfl rfl rfl
          simp only
          rw [setFile_ne]
          rintro rfl
          exact absurd hp (Nat.lt_irrefl _)
        have hpend : pendings { s with
            files := setFile s.files ⟨0, s.next⟩ (some f)
            next := s.next + 1
            flushing := Flushing.written ⟨none, flushEdits (descOf x 0 s.next f tab.stats (flushWal refs)) refs, [],
              [descOf x 0 s.next f tab.stats (flushWal refs)], none⟩ (s.runs.runs.take count).length } =
            ⟨none, flushEdits (descOf x 0 s.next f tab.stats (flushWal refs)) refs, [],
              [descOf x 0 s.next f tab.stats (flushWal refs)], none⟩ :: pendings s := by
          unfold pendings
          simp only [hfl]
          rfl
        refine ⟨hs'.good, hs'.reg, hs'.mem, hs'.ent, hs'.uniq, hs'.top, ?_, ?_, ?_, hs'.jobs, hs'.gc⟩
        · rw [hpend]
          intro q hq d hd
          rcases List.mem_cons.1 hq with rfl | hq
          · rw [List.mem_singleton.1 hd]
            refine ⟨hok, fun l e he => ?_⟩
            have := (h.ent l e he).2.1
            simp only [descOf]
            omega
          · exact hs'.pend q hq d hd
        · unfold pendIds
          rw [hpend, List.flatMap_cons, List.nodup_append]
          refine ⟨by simp, h.apart, ?_⟩
          intro a ha b hb
          simp only [List.map_cons, List.map_nil, List.mem_singleton, descOf] at ha
          obtain ⟨q, hq, hqb⟩ := List.mem_flatMap.1 hb
          obtain ⟨d, hd, rfl⟩ := List.mem_map.1 hqb
          have := (h.pend q hq d hd).1.2.2.1
          simp only [entryOf] at this
          omega
        · intro p c hp
          simp only [Flushing.written.injEq] at hp
          obtain ⟨rfl, rfl⟩ := hp
          exact ⟨_, refs, rfl, rfl⟩

theorem flushEdits_means (d : Desc K) (refs : Option (List WalRef)) (f : LevelMap (Info K)) :
    (flushEdits d refs).foldl editMeans f =
      fun l i => if l = d.level then (lastEntry [entryOf d] i).or (f l i) else f l i := by
  unfold flushEdits
  cases d.stats.bind (·.maxTs) <;> cases refs <;> rfl

theorem flushEdits_wal (d : Desc K) (refs : Option (List WalRef)) (w : List WalRef) :
    walAfter w (flushEdits d refs) = refs.getD w := by
  unfold flushEdits
  cases d.stats.bind (·.maxTs) <;> cases refs <;> rfl

/-- The manifest call of a flush. -/
theorem flushPublish_spec {ext : R → Option K} {x : Exec K R} {t n : Nat} {s : Db K R} (h : Inv ext x t n s)
    {p : Pending K} {c : Nat} (hfl : s.flushing = .written p c) :
    ((flushPublish t s) = { s with flushing := .idle } ∧ Inv ext x t n (flushPublish t s)) ∨
    ∃ kv', flushPublish t s = { s with kv := kv', flushing := .published c } ∧ Inv ext x t (n + 1) (flushPublish t s) ∧
      ∃ d refs v v', p = ⟨none, flushEdits d refs, [], [d], none⟩ ∧ Base s.kv t n v ∧ At kv' t (n + 1) v' ∧
        VersionOk v' ∧
        (∀ k, k ≠ n + 1 → kget kv' (.version t k) = kget s.kv (.version t k)) ∧
        (∀ l e, e ∈ v'.ssts.getD l [] ↔ (d.level = l ∧ e = entryOf d) ∨ e ∈ v.ssts.getD l []) ∧
        v'.wal.Perm (refs.getD v.wal) := by
  obtain ⟨hd, hreg⟩ := h.reg
  have hp : p ∈ pendings s := by unfold pendings; rw [hfl]; simp
  have hperm : ∀ s' : Db K R, (∀ p c, s'.flushing ≠ .written p c) → s'.jobs = s.jobs →
      (pendings s).Perm (p :: pendings s') := by
    intro s' hf hj
    unfold pendings
    rw [hfl, hj]
    cases hq : s'.flushing with
    | written p c => exact absurd hq (hf p c)
    | idle => exact List.Perm.refl _
    | published c => exact List.Perm.refl _
  obtain ⟨d, refs, hpd, hlev⟩ := h.flush p c hfl
  rcases apply_spec h.good hreg p.edits p.expected with ⟨e, ha⟩ | ⟨m', h', v, v', ha, hg, hok, hk, hat, hx, hb, hv', hl, hw, _⟩
  · left
    have he : flushPublish t s = { s with flushing := .idle } := by
      unfold flushPublish
      simp only [hfl, ha]
    refine ⟨he, ?_⟩
    rw [he]
    exact inv_drop h (hperm _ (by simp) rfl) h.mem rfl rfl (.inl rfl) (.inr (by simp)) (List.Sublist.refl _) rfl
  · right
    have he : flushPublish t s = { s with kv := m', flushing := .published c } := by
      unfold flushPublish
      simp only [hfl, ha]
    have hdp : d ∈ p.outputs := by rw [hpd]; simp
    have hfresh := (h.pend p hp d hdp).2
    have hlist : ∀ l e, e ∈ v'.ssts.getD l [] ↔ (d.level = l ∧ e = entryOf d) ∨ e ∈ v.ssts.getD l [] := by
      intro l e
      rw [hl l e, hpd]
      simp only
      rw [flushEdits_means]
      simp only
      have hbase : e ∈ v.ssts.getD l [] → e.id ≠ d.id := fun he => hfresh l e ⟨n, v, (base_sub hb he).2, he⟩
      have hid : (entryOf d).id = d.id := rfl
      by_cases hl0 : l = d.level
      · rw [if_pos hl0]
        by_cases hi : e.id = d.id
        · have : lastEntry [entryOf d] e.id = some (entryOf d) := by simp [lastEntry, hid, hi]
          rw [this, Option.some_or]
          constructor
          · intro h; exact .inl ⟨hl0.symm, by simpa using h.symm⟩
          · rintro (⟨_, h⟩ | h)
            · rw [h]
            · exact absurd hi (hbase h)
        · have : lastEntry [entryOf d] e.id = none := by
            have hi' : (entryOf d).id ≠ e.id := fun h => hi h.symm
            simp [lastEntry, hi']
          rw [this, Option.none_or, mapOf_iff hb.1]
          constructor
          · exact .inr
          · rintro (⟨_, h⟩ | h)
            · rw [h] at hi; exact absurd rfl hi
            · exact h
      · rw [if_neg hl0, mapOf_iff hb.1]
        constructor
        · exact .inr
        · rintro (⟨h, _⟩ | h)
          · exact absurd h.symm hl0
          · exact h
    have hnew : ∀ l, ∀ e ∈ v'.ssts.getD l [], e ∈ v.ssts.getD l [] ∨ ∃ d ∈ p.outputs, d.level = l ∧ e = entryOf d := by
      intro l e he
      rcases (hlist l e).1 he with h1 | h1
      · exact .inr ⟨d, hdp, h1⟩
      · exact .inl h1
    refine ⟨m', he, ?_, d, refs, v, v', hpd, hb, hat, hv', hk, hlist, ?_⟩
    · rw [he]
      refine inv_publish h (hperm _ (by simp) rfl) h.mem hg hok hk hat hb hnew ?_ rfl rfl (.inr (by simp))
        (List.Sublist.refl _) (gcOk_publish h hp hk hat hb hnew)
      exact fun l e he => ⟨l, e, (hlist l e).2 (.inr he), Nat.le_refl _⟩
    · rw [hpd, flushEdits_wal] at hw
      exact hw

theorem inv_flushPublish {ext : R → Option K} {x : Exec K R} {t n : Nat} {s : Db K R} (h : Inv ext x t n s) :
    ∃ n', n ≤ n' ∧ Inv ext x t n' (Lsm.step ext x t s .flushPublish).2 := by
  change ∃ n', n ≤ n' ∧ Inv ext x t n' (flushPublish t s)
  cases hfl : s.flushing with
  | idle => exact ⟨n, Nat.le_refl _, by unfold flushPublish; rw [hfl]; exact h⟩
  | published c => exact ⟨n, Nat.le_refl _, by unfold flushPublish; rw [hfl]; exact h⟩
  | written p c =>
    rcases flushPublish_spec h hfl with ⟨_, h1⟩ | ⟨_, _, h1, _⟩
    · exact ⟨n, Nat.le_refl _, h1⟩
    · exact ⟨n + 1, Nat.le_succ _, h1⟩

theorem inv_flushDrain {ext : R → Option K} {x : Exec K R} {t n : Nat} {s : Db K R} (h : Inv ext x t n s) :
    Inv ext x t n (Lsm.step ext x t s .flushDrain).2 := by
  change Inv ext x t n (flushDrain s)
  unfold flushDrain
  cases hfl : s.flushing with
  | idle => exact h
  | written p c => exact h
  | published c =>
    simp only
    have hpe : ∀ r : Runs K R, pendings { s with runs := r, flushing := Flushing.idle } = pendings s := by
      intro r
      unfold pendings
      simp only [hfl]
    refine ⟨h.good, h.reg, ⟨h.mem.1, ?_⟩, h.ent, h.uniq, h.top, by rw [hpe]; exact h.pend,
      by unfold pendIds; rw [hpe]; exact h.apart, by simp, h.jobs, h.gc⟩
    intro m hm
    simp only at hm
    split_ifs at hm
    · exact h.mem.2 m (List.mem_of_mem_drop hm)
    · simp at hm

/-! ## Recording WAL segments -/

/-- A manifest call that records WAL segments. -/
theorem setWal_spec {ext : R → Option K} {x : Exec K R} {t n : Nat} {s : Db K R} (h : Inv ext x t n s)
    (refs : List WalRef) :
    setWal t s refs = s ∨
    ∃ kv', setWal t s refs = { s with kv := kv' } ∧ Inv ext x t (n + 1) (setWal t s refs) ∧
      ∃ v v', Base s.kv t n v ∧ At kv' t (n + 1) v' ∧ VersionOk v' ∧
        (∀ k, k ≠ n + 1 → kget kv' (.version t k) = kget s.kv (.version t k)) ∧
        (∀ l e, e ∈ v'.ssts.getD l [] ↔ e ∈ v.ssts.getD l []) ∧ v'.wal.Perm refs := by
  obtain ⟨hd, hreg⟩ := h.reg
  unfold setWal
  by_cases hr : refs = []
  · rw [if_pos hr]; exact .inl rfl
  rw [if_neg hr]
  rcases apply_spec h.good hreg [.setWal refs] none with ⟨e, ha⟩ | ⟨m', h', v, v', ha, hg, hok, hk, hat, hx, hb, hv', hl, hw, _⟩
  · left
    rw [ha]
  right
  rw [ha]
  have hlist : ∀ l e, e ∈ v'.ssts.getD l [] ↔ e ∈ v.ssts.getD l [] := by
    intro l e
    rw [hl l e, mapOf_iff hb.1]
    rfl
  have hlst : ∀ l e, Lst m' t l e ↔ Lst s.kv t l e := by
    intro l e
    rw [lst_publish hreg hk hat]
    constructor
    · rintro (h | h)
      · exact h
      · have := (hlist l e).1 h
        exact ⟨n, v, (base_sub hb this).2, this⟩
    · exact .inl
  refine ⟨m', rfl, ?_, v, v', hb, hat, hv', hk, hlist, hw⟩
  have hold : ∀ k u, At s.kv t k u → At m' t k u := by
    intro k u hu
    have := at_le hreg hu
    unfold At
    rw [hk k (by omega)]
    exact hu
  refine ⟨hg, ⟨h', hok⟩, h.mem, fun l e he => h.ent l e ((hlst l e).1 he),
    fun l e l' e' he he' => h.uniq l e l' e' ((hlst l e).1 he) ((hlst l' e').1 he'), ?_, ?_, h.apart, h.flush, ?_, ?_⟩
  · intro l e he
    obtain ⟨u, l', e', h1, h2, h3⟩ := h.top l e ((hlst l e).1 he)
    have huv : u = v := at_unique h1 (hb.2.2 (at_le hreg h1).1)
    rw [huv] at h2
    exact ⟨v', l', e', hat, (hlist l' e').2 h2, h3⟩
  · intro p hp d hd1
    obtain ⟨h1, h2⟩ := h.pend p hp d hd1
    exact ⟨h1, fun l e he => h2 l e ((hlst l e).1 he)⟩
  · intro p hp
    obtain ⟨⟨k, u, target, o, hj⟩, h2⟩ := h.jobs p hp
    exact ⟨⟨k, u, target, o, jobFor_mono hj (at_le hreg hj.here).2 (fun j hj => hk j (by omega))⟩, h2⟩
  · intro plan hplan r hr
    obtain ⟨⟨e, g1, g2, g3⟩, g4⟩ := h.gc plan hplan r hr
    refine ⟨⟨e, (hlst _ _).2 g1, g2, g3⟩, ?_⟩
    intro w hw l e' he'
    rw [at_unique hw hat] at he'
    have := (hlist l e').1 he'
    exact g4 v (base_sub hb this).2 l e' this

theorem inv_setWal {ext : R → Option K} {x : Exec K R} {t n : Nat} {s : Db K R} (h : Inv ext x t n s)
    (refs : List WalRef) : ∃ n', n ≤ n' ∧ Inv ext x t n' (setWal t s refs) := by
  rcases setWal_spec h refs with e | ⟨_, _, h1, _⟩
  · exact ⟨n, Nat.le_refl _, by rw [e]; exact h⟩
  · exact ⟨n + 1, Nat.le_succ _, h1⟩

/-! ## Reopening -/

theorem nextId_gt (vs : List (Version (Info K))) {v : Version (Info K)} (hv : v ∈ vs) {l : Nat}
    {e : Entry (Info K)} (he : e ∈ v.ssts.getD l []) : e.id < nextId vs := by
  have hm : e.id ∈ vs.flatMap versionIds := by
    refine List.mem_flatMap.2 ⟨v, hv, ?_⟩
    unfold versionIds
    refine List.mem_map.2 ⟨e, List.mem_flatten.2 ?_, rfl⟩
    rw [List.getD_eq_getElem?_getD] at he
    cases hb : v.ssts[l]? with
    | none => rw [hb] at he; simp at he
    | some b =>
      rw [hb] at he
      exact ⟨b, List.mem_of_getElem? hb, he⟩
  unfold nextId
  cases hx : (vs.flatMap versionIds).max? with
  | none =>
    rw [List.max?_eq_none_iff] at hx
    rw [hx] at hm
    simp at hm
  | some m =>
    simp only
    have := List.max?_eq_some_iff.1 hx
    have := this.2 _ hm
    omega

theorem allocator_spec {ext : R → Option K} {x : Exec K R} {t n : Nat} {s : Db K R} (h : Inv ext x t n s) :
    ∃ k, allocator s.kv t = .ok k ∧ ∀ l e, Lst s.kv t l e → e.id < k := by
  obtain ⟨hd, hreg⟩ := h.reg
  obtain ⟨all, _, ha, hl⟩ := listVersions_spec h.good t 0
  have hall : ∀ l e, Lst s.kv t l e → e.id < nextId all := by
    rintro l e ⟨k, v, hv, he⟩
    refine nextId_gt all ((ha v).2 ?_) he
    have hk : v.ts = k := by
      obtain ⟨h1, h2⟩ := at_le hreg hv
      obtain ⟨v', h3, h4, _⟩ := hreg.some k h1 h2
      rw [at_unique hv h3]
      exact h4
    rw [hk]
    exact hv
  rcases snapshotLatest_spec hreg with ⟨h0, e⟩ | ⟨h0, v, hv, _, e⟩
  · exact ⟨nextId all, by unfold allocator; simp only [e, hl]; rfl, hall⟩
  · by_cases hs : v.ssts = []
    · exact ⟨nextId all, by unfold allocator; simp only [e, hl, if_pos hs]; rfl, hall⟩
    · refine ⟨nextId [v], by unfold allocator; simp only [e, if_neg hs], ?_⟩
      intro l en hen
      obtain ⟨u, l', e', h1, h2, h3⟩ := h.top l en hen
      rw [at_unique h1 hv] at h2
      have := nextId_gt [v] (by simp) h2
      omega

theorem inv_reopen {ext : R → Option K} {x : Exec K R} {t n : Nat} {s : Db K R} (h : Inv ext x t n s) (cap : Nat) :
    Inv ext x t n (Lsm.step ext x t s (.reopen cap)).2 := by
  obtain ⟨k, hk, hlt⟩ := allocator_spec h
  unfold Lsm.step
  simp only [reopen, hk]
  have hpe : pendings { s with runs := Runs.new cap, next := k, flushing := Flushing.idle, jobs := [] } = [] := rfl
  refine ⟨h.good, h.reg, memOk_new _ _, ?_, h.uniq, h.top, by rw [hpe]; simp, by unfold pendIds; rw [hpe]; simp, by simp,
    by simp, h.gc⟩
  intro l e he
  obtain ⟨h1, _, h2⟩ := h.ent l e he
  exact ⟨h1, hlt l e he, h2⟩

theorem inv_finish {ext : R → Option K} {x : Exec K R} {t n : Nat} {s : Db K R} (h : Inv ext x t n s) (i : Nat) :
    ∃ n', n ≤ n' ∧ Inv ext x t n' (Lsm.step ext x t s (.finish i)).2 := by
  unfold Lsm.step
  cases hi : s.jobs[i]? with
  | none => exact ⟨n, Nat.le_refl _, by simp only [hi]; exact h⟩
  | some p =>
    simp only [hi]
    obtain ⟨s', r, e, ⟨_, _, h1, _⟩ | ⟨_, h1, _⟩⟩ := finish_spec h hi
    · exact ⟨n, Nat.le_refl _, by rw [e]; exact h1⟩
    · exact ⟨n + 1, Nat.le_succ _, by rw [e]; exact h1⟩

/-! ## Histories -/

theorem inv_step {ext : R → Option K} {x : Exec K R} {t n : Nat} {s : Db K R} (h : Inv ext x t n s)
    (hn : 0 < x.readRows) (op : Lsm.Op K R) : ∃ n', n ≤ n' ∧ Inv ext x t n' (Lsm.step ext x t s op).2 := by
  cases op with
  | write o => exact ⟨n, Nat.le_refl _, inv_write h o⟩
  | flushWrite refs => exact ⟨n, Nat.le_refl _, inv_flushWrite h _ refs⟩
  | flushSome count refs => exact ⟨n, Nat.le_refl _, inv_flushWrite h count refs⟩
  | setWal refs => exact inv_setWal h refs
  | flushPublish => exact inv_flushPublish h
  | flushDrain => exact ⟨n, Nat.le_refl _, inv_flushDrain h⟩
  | start task head skip => exact ⟨n, Nat.le_refl _, inv_start h hn task head skip⟩
  | finish i => exact inv_finish h i
  | reopen cap => exact ⟨n, Nat.le_refl _, inv_reopen h cap⟩

theorem inv_run {ext : R → Option K} {x : Exec K R} {t : Nat} (hn : 0 < x.readRows) :
    ∀ (ops : List (Lsm.Op K R)) {n : Nat} {s : Db K R}, Inv ext x t n s →
      ∃ n', n ≤ n' ∧ Inv ext x t n' (Lsm.run ext x t s ops).2
  | [], n, s, h => ⟨n, Nat.le_refl _, h⟩
  | o :: os, n, s, h => by
    obtain ⟨n1, h1, h2⟩ := inv_step h hn o
    obtain ⟨n2, h3, h4⟩ := inv_run hn os h2
    exact ⟨n2, Nat.le_trans h1 h3, h4⟩

theorem inv_new (ext : R → Option K) (x : Exec K R) (cap t sv : Nat) :
    Inv ext x t 0 (Db.new cap t sv : Db K R) := by
  have hg : Good (Db.new cap t sv : Db K R).kv := good_init good_nil t sv
  have hk : (Db.new cap t sv : Db K R).kv = [(.head t, .head (newHead t sv))] := rfl
  have hv : ∀ k, kget (Db.new cap t sv : Db K R).kv (.version t k) = none := by
    intro k; rw [hk]; rfl
  have hno : ∀ l e, ¬ Lst (Db.new cap t sv : Db K R).kv t l e := by
    rintro l e ⟨n, v, h, _⟩
    unfold At at h
    rw [hv] at h
    cases h
  refine ⟨hg, ⟨newHead t sv, ?_⟩, memOk_new _ _, fun l e h => absurd h (hno l e), fun l e _ _ h => absurd h (hno l e),
    fun l e h => absurd h (hno l e), by simp [pendings, Db.new], by simp [pendIds, pendings, Db.new], by simp [Db.new],
    by simp [Db.new], by simp [GcOk, Db.new]⟩
  refine ⟨by rw [hk]; simp [kget], rfl, rfl, fun k a b => by omega, fun k _ => hv k, fun _ => rfl, ?_, by rw [hk]; rfl⟩
  intro v h
  rw [hv] at h
  cases h

end Tonbo.Lemmas.Lsm
