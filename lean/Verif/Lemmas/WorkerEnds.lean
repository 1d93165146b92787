import Verif.Lemmas.Worker
import Verif.Lemmas.LsmKeep
import Verif.Props.C39_Planner

/-!
# Compactions come to an end: the number of tables per level as a measure
-/

set_option linter.unusedSectionVars false

namespace Tonbo.Lemmas.Worker
open Tonbo.Model Tonbo.Model.Manifest Tonbo.Model.Planner Tonbo.Model.Outcome Tonbo.Model.Lsm Tonbo.Model.Worker
open Tonbo.Lemmas.Manifest Tonbo.Lemmas.Lsm Tonbo.Lemmas.Outcome Tonbo.Spec

variable {K R : Type} [LinearOrder K]

/-! ## The shape of the tasks at hand -/

/-- A task that takes tables from a level with a limit and puts tables on the next one. -/
def TaskOk (c : Cfg K R) (t : PTask K) : Prop :=
  t.target = t.source + 1 ∧ t.source ≤ c.planner.thresholds.length ∧ (∃ i ∈ t.input, i.level = t.source) ∧
    (∀ i ∈ t.input, t.source ≤ i.level) ∧ t.input.Nodup

def StageOk (c : Cfg K R) (j : Model.Worker.Job K) : Stage K → Prop
  | .merged _ p => (∃ d ∈ p.inputs, d.level = j.task.source) ∧ (∀ d ∈ p.inputs, j.task.source ≤ d.level) ∧
      (∀ d ∈ p.outputs, d.level = j.task.source + 1) ∧ (p.inputs.map (fun d => Input.mk d.level d.id)).Nodup
  | .follow t => TaskOk c t
  | _ => True

def ShapeOk (c : Cfg K R) : Phase K → Prop
  | .planned _ t => TaskOk c t
  | .draining js => ∀ r ∈ js, TaskOk c r.1.task ∧ StageOk c r.1 r.2
  | _ => True

def Shaped (c : Cfg K R) (w : W K R) : Prop := (∀ j ∈ w.queue, TaskOk c j.task) ∧ ShapeOk c w.phase

theorem plan_task {c : Cfg K R} {n m : Nat} {db : Db K R} (h : Inv c.ext c.x c.table n db) {t : PTask K}
    (hp : planFrom c db m = some t) : TaskOk c t := by
  obtain ⟨hd, hok⟩ := h.reg
  unfold planFrom at hp
  rcases snapshotLatest_spec hok with ⟨_, e⟩ | ⟨h0, v, hv, _, e⟩
  · rw [e] at hp; cases hp
  · rw [e] at hp
    simp only at hp
    have hvo : VersionOk v := by
      obtain ⟨u, h1, _, _, h2⟩ := hok.some n h0 (Nat.le_refl _)
      have : v = u := at_unique hv h1
      rw [this]; exact h2
    obtain ⟨⟨src, more, hpo⟩, hov, _⟩ := Props.C39.plans_are_well_formed c.sorter c.planner v hvo m t hp
    refine ⟨hpo.target, ?_, ?_, ?_, hpo.once⟩
    · unfold OverLimit at hov
      split_ifs at hov with h0
      · omega
      · obtain ⟨lim, hl, _⟩ := hov
        have := (List.getElem?_eq_some_iff.1 hl).1
        omega
    · obtain ⟨e, he⟩ := List.exists_mem_of_ne_nil _ hpo.nonempty
      refine ⟨⟨t.source, e.id⟩, ?_, rfl⟩
      rw [hpo.input]
      exact List.mem_append_left _ (List.mem_map.2 ⟨e, he, rfl⟩)
    · intro i hi
      rw [hpo.input] at hi
      rcases List.mem_append.1 hi with hi | hi
      · obtain ⟨e, _, rfl⟩ := List.mem_map.1 hi
        exact Nat.le_refl _
      · obtain ⟨e, _, rfl⟩ := List.mem_map.1 hi
        exact Nat.le_succ _

theorem resolve_levels {v : Version (Info K)} : ∀ {is : List Input} {ds : List (Desc K)}, resolve v is = .ok ds →
    ds.map (·.level) = is.map (·.level)
  | [], ds, h => by
    simp only [resolve, Except.ok.injEq] at h
    subst h
    rfl
  | i :: is, ds, h => by
    unfold resolve at h
    cases hb : v.ssts[i.level]? with
    | none => rw [hb] at h; cases h
    | some b =>
      rw [hb] at h
      simp only at h
      cases hf : b.find? (fun e => decide (e.id = i.id)) with
      | none => rw [hf] at h; cases h
      | some e =>
        rw [hf] at h
        simp only at h
        cases hr : resolve v is with
        | error x => rw [hr] at h; cases h
        | ok ds' =>
          rw [hr] at h
          simp only [Except.ok.injEq] at h
          subst h
          rw [List.map_cons, List.map_cons, resolve_levels hr]

theorem resolve_inputs {v : Version (Info K)} : ∀ {is : List Input} {ds : List (Desc K)}, resolve v is = .ok ds →
    ds.map (fun d => Input.mk d.level d.id) = is
  | [], ds, h => by
    simp only [resolve, Except.ok.injEq] at h
    subst h
    rfl
  | i :: is, ds, h => by
    unfold resolve at h
    cases hb : v.ssts[i.level]? with
    | none => rw [hb] at h; cases h
    | some b =>
      rw [hb] at h
      simp only at h
      cases hf : b.find? (fun e => decide (e.id = i.id)) with
      | none => rw [hf] at h; cases h
      | some e =>
        rw [hf] at h
        simp only at h
        have he : e.id = i.id := by simpa using List.find?_some hf
        cases hr : resolve v is with
        | error x => rw [hr] at h; cases h
        | ok ds' =>
          rw [hr] at h
          simp only [Except.ok.injEq] at h
          subst h
          rw [List.map_cons, resolve_inputs hr]
          simp only [he]

theorem start_shaped {c : Cfg K R} (hn : 0 < c.x.readRows) {n : Nat} {s : Db K R} (h : Inv c.ext c.x c.table n s)
    {j : Model.Worker.Job K} (hj : TaskOk c j.task) {head : Option Nat} {skip a : Nat} {p : Pending K}
    (hp : (start c.x c.table s j.task head skip).2 = .ready p) : StageOk c j (.merged a p) := by
  obtain ⟨s', r, e, _, _, _, _, _, _, _, h8⟩ := start_spec h hn j.task head skip
  rw [e] at hp
  obtain ⟨⟨v, o, hjf, hr⟩, _⟩ := h8 p hp
  obtain ⟨h1, _, ⟨i, hi, hil⟩, h4, h5⟩ := hj
  have hlev := resolve_levels hr
  refine ⟨?_, ?_, ?_, by rw [resolve_inputs hr]; exact h5⟩
  · have : j.task.source ∈ p.inputs.map (·.level) := by
      rw [hlev]
      exact List.mem_map.2 ⟨i, hi, hil⟩
    obtain ⟨d, hd, hdl⟩ := List.mem_map.1 this
    exact ⟨d, hd, hdl⟩
  · intro d hd
    have : d.level ∈ j.task.input.map (·.level) := by
      rw [← hlev]
      exact List.mem_map.2 ⟨d, hd, rfl⟩
    obtain ⟨i, hi, hil⟩ := List.mem_map.1 this
    rw [← hil]
    exact h4 i hi
  · intro d hd
    rw [hjf.level d hd, h1]

theorem act_shaped {c : Cfg K R} (hn : 0 < c.x.readRows) {n : Nat} {w : W K R} (h : Inv c.ext c.x c.table n w.db)
    (hq : ∀ j ∈ w.queue, TaskOk c j.task) {j : Model.Worker.Job K} (hj : TaskOk c j.task) {st : Stage K}
    (hst : StageOk c j st) (now skip : Nat) :
    (∀ j' ∈ (act c w j now skip st).1.queue, TaskOk c j'.task) ∧ StageOk c j (act c w j now skip st).2 := by
  generalize hr : act c w j now skip st = r
  cases st with
  | popped a =>
    simp only [act] at hr
    split at hr <;> subst hr
    · exact ⟨hq, trivial⟩
    · exact ⟨hq, trivial⟩
    · exact ⟨hq, trivial⟩
    · rename_i p hp
      exact ⟨hq, start_shaped hn h hj hp⟩
  | merged a p =>
    simp only [act] at hr
    split at hr
    · subst hr; exact ⟨hq, trivial⟩
    · split_ifs at hr <;> subst hr <;> exact ⟨hq, trivial⟩
    · subst hr; exact ⟨hq, trivial⟩
  | ended =>
    simp only [act] at hr
    split_ifs at hr
    · split at hr
      · split at hr
        · rename_i t ht
          subst hr
          exact ⟨hq, plan_task h ht⟩
        · subst hr; exact ⟨hq, trivial⟩
      · subst hr; exact ⟨hq, trivial⟩
    · subst hr; exact ⟨hq, trivial⟩
  | follow t =>
    simp only [act] at hr
    split at hr
    · subst hr; exact ⟨hq, trivial⟩
    · split at hr
      · subst hr; exact ⟨hq, trivial⟩
      · rename_i q he
        unfold enqueue at he
        split_ifs at he
        simp only [Option.some.injEq] at he
        subst hr
        refine ⟨?_, trivial⟩
        simp only
        rw [← he]
        intro j' hj'
        rcases List.mem_append.1 hj' with hj' | hj'
        · exact hq j' hj'
        · rw [List.mem_singleton.1 hj']
          exact hst
  | over => simp only [act] at hr; subst hr; exact ⟨hq, trivial⟩

theorem shaped_turn {c : Cfg K R} {n : Nat} {w : W K R} (h : Inv c.ext c.x c.table n w.db) (hS : Shaped c w) :
    Shaped c (Model.Worker.turn c w) := by
  obtain ⟨hq, hp⟩ := hS
  unfold Model.Worker.turn
  cases hph : w.phase with
  | waiting =>
    simp only
    split_ifs
    · exact ⟨hq, by rw [hph]; trivial⟩
    · exact ⟨hq, trivial⟩
  | planning m =>
    cases m with
    | zero =>
      simp only
      refine ⟨fun j hj => hq j (List.mem_of_mem_drop hj), ?_⟩
      intro r hr
      obtain ⟨j, hj, rfl⟩ := List.mem_map.1 hr
      exact ⟨hq j (List.mem_of_mem_take hj), trivial⟩
    | succ m =>
      simp only
      cases ht : planFrom c w.db 0 with
      | none => exact ⟨hq, trivial⟩
      | some t => exact ⟨hq, plan_task h ht⟩
  | planned m t =>
    rw [hph] at hp
    simp only
    cases noteHead c w.db with
    | none => exact ⟨hq, trivial⟩
    | some hd =>
      simp only
      cases he : enqueue c w.queue ⟨t, hd⟩ with
      | none => exact ⟨hq, trivial⟩
      | some q =>
        unfold enqueue at he
        split_ifs at he
        simp only [Option.some.injEq] at he
        refine ⟨?_, trivial⟩
        simp only
        rw [← he]
        intro j' hj'
        rcases List.mem_append.1 hj' with hj' | hj'
        · exact hq j' hj'
        · rw [List.mem_singleton.1 hj']
          exact hp
  | draining js =>
    simp only
    split_ifs
    · exact ⟨hq, trivial⟩
    · exact ⟨hq, trivial⟩
    · exact ⟨hq, hp⟩

theorem shaped_step {c : Cfg K R} (hn : 0 < c.x.readRows) {n : Nat} {w : W K R} (hB : Base c n w) (hS : Shaped c w)
    (op : Model.Worker.Op K R) : Shaped c (Model.Worker.step c w op) := by
  cases op with
  | other op =>
    unfold Model.Worker.step
    simp only
    split_ifs <;> exact hS
  | trigger => exact hS
  | turn => exact shaped_turn hB.inv hS
  | restart cap => exact ⟨by simp [Model.Worker.step], trivial⟩
  | fail i =>
    change Shaped c (failStep w i)
    rcases fail_cases w i with e | ⟨js, j, a, hph, hi, e⟩
    · rw [e]; exact hS
    · rw [e]
      obtain ⟨hq, hp⟩ := hS
      rw [hph] at hp
      refine ⟨hq, ?_⟩
      intro r hr
      rcases List.mem_or_eq_of_mem_set hr with hr | rfl
      · exact hp r hr
      · exact ⟨(hp _ (List.mem_of_getElem? hi)).1, trivial⟩
  | job i now skip =>
    change Shaped c (jobStep c w i now skip)
    unfold jobStep
    cases hph : w.phase with
    | draining js =>
      simp only
      cases hi : js[i]? with
      | none => exact hS
      | some r =>
        obtain ⟨hq, hp⟩ := hS
        rw [hph] at hp
        obtain ⟨g1, g2⟩ := hp r (List.mem_of_getElem? hi)
        obtain ⟨a1, a2⟩ := act_shaped hn hB.inv hq g1 g2 now skip
        refine ⟨a1, ?_⟩
        intro r' hr'
        rcases List.mem_or_eq_of_mem_set hr' with hr' | rfl
        · exact hp r' hr'
        · exact ⟨g1, a2⟩
    | _ => exact hS

theorem shaped_new (c : Cfg K R) (cap sv : Nat) : Shaped c (W.new c cap sv) := ⟨by simp [W.new], trivial⟩

theorem shaped_run {c : Cfg K R} (hn : 0 < c.x.readRows) : ∀ (ops : List (Model.Worker.Op K R)) {n : Nat} {w : W K R},
    Base c n w → Shaped c w → Shaped c (Model.Worker.run c w ops)
  | [], _, _, _, h => h
  | o :: os, n, w, hB, h => by
    obtain ⟨n1, _, hB1⟩ := base_step hn hB o
    exact shaped_run hn os hB1 (shaped_step hn hB h o)

/-! ## The number of tables per level -/

/-- How many tables the latest version lists on a level. -/
def tablesAt (c : Cfg K R) (db : Db K R) (l : Nat) : Nat :=
  match snapshotLatest db.kv c.table with
  | .ok (_, some v) => (v.ssts.getD l []).length
  | _ => 0

theorem tablesAt_kv {c : Cfg K R} {db db' : Db K R} (h : db'.kv = db.kv) : tablesAt c db' = tablesAt c db := by
  funext l
  unfold tablesAt
  rw [h]

theorem tablesAt_at {c : Cfg K R} {n : Nat} {db : Db K R} (h : Inv c.ext c.x c.table n db) {v : Version (Info K)}
    (hv : At db.kv c.table n v) (l : Nat) : tablesAt c db l = (v.ssts.getD l []).length := by
  obtain ⟨hd, hok⟩ := h.reg
  unfold tablesAt
  rcases snapshotLatest_spec hok with ⟨h0, e⟩ | ⟨h0, u, hu, _, e⟩
  · have := (at_le hok hv).1
    omega
  · rw [e]
    have : u = v := at_unique hu hv
    rw [this]

theorem level_nodup {v : Version (Info K)} (h : VersionOk v) (l : Nat) : (v.ssts.getD l []).Nodup := by
  cases hb : v.ssts[l]? with
  | none => rw [List.getD_eq_getElem?_getD, hb]; exact List.Pairwise.nil
  | some b =>
    rw [List.getD_eq_getElem?_getD, hb]
    refine (h.asc b (List.mem_of_getElem? hb)).imp ?_
    intro a b hab hc
    rw [hc] at hab
    exact lt_irrefl _ hab

theorem version_at {ext : R → Option K} {x : Exec K R} {t n : Nat} {s : Db K R} (h : Inv ext x t n s)
    {v : Version (Info K)} (hv : At s.kv t n v) : VersionOk v := by
  obtain ⟨hd, hok⟩ := h.reg
  obtain ⟨u, h1, _, _, h2⟩ := hok.some n (at_le hok hv).1 (Nat.le_refl _)
  have : v = u := at_unique hv h1
  rw [this]; exact h2

/-- Fewer tables on some level with a limit, and as many as before on all levels above it. -/
def Lower (T : Nat) (f g : Nat → Nat) : Prop := ∃ s, s ≤ T ∧ f s < g s ∧ ∀ l, l < s → f l = g l

theorem finish_lowers {c : Cfg K R} {n : Nat} {s : Db K R} (h : Inv c.ext c.x c.table n s) {i : Nat} {p : Pending K}
    (hi : s.jobs[i]? = some p) {j : Model.Worker.Job K} (hj : TaskOk c j.task) {a : Nat}
    (hst : StageOk c j (.merged a p)) {m : Nat}
    (hf : (finish c.table { s with jobs := s.jobs.eraseIdx i } p).2 = .ok m) :
    Lower c.planner.thresholds.length
      (tablesAt c (Lsm.step c.ext c.x c.table s (.finish i)).2) (tablesAt c s) := by
  have e2 : (Lsm.step c.ext c.x c.table s (.finish i)).2 = (finish c.table { s with jobs := s.jobs.eraseIdx i } p).1 := by
    unfold Lsm.step; simp only [hi]
  rw [e2]
  obtain ⟨s', r, e, hc⟩ := finish_spec h hi
  rw [e] at hf ⊢
  simp only at hf ⊢
  subst hf
  rcases hc with ⟨err, h1, _⟩ | ⟨_, hI, _, _, _, _, _, _, v, v', tg, o, hjf, hat, hvo', _, hl, _⟩
  · cases h1
  obtain ⟨⟨d, hd, hdl⟩, g2, g3, _⟩ := hst
  have hvo := version_at h hjf.here
  refine ⟨j.task.source, hj.2.1, ?_, ?_⟩
  · rw [tablesAt_at hI hat, tablesAt_at h hjf.here]
    -- strictly fewer tables on the source level
    have hent := (hjf.names d hd).1
    rw [hdl] at hent
    have hsub : (v'.ssts.getD j.task.source []) ⊆ (v.ssts.getD j.task.source []).filter (fun e => decide (e.id ≠ d.id)) := by
      intro e he
      rcases (hl _ e).1 he with ⟨d', hd', hlev, _⟩ | ⟨h1, h2⟩
      · have := g3 d' hd'
        omega
      · refine List.mem_filter.2 ⟨h1, ?_⟩
        simp only [ne_eq, decide_not, Bool.not_eq_eq_eq_not, Bool.not_true, decide_eq_false_iff_not]
        exact fun hc => h2 d hd ⟨hdl, hc.symm⟩
    have h1 := ((level_nodup hvo' j.task.source).subperm hsub).length_le
    have h2 : ((v.ssts.getD j.task.source []).filter (fun e => decide (e.id ≠ d.id))).length <
        (v.ssts.getD j.task.source []).length :=
      List.length_filter_lt_length_iff_exists.2 ⟨_, hent, by simp⟩
    omega
  · intro l hlt
    rw [tablesAt_at hI hat, tablesAt_at h hjf.here]
    have hiff : ∀ e, e ∈ v'.ssts.getD l [] ↔ e ∈ v.ssts.getD l [] := by
      intro e
      rw [hl]
      constructor
      · rintro (⟨d', hd', hlev, _⟩ | ⟨h1, _⟩)
        · have := g3 d' hd'
          omega
        · exact h1
      · intro he
        refine .inr ⟨he, ?_⟩
        rintro d' hd' ⟨hlev, _⟩
        have := g2 d' hd'
        omega
    exact ((List.perm_ext_iff_of_nodup (level_nodup hvo' l) (level_nodup hvo l)).2 hiff).length_eq

/-- A step of a job: nothing published, or fewer tables in the sense of `Lower`. -/
theorem act_lowers {c : Cfg K R} (hn : 0 < c.x.readRows) {n : Nat} {w : W K R} (hB : Base c n w)
    {js : List (Model.Worker.Job K × Stage K)} (hph : w.phase = .draining js) {i : Nat} {j : Model.Worker.Job K}
    {st : Stage K} (hi : js[i]? = some (j, st)) (hS : Shaped c w) (now skip : Nat) :
    ((act c w j now skip st).1.db.kv = w.db.kv ∧ pubs (act c w j now skip st).1 = pubs w ∧
      (∀ a p, st = .merged a p → (act c w j now skip st).2 ≠ .ended)) ∨
    (Lower c.planner.thresholds.length (tablesAt c (act c w j now skip st).1.db) (tablesAt c w.db) ∧
      pubs (act c w j now skip st).1 = pubs w + 1) := by
  have hmem := List.mem_of_getElem? hi
  have hP := hB.phase
  rw [hph] at hP
  have hw : ∀ a p, st = .merged a p → p ∈ w.db.jobs := by
    intro a p hs
    have := hB.perm
    rw [hph] at this
    rw [this.mem_iff]
    unfold waitings
    rw [List.mem_filterMap]
    exact ⟨_, hmem, by rw [hs]; rfl⟩
  obtain ⟨n', ha⟩ := act_spec hn hB.inv (hP _ hmem) hw now skip
  have hkv : n' = n → ∀ a p, st = .merged a p → (act c w j now skip st).2 ≠ .ended := by
    rintro hnn a p rfl
    rcases ha.how with ⟨_, _, _, _, _, h1, _, h2⟩ | ⟨h0, _⟩ | ⟨_, _, ⟨t, h, _⟩, _⟩
    · obtain ⟨k, hk1, hk2, hk3, hk4⟩ := hP _ hmem
      obtain ⟨_, g2⟩ := finish_cases hB.inv (List.getElem?_idxOf (hw a p rfl)) hk1 hk4.2
      have hkn : k ≠ n := by
        intro hc
        exact h2 a p rfl (by simp only at hk3; rw [hk3, hc])
      rcases g2 with ⟨_, _, _, g3⟩ | ⟨g3, _⟩
      · unfold act
        simp only
        rw [g3]
        simp only
        split_ifs <;> simp
      · exact absurd g3 hkn
    · omega
    · cases h
  rcases ha.how with ⟨h0, h1, _, _, _, h2, _⟩ | ⟨h0, h1, ⟨a, p, h2⟩, h3, _, h4, h5⟩ | ⟨h0, h1, _, _, _, _, h2⟩
  · left
    refine ⟨h1, ?_, hkv h0⟩
    rcases h2 with h2 | ⟨f, hf, h2⟩
    · unfold pubs; rw [h2]
    · unfold pubs
      rw [h2, pubs_append]
      rcases hf with rfl | rfl <;> rfl
  · right
    subst h2
    have hsh := hS.2
    rw [hph] at hsh
    obtain ⟨g1, g2⟩ := hsh _ hmem
    refine ⟨?_, ?_⟩
    · have hidx : w.db.jobs[w.db.jobs.idxOf p]? = some p := List.getElem?_idxOf (hw a p rfl)
      obtain ⟨k, hk1, hk2, hk3, hk4⟩ := hP _ hmem
      obtain ⟨_, g3⟩ := finish_cases hB.inv hidx hk1 hk4.2
      have hok : ∃ m, (finish c.table { w.db with jobs := w.db.jobs.eraseIdx (w.db.jobs.idxOf p) } p).2 = .ok m := by
        rcases g3 with ⟨g3, _⟩ | ⟨_, _, g3⟩
        · exfalso
          simp only at hk3
          rw [hk3] at h1
          simp only [Option.some.injEq] at h1
          exact g3 h1
        · exact ⟨_, g3⟩
      obtain ⟨m, hm⟩ := hok
      have := finish_lowers hB.inv hidx g1 (a := a) g2 hm
      have e : (act c w j now skip (.merged a p)).1.db =
          (Lsm.step c.ext c.x c.table w.db (.finish (w.db.jobs.idxOf p))).2 := by
        unfold act
        simp only
        rw [hm]
        rfl
      rw [e]
      exact this
    · unfold pubs
      rw [h5, pubs_append]
      rfl
  · left
    refine ⟨h1, ?_, hkv h0⟩
    unfold pubs
    rw [h2]

/-- No flush is published. -/
def noFlush : Model.Worker.Op K R → Bool
  | .other .flushPublish => false
  | _ => true

theorem lowers_step {c : Cfg K R} (hn : 0 < c.x.readRows) {n : Nat} {w : W K R} (hB : Base c n w) (hS : Shaped c w)
    {op : Model.Worker.Op K R} (hop : noFlush op = true) :
    (tablesAt c (Model.Worker.step c w op).db = tablesAt c w.db ∧
      (Model.Worker.step c w op).done.filter (fun e => decide (e.2 = .published)) =
        w.done.filter (fun e => decide (e.2 = .published))) ∨
    (Lower c.planner.thresholds.length (tablesAt c (Model.Worker.step c w op).db) (tablesAt c w.db) ∧
      pubs (Model.Worker.step c w op) = pubs w + 1) := by
  have samepubs : ∀ w' : W K R, w.done <+: w'.done → pubs w' = pubs w →
      w'.done.filter (fun e => decide (e.2 = .published)) = w.done.filter (fun e => decide (e.2 = .published)) := by
    intro w' h1 h2
    obtain ⟨l, hl⟩ := h1
    unfold pubs at h2
    rw [← hl, List.filter_append] at h2 ⊢
    rw [List.length_append] at h2
    have : l.filter (fun e => decide (e.2 = .published)) = [] := List.length_eq_zero_iff.1 (by omega)
    rw [this, List.append_nil]
  cases op with
  | other op =>
    left
    by_cases hs : silent (.other op : Model.Worker.Op K R) = true
    · refine ⟨tablesAt_kv (silent_kv c w op hs), ?_⟩
      unfold Model.Worker.step
      simp only
      split_ifs <;> rfl
    · cases op with
      | setWal refs =>
        refine ⟨?_, rfl⟩
        change tablesAt c (setWal c.table w.db refs) = _
        rcases setWal_spec hB.inv refs with e | ⟨kv', e, h3, v, v', hb, hat, hvo, hk, hl, _⟩
        · rw [e]
        · funext l
          have hat' : At (setWal c.table w.db refs).kv c.table (n + 1) v' := by rw [e]; exact hat
          rw [tablesAt_at h3 hat']
          obtain ⟨hd, hok⟩ := hB.inv.reg
          rcases snapshotLatest_spec hok with ⟨h0, es⟩ | ⟨h0, u, hu, _, es⟩
          · have hv := hb.2.1 h0
            have : tablesAt c w.db l = 0 := by unfold tablesAt; rw [es]
            rw [this, List.length_eq_zero_iff]
            apply List.eq_nil_iff_forall_not_mem.2
            intro x hx
            have := (hl l x).1 hx
            rw [hv] at this
            simp [Version.empty] at this
          · have huv : u = v := at_unique hu (hb.2.2 h0)
            subst huv
            rw [tablesAt_at hB.inv hu]
            exact ((List.perm_ext_iff_of_nodup (level_nodup hvo l) (level_nodup hb.1 l)).2 (hl l)).length_eq
      | flushPublish => cases hop
      | _ => exact absurd rfl hs
  | trigger => exact .inl ⟨rfl, rfl⟩
  | turn =>
    left
    change tablesAt c (Model.Worker.turn c w).db = _ ∧ (Model.Worker.turn c w).done.filter _ = _
    unfold Model.Worker.turn begin
    repeat' split
    all_goals exact ⟨rfl, rfl⟩
  | restart cap =>
    left
    refine ⟨?_, rfl⟩
    exact tablesAt_kv (reopen_jobs hB.inv cap).2
  | fail i =>
    left
    change tablesAt c (failStep w i).db = _ ∧ (failStep w i).done.filter _ = _
    rcases fail_cases w i with e | ⟨js, j, a, hph, hi, e⟩
    · rw [e]; exact ⟨rfl, rfl⟩
    · rw [e]
      refine ⟨rfl, ?_⟩
      simp only
      rw [List.filter_append]
      simp
  | job i now skip =>
    change (tablesAt c (jobStep c w i now skip).db = _ ∧ (jobStep c w i now skip).done.filter _ = _) ∨
      (Lower _ (tablesAt c (jobStep c w i now skip).db) _ ∧ pubs (jobStep c w i now skip) = _)
    have hdone := done_step hn hB (.job i now skip)
    change w.done <+: (jobStep c w i now skip).done at hdone
    cases hph : w.phase with
    | draining js =>
      cases hi : js[i]? with
      | none =>
        left
        unfold jobStep
        rw [hph]
        simp only
        rw [hi]
        exact ⟨rfl, rfl⟩
      | some r =>
        have e : jobStep c w i now skip = { (act c w r.1 now skip r.2).1 with
            phase := .draining (js.set i (r.1, (act c w r.1 now skip r.2).2)) } := by
          unfold jobStep
          rw [hph]
          simp only
          rw [hi]
        rcases act_lowers hn hB hph hi hS now skip with ⟨h1, h2, _⟩ | ⟨h1, h2⟩
        · left
          refine ⟨?_, samepubs _ hdone ?_⟩
          · rw [e]; exact tablesAt_kv h1
          · rw [e]; exact h2
        · right
          rw [e]
          exact ⟨h1, h2⟩
    | _ =>
      left
      unfold jobStep
      rw [hph]
      exact ⟨rfl, rfl⟩

/-! ## A sequence that only goes down -/

theorem settles {T : Nat} {g : Nat → Nat → Nat} (h : ∀ i, g (i + 1) = g i ∨ Lower T (g (i + 1)) (g i)) :
    ∃ N, ∀ i, N ≤ i → ¬ Lower T (g (i + 1)) (g i) := by
  have key : ∀ k, ∃ N, ∀ i, N ≤ i → ∀ l, l < k → g i l = g N l := by
    intro k
    induction k with
    | zero => exact ⟨0, fun i _ l hl => absurd hl (Nat.not_lt_zero _)⟩
    | succ k ih =>
      obtain ⟨N, hN⟩ := ih
      -- from `N` on, level `k` does not grow
      have hmono : ∀ i, N ≤ i → g (i + 1) k ≤ g i k := by
        intro i hi
        rcases h i with e | ⟨s, _, h1, h2⟩
        · rw [e]
        · by_cases hs : s < k
          · have a := hN i hi s hs
            have b := hN (i + 1) (by omega) s hs
            omega
          · by_cases hsk : s = k
            · subst hsk; exact Nat.le_of_lt h1
            · exact Nat.le_of_eq (h2 k (by omega))
      have down : ∀ b i, N ≤ i → g i k ≤ b → ∃ M, N ≤ M ∧ ∀ i', M ≤ i' → g i' k = g M k := by
        intro b
        induction b using Nat.strong_induction_on with
        | _ b ihb =>
          intro i hi hb
          by_cases hc : ∀ i', i ≤ i' → g i' k = g i k
          · exact ⟨i, hi, hc⟩
          · obtain ⟨i', hii', hne⟩ : ∃ i', i ≤ i' ∧ g i' k ≠ g i k := by
              by_contra hcc
              exact hc (fun i' hi' => by_contra (fun hx => hcc ⟨i', hi', hx⟩))
            have hle : g i' k ≤ g i k := by
              clear hne
              induction i', hii' using Nat.le_induction with
              | base => exact Nat.le_refl _
              | succ m hm ih2 => exact Nat.le_trans (hmono m (by omega)) ih2
            exact ihb (g i' k) (by omega) i' (by omega) (Nat.le_refl _)
      obtain ⟨M, hM1, hM2⟩ := down _ N (Nat.le_refl _) (Nat.le_refl _)
      refine ⟨M, fun i hi l hl => ?_⟩
      by_cases hlk : l = k
      · subst hlk; exact hM2 i hi
      · rw [hN i (by omega) l (by omega), hN M hM1 l (by omega)]
  obtain ⟨N, hN⟩ := key (T + 1)
  refine ⟨N, fun i hi => ?_⟩
  rintro ⟨s, h1, h2, _⟩
  have a := hN i hi s (by omega)
  have b := hN (i + 1) (by omega) s (by omega)
  omega

/-! ## An endless schedule -/

/-- The worker along a schedule. -/
def along (c : Cfg K R) (w : W K R) (f : Nat → Model.Worker.Op K R) : Nat → W K R
  | 0 => w
  | i + 1 => Model.Worker.step c (along c w f i) (f i)

theorem along_run (c : Cfg K R) (w : W K R) (f : Nat → Model.Worker.Op K R) :
    ∀ i, Model.Worker.run c w ((List.range i).map f) = along c w f i
  | 0 => rfl
  | i + 1 => by
    rw [List.range_succ, List.map_append, run_append, along_run c w f i]
    rfl

theorem along_ok {c : Cfg K R} (hn : 0 < c.x.readRows) {n : Nat} {w : W K R} (hB : Base c n w) (hS : Shaped c w)
    (f : Nat → Model.Worker.Op K R) : ∀ i, (∃ n', Base c n' (along c w f i)) ∧ Shaped c (along c w f i)
  | 0 => ⟨⟨n, hB⟩, hS⟩
  | i + 1 => by
    obtain ⟨⟨n', h1⟩, h2⟩ := along_ok hn hB hS f i
    obtain ⟨n'', _, h3⟩ := base_step hn h1 (f i)
    exact ⟨⟨n'', h3⟩, shaped_step hn h1 h2 (f i)⟩

/-- From some step on nothing is published. -/
theorem publications_end {c : Cfg K R} (hn : 0 < c.x.readRows) {n : Nat} {w : W K R} (hB : Base c n w) (hS : Shaped c w)
    {f : Nat → Model.Worker.Op K R} (hf : ∀ i, noFlush (f i) = true) :
    ∃ N, ∀ i, N ≤ i → tablesAt c (along c w f (i + 1)).db = tablesAt c (along c w f i).db ∧
      (along c w f (i + 1)).done.filter (fun e => decide (e.2 = .published)) =
        (along c w f i).done.filter (fun e => decide (e.2 = .published)) := by
  have hstep : ∀ i, (tablesAt c (along c w f (i + 1)).db = tablesAt c (along c w f i).db ∧
      (along c w f (i + 1)).done.filter (fun e => decide (e.2 = .published)) =
        (along c w f i).done.filter (fun e => decide (e.2 = .published))) ∨
      (Lower c.planner.thresholds.length (tablesAt c (along c w f (i + 1)).db) (tablesAt c (along c w f i).db) ∧
        pubs (along c w f (i + 1)) = pubs (along c w f i) + 1) := by
    intro i
    obtain ⟨⟨n', h1⟩, h2⟩ := along_ok hn hB hS f i
    exact lowers_step hn h1 h2 (hf i)
  obtain ⟨N, hN⟩ := settles (T := c.planner.thresholds.length) (g := fun i => tablesAt c (along c w f i).db) (fun i => by
    rcases hstep i with ⟨h, _⟩ | ⟨h, _⟩
    · exact .inl h
    · exact .inr h)
  refine ⟨N, fun i hi => ?_⟩
  rcases hstep i with h | ⟨h, _⟩
  · exact h
  · exact absurd h (hN i hi)

end Tonbo.Lemmas.Worker
