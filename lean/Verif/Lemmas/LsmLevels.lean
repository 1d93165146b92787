import Mathlib.Data.List.Induction
import Verif.Lemmas.LsmKeep
import Verif.Props.C39_Planner

/-!
# Levels from 2 on stay disjoint
-/

set_option linter.unusedSectionVars false

namespace Tonbo.Lemmas.Lsm
open Tonbo.Model Tonbo.Model.Manifest Tonbo.Model.Planner Tonbo.Model.Outcome Tonbo.Model.Lsm Tonbo.Spec
open Tonbo.Lemmas.Manifest Tonbo.Lemmas.Outcome
open Tonbo.Model.Sst (File)
open Tonbo.Model.Mem (Imm Runs)

variable {K R : Type} [LinearOrder K]

/-- No two tables of a level overlap, from level 2 on. -/
def LevelsOk (files : Path → Option (File K R)) (v : Version (Info K)) : Prop :=
  ∀ l, 2 ≤ l → ∀ e ∈ v.ssts.getD l [], ∀ e' ∈ v.ssts.getD l [], e ≠ e' →
    ∀ f f', files ⟨l, e.id⟩ = some f → files ⟨l, e'.id⟩ = some f' → Disjoint' f f'

structure LInv (S : Sorter K) (cfg : PCfg) (x : Exec K R) (t : Nat) (s : Db K R) : Prop where
  levels : ∀ k v, At s.kv t k v → LevelsOk s.files v
  jobs : ∀ p ∈ s.jobs, ∃ k v o task m, JobFor x s.kv t p k v task.target o ∧
    resolve v task.input = .ok p.inputs ∧ planVersion S cfg v m = some task

/-- Stored keys of a readable table lie between its bounds, which are stored. -/
theorem bounds_of {files : Path → Option (File K R)} {next l : Nat} {e : Entry (Info K)}
    (h : EntryOk files next l e) : ∃ f lo hi, files ⟨l, e.id⟩ = some f ∧ loKey e = some lo ∧ hiKey e = some hi ∧
      (∀ a, Stored f a → lo ≤ a.key ∧ a.key ≤ hi) ∧ (∃ a, Stored f a ∧ a.key = lo) ∧ (∃ a, Stored f a ∧ a.key = hi) ∧
      e.info.stats ≠ none := by
  obtain ⟨_, _, f, hf, hok⟩ := h
  obtain ⟨st, hst, ⟨h1, h2, _⟩, _⟩ := hok.stats
  obtain ⟨kt, hkt⟩ := hok.ne
  cases hlo : st.minKey with
  | none => rw [hlo] at h1; exact absurd ⟨kt, hkt, rfl⟩ (h1 kt.key)
  | some lo =>
    cases hhi : st.maxKey with
    | none => rw [hhi] at h2; exact absurd ⟨kt, hkt, rfl⟩ (h2 kt.key)
    | some hi =>
      rw [hlo] at h1
      rw [hhi] at h2
      refine ⟨f, lo, hi, hf, ?_, ?_, fun a ha => ⟨h1.2 _ ⟨a, ha, rfl⟩, h2.2 _ ⟨a, ha, rfl⟩⟩, h1.1, h2.1, by rw [hst]; simp⟩
      · simp [loKey, hst, hlo]
      · simp [hiKey, hst, hhi]

/-- A table left on the target level is on one side of everything a planned job merges. -/
theorem planned_side {cfg : PCfg} {v : Version (Info K)} {task : PTask K} {src more : List (Entry (Info K))}
    {files : Path → Option (File K R)} {next : Nat}
    (hp : PlanOk cfg v task src more) (hent : ∀ l, ∀ e ∈ v.ssts.getD l [], EntryOk files next l e)
    (hlev : LevelsOk files v) (h1 : 1 ≤ task.source) {r : Entry (Info K)}
    (hr : r ∈ v.ssts.getD (task.source + 1) []) (hrm : r ∉ more) {g : File K R}
    (hg : files ⟨task.source + 1, r.id⟩ = some g) :
    (∀ l, ∀ e, (l = task.source ∧ e ∈ src) ∨ (l = task.source + 1 ∧ e ∈ more) → ∀ f, files ⟨l, e.id⟩ = some f → Before f g) ∨
    (∀ l, ∀ e, (l = task.source ∧ e ∈ src) ∨ (l = task.source + 1 ∧ e ∈ more) → ∀ f, files ⟨l, e.id⟩ = some f → Before g f) := by
  obtain ⟨g', rlo, rhi, hg', hrlo, hrhi, hrb, hrl, hrh, _⟩ := bounds_of (hent _ r hr)
  rw [hg] at hg'
  cases hg'
  have hstat : ∀ a ∈ src, a.info.stats ≠ none := by
    intro a ha
    obtain ⟨_, _, _, _, _, _, _, _, _, h⟩ := bounds_of (hent _ a (hp.srcListed a ha))
    exact h
  have hno : ∀ a ∈ src, ∀ b ∈ src, ∀ lo hi, loKey a = some lo → hiKey b = some hi → ¬ (rlo ≤ hi ∧ lo ≤ rhi) := by
    intro a ha b hb lo hi hlo hhi ⟨c1, c2⟩
    exact hrm (hp.overlap h1 hstat a ha b hb r hr lo hi rlo rhi hlo hhi hrlo hrhi c1 c2)
  have hmore : ∀ m ∈ more, ∀ f, files ⟨task.source + 1, m.id⟩ = some f → Disjoint' f g := by
    intro m hm f hf
    refine hlev _ (by omega) m (hp.moreListed m hm) r hr ?_ f g hf hg
    rintro rfl
    exact hrm hm
  by_cases hside : ∀ b ∈ src, ∀ hi, hiKey b = some hi → hi < rlo
  · left
    rintro l e (⟨rfl, he⟩ | ⟨rfl, he⟩) f hf
    · obtain ⟨f', lo, hi, hf', _, hhi, hb, _⟩ := bounds_of (hent _ e (hp.srcListed e he))
      rw [hf] at hf'
      cases hf'
      intro a b ha hb'
      exact lt_of_le_of_lt (hb a ha).2 (lt_of_lt_of_le (hside e he hi hhi) (hrb b hb').1)
    · rcases hmore e he f hf with h | h
      · exact h
      · exfalso
        obtain ⟨_, a, ha, b, hb, lo, hi, x, y, c1, c2, c3, c4, c5, c6⟩ := hp.only e he
        obtain ⟨f', elo, ehi, hf', d1, d2, _, ⟨k1, k2, k3⟩, _⟩ := bounds_of (hent _ e (hp.moreListed e he))
        rw [hf] at hf'
        cases hf'
        rw [c3] at d1
        cases d1
        obtain ⟨k4, k5, k6⟩ := hrl
        have := h k4 k1 k5 k2
        rw [k3, k6] at this
        have h2 := hside b hb hi c2
        exact absurd (lt_of_le_of_lt c5 h2) (not_lt.2 this.le)
  · right
    push Not at hside
    obtain ⟨b0, hb0, hi0, hhi0, hge⟩ := hside
    have hlow : ∀ a ∈ src, ∀ lo, loKey a = some lo → rhi < lo := by
      intro a ha lo hlo
      by_contra hc
      exact hno a ha b0 hb0 lo hi0 hlo hhi0 ⟨hge, not_lt.1 hc⟩
    rintro l e (⟨rfl, he⟩ | ⟨rfl, he⟩) f hf
    · obtain ⟨f', lo, hi, hf', hlo, _, hb, _⟩ := bounds_of (hent _ e (hp.srcListed e he))
      rw [hf] at hf'
      cases hf'
      intro a b ha hb'
      exact lt_of_le_of_lt (hrb a ha).2 (lt_of_lt_of_le (hlow e he lo hlo) (hb b hb').1)
    · rcases hmore e he f hf with h | h
      · exfalso
        obtain ⟨_, a, ha, b, hb, lo, hi, x, y, c1, c2, c3, c4, c5, c6⟩ := hp.only e he
        obtain ⟨f', elo, ehi, hf', d1, d2, _, _, ⟨k1, k2, k3⟩, _⟩ := bounds_of (hent _ e (hp.moreListed e he))
        rw [hf] at hf'
        cases hf'
        rw [c4] at d2
        cases d2
        obtain ⟨k4, k5, k6⟩ := hrh
        have := h k1 k4 k2 k5
        rw [k3, k6] at this
        have h2 := hlow a ha lo c1
        exact absurd (lt_of_lt_of_le h2 c6) (not_lt.2 this.le)
      · exact h

theorem stored_holds {f : File K R} {a : KT K} (h : Stored f a) : ∃ w : Ver K R, Holds f w ∧ w.key = a.key ∧ w.ts = a.ts := by
  rcases h with ⟨r, h⟩ | h
  · exact ⟨⟨a.key, a.ts, .put r⟩, h, rfl, rfl⟩
  · exact ⟨⟨a.key, a.ts, .del⟩, h, rfl, rfl⟩

theorem holds_stored {f : File K R} {w : Ver K R} (h : Holds f w) : Stored f ⟨w.key, w.ts⟩ := by
  unfold Holds at h
  split at h
  · exact .inl ⟨_, h⟩
  · exact .inr h

/-- The version a planned job publishes. -/
theorem levels_job {ext : R → Option K} {S : Sorter K} {cfg : PCfg} {x : Exec K R} {t n k : Nat} {s : Db K R}
    (h : Inv ext x t n s) (hl : LInv S cfg x t s) {p : Pending K} (hp : p ∈ s.jobs) {v v' : Version (Info K)}
    {task : PTask K} {o : Outcome K} {m : Nat} (hj : JobFor x s.kv t p k v task.target o)
    (hres : resolve v task.input = .ok p.inputs) (hplan : planVersion S cfg v m = some task)
    (hlist : ∀ l e, e ∈ v'.ssts.getD l [] ↔ (∃ d ∈ p.outputs, d.level = l ∧ e = entryOf d) ∨
              (e ∈ v.ssts.getD l [] ∧ ∀ d ∈ p.inputs, ¬ (d.level = l ∧ d.id = e.id))) :
    LevelsOk s.files v' := by
  obtain ⟨hd, hreg⟩ := h.reg
  have hvo : VersionOk v := by
    obtain ⟨a, b⟩ := at_le hreg hj.here
    obtain ⟨u, hu, _, _, ok⟩ := hreg.some k a b
    rw [at_unique hj.here hu]; exact ok
  obtain ⟨⟨src, more, hpo⟩, _, _⟩ := Props.C39.plans_are_well_formed S cfg v hvo m task hplan
  have hr := Props.C39.plan_resolves cfg v hvo task src more hpo
  rw [hres] at hr
  simp only [Except.ok.injEq] at hr
  obtain ⟨fs, gs, f1, f2, f3, f4, f5, _⟩ := (h.jobs p hp).2
  have hpd : ∀ d ∈ p.outputs, DescOk s.files s.next d := fun d hd => (h.pend p (List.mem_append_right _ hp) d hd).1
  obtain ⟨gs', q1, q2⟩ := readAll_ok p.outputs hpd
  rw [f2] at q1
  cases q1
  obtain ⟨fs', q3, q4⟩ := readAll_ok p.inputs (fun d hd => names_descOk h.ent hj.here (hj.names d hd))
  rw [f1] at q3
  cases q3
  have hent : ∀ l, ∀ e ∈ v.ssts.getD l [], EntryOk s.files s.next l e := fun l e he => h.ent l e ⟨k, v, hj.here, he⟩
  -- an output against a table that stays
  have hmix : ∀ d ∈ p.outputs, 2 ≤ d.level → ∀ r ∈ v.ssts.getD d.level [], (∀ d' ∈ p.inputs, ¬ (d'.level = d.level ∧ d'.id = r.id)) →
      ∀ f g, s.files ⟨d.level, d.id⟩ = some f → s.files ⟨d.level, r.id⟩ = some g → Disjoint' f g := by
    intro d hd' h2 r hrv hrin f g hf hg
    have hlev := hj.level d hd'
    rw [hpo.target] at hlev
    rw [hlev] at h2 hrv hrin hg
    have hrm : r ∉ more := by
      intro hc
      refine hrin ⟨r.id, task.source + 1, r.info.stats, r.wal, some r.info.data, r.info.del⟩ ?_ ⟨rfl, rfl⟩
      rw [hr]
      exact List.mem_append_right _ (List.mem_map.2 ⟨r, hc, rfl⟩)
    have hin : ∀ a, Stored f a → ∃ l e f', ((l = task.source ∧ e ∈ src) ∨ (l = task.source + 1 ∧ e ∈ more)) ∧
        s.files ⟨l, e.id⟩ = some f' ∧ ∃ b, Stored f' b ∧ b.key = a.key := by
      intro a ha
      obtain ⟨w, hw, hwk, _⟩ := stored_holds (R := R) ha
      obtain ⟨i, hi⟩ := List.getElem?_of_mem hd'
      obtain ⟨f', hf', hok', _⟩ := Plan.forall₂_getElem? q2 hi
      rw [hf] at hok'
      cases hok'
      obtain ⟨f', hf', hw'⟩ := f4 w ⟨f, List.mem_of_getElem? hf', hw⟩
      obtain ⟨c, hc, hcf, _⟩ := Plan.forall₂_mem_right q4 hf'
      rw [hr] at hc
      rcases List.mem_append.1 hc with hc | hc
      · obtain ⟨e, he, rfl⟩ := List.mem_map.1 hc
        exact ⟨task.source, e, f', .inl ⟨rfl, he⟩, hcf, _, holds_stored hw', hwk⟩
      · obtain ⟨e, he, rfl⟩ := List.mem_map.1 hc
        exact ⟨task.source + 1, e, f', .inr ⟨rfl, he⟩, hcf, _, holds_stored hw', hwk⟩
    rcases planned_side hpo hent (hl.levels k v hj.here) (by omega) hrv hrm hg with hs | hs
    · left
      intro a b ha hb
      obtain ⟨l, e, f', hle, hf', c, hc, hck⟩ := hin a ha
      have := hs l e hle f' hf' c b hc hb
      rw [← hck]; exact this
    · right
      intro b a hb ha
      obtain ⟨l, e, f', hle, hf', c, hc, hck⟩ := hin a ha
      have := hs l e hle f' hf' b c hb hc
      rw [← hck]; exact this
  intro l hl2 e he e' he' hne f f' hf hf'
  rcases (hlist l e).1 he with ⟨d, hd1, rfl, rfl⟩ | ⟨he, hnin⟩
  · rcases (hlist d.level e').1 he' with ⟨d', hd1', hdl, rfl⟩ | ⟨he', hnin'⟩
    · -- two outputs
      obtain ⟨i, hi⟩ := List.getElem?_of_mem hd1
      obtain ⟨j, hj'⟩ := List.getElem?_of_mem hd1'
      obtain ⟨g, hg, hgf, _⟩ := Plan.forall₂_getElem? q2 hi
      obtain ⟨g', hg', hgf', _⟩ := Plan.forall₂_getElem? q2 hj'
      simp only [entryOf] at hf hf'
      rw [hf] at hgf
      cases hgf
      rw [hdl, hf'] at hgf'
      cases hgf'
      have hij : i ≠ j := by
        rintro rfl
        rw [hi] at hj'
        cases hj'
        exact hne rfl
      rw [List.pairwise_iff_getElem] at f5
      obtain ⟨hi1, hi2⟩ := List.getElem?_eq_some_iff.1 hg
      obtain ⟨hj1, hj2⟩ := List.getElem?_eq_some_iff.1 hg'
      rcases Nat.lt_or_gt_of_ne hij with hlt | hlt
      · left
        have := f5 i j hi1 hj1 hlt
        rw [hi2, hj2] at this
        exact this
      · right
        have := f5 j i hj1 hi1 hlt
        rw [hi2, hj2] at this
        exact this
    · exact hmix d hd1 hl2 e' he' hnin' f f' hf hf'
  · rcases (hlist l e').1 he' with ⟨d', hd1', rfl, rfl⟩ | ⟨he', hnin'⟩
    · rcases hmix d' hd1' hl2 e he hnin f' f hf' hf with h | h
      · exact .inr h
      · exact .inl h
    · exact hl.levels k v hj.here l hl2 e he e' he' hne f f' hf hf'

/-- Files of listed tables do not change. -/
theorem levelsOk_keep {t n n' : Nat} {s s' : Db K R} (hk : Keeps t n s n' s') {k : Nat} {v : Version (Info K)}
    (hat : At s.kv t k v) (h : LevelsOk s.files v) : LevelsOk s'.files v := by
  intro l hl e he e' he' hne f f' hf hf'
  rw [hk.files l e ⟨k, v, hat, he⟩] at hf
  rw [hk.files l e' ⟨k, v, hat, he'⟩] at hf'
  exact h l hl e he e' he' hne f f' hf hf'

theorem jobFor_keep {x : Exec K R} {t n n' : Nat} {s s' : Db K R} {hd hd' : Head} (hreg : TableOk s.kv t n hd)
    (hreg' : TableOk s'.kv t n' hd') (hk : Keeps t n s n' s') {p : Pending K} {k target : Nat} {v : Version (Info K)} {o : Outcome K}
    (h : JobFor x s.kv t p k v target o) : JobFor x s'.kv t p k v target o := by
  refine ⟨hk.versions _ _ h.here, h.expected, h.names, h.inne, h.outne, h.out, h.edits, h.gc, h.level, ?_, h.wal⟩
  intro j u l e hjk hu he d hd
  have hjn : j ≤ n := Nat.le_trans hjk (at_le hreg h.here).2
  rcases Nat.eq_zero_or_pos j with h0 | h0
  · have := (at_le hreg' hu).1
    omega
  · obtain ⟨u', hu', _⟩ := hreg.some j h0 hjn
    rw [at_unique hu (hk.versions _ _ hu')] at he
    exact h.above j u' l e hjk hu' he d hd

theorem flushWrite_rest (ext : R → Option K) (x : Exec K R) (s : Db K R) (count : Nat) (refs : Option (List WalRef)) :
    (flushWrite ext x s count refs).kv = s.kv ∧ (flushWrite ext x s count refs).jobs = s.jobs := by
  unfold flushWrite
  repeat' split
  all_goals exact ⟨rfl, rfl⟩

theorem linv_step {ext : R → Option K} {S : Sorter K} {cfg : PCfg} {x : Exec K R} {t n : Nat} {s : Db K R}
    (h : Inv ext x t n s) (hl : LInv S cfg x t s) (hn : 0 < x.readRows) (op : Lsm.Op K R)
    (hop : ∀ task head skip, op = .start task head skip → ∀ v, Latest s t v → ∃ m, planVersion S cfg v m = some task) :
    LInv S cfg x t (Lsm.step ext x t s op).2 := by
  obtain ⟨n', h', hk⟩ := keeps_step h hn op
  obtain ⟨hd, hreg⟩ := h.reg
  obtain ⟨hd', hreg'⟩ := h'.reg
  -- jobs that were there before
  have hjobs : ∀ p ∈ s.jobs, ∃ k v o task m, JobFor x (Lsm.step ext x t s op).2.kv t p k v task.target o ∧
      resolve v task.input = .ok p.inputs ∧ planVersion S cfg v m = some task := by
    intro p hp
    obtain ⟨k, v, o, task, m, h1, h2⟩ := hl.jobs p hp
    exact ⟨k, v, o, task, m, jobFor_keep hreg hreg' hk h1, h2⟩
  have hsame : (Lsm.step ext x t s op).2.kv = s.kv → ∀ k v, At (Lsm.step ext x t s op).2.kv t k v →
      LevelsOk (Lsm.step ext x t s op).2.files v := by
    intro e k v hv
    rw [e] at hv
    exact levelsOk_keep hk hv (hl.levels k v hv)
  -- one new version
  have hnew : ∀ v', At (Lsm.step ext x t s op).2.kv t (n + 1) v' →
      (∀ k, k ≠ n + 1 → kget (Lsm.step ext x t s op).2.kv (.version t k) = kget s.kv (.version t k)) →
      LevelsOk (Lsm.step ext x t s op).2.files v' → ∀ k v, At (Lsm.step ext x t s op).2.kv t k v →
      LevelsOk (Lsm.step ext x t s op).2.files v := by
    intro v' hv' hkk hlev k v hv
    by_cases hkn : k = n + 1
    · subst hkn
      rw [at_unique hv hv']
      exact hlev
    · have : At s.kv t k v := by
        unfold At at hv ⊢
        rw [← hkk k hkn]
        exact hv
      exact levelsOk_keep hk this (hl.levels k v this)
  cases op with
  | write o => exact ⟨hsame rfl, hjobs⟩
  | flushWrite refs =>
    have e := flushWrite_rest ext x s s.runs.runs.length refs
    refine ⟨hsame e.1, ?_⟩
    change ∀ p ∈ (flushWrite ext x s s.runs.runs.length refs).jobs, _
    rw [e.2]
    exact hjobs
  | flushSome count refs =>
    have e := flushWrite_rest ext x s count refs
    refine ⟨hsame e.1, ?_⟩
    change ∀ p ∈ (flushWrite ext x s count refs).jobs, _
    rw [e.2]
    exact hjobs
  | setWal refs =>
    have hst : (Lsm.step ext x t s (.setWal refs)).2 = setWal t s refs := rfl
    rcases setWal_spec h refs with e | ⟨kv', e, _, v, v', hb, hat, _, hkk, hlst, _⟩
    · exact ⟨hsame (by rw [hst, e]), by rw [hst, e] at hjobs ⊢; exact hjobs⟩
    · refine ⟨?_, by rw [hst, e] at hjobs ⊢; exact hjobs⟩
      refine hnew v' (by rw [hst, e]; exact hat) (by rw [hst, e]; exact hkk) ?_
      rw [hst, e]
      intro l hl2 en hen en' hen'
      have := (hlst l en).1 hen
      exact hl.levels n v (base_sub hb this).2 l hl2 en this en' ((hlst l en').1 hen')
  | flushDrain =>
    have e : (Lsm.step ext x t s .flushDrain).2.kv = s.kv ∧ (Lsm.step ext x t s .flushDrain).2.jobs = s.jobs := by
      change (flushDrain s).kv = s.kv ∧ (flushDrain s).jobs = s.jobs
      unfold flushDrain
      split <;> exact ⟨rfl, rfl⟩
    refine ⟨hsame e.1, ?_⟩
    rw [e.2]
    exact hjobs
  | reopen cap =>
    obtain ⟨k, hal, _⟩ := allocator_spec h
    have e : (Lsm.step ext x t s (.reopen cap)).2.kv = s.kv ∧ (Lsm.step ext x t s (.reopen cap)).2.jobs = [] := by
      unfold Lsm.step
      simp only [reopen, hal, and_self]
    refine ⟨hsame e.1, ?_⟩
    rw [e.2]
    simp
  | flushPublish =>
    have hst : (Lsm.step ext x t s .flushPublish).2 = flushPublish t s := rfl
    cases hfl : s.flushing with
    | idle =>
      have e : flushPublish t s = s := by unfold flushPublish; rw [hfl]
      exact ⟨hsame (by rw [hst, e]), by rw [hst, e] at hjobs ⊢; exact hjobs⟩
    | published c =>
      have e : flushPublish t s = s := by unfold flushPublish; rw [hfl]
      exact ⟨hsame (by rw [hst, e]), by rw [hst, e] at hjobs ⊢; exact hjobs⟩
    | written p c =>
      rcases flushPublish_spec h hfl with ⟨e, _⟩ | ⟨kv', e, _, d, refs, v, v', hpd, hb, hat, _, hkk, hlst, _⟩
      · exact ⟨hsame (by rw [hst, e]), by rw [hst, e] at hjobs ⊢; exact hjobs⟩
      · refine ⟨?_, by rw [hst, e] at hjobs ⊢; exact hjobs⟩
        refine hnew v' (by rw [hst, e]; exact hat) (by rw [hst, e]; exact hkk) ?_
        rw [hst, e]
        simp only
        obtain ⟨d', refs', hpd', hlev⟩ := h.flush p c hfl
        rw [hpd] at hpd'
        simp only [Pending.mk.injEq, List.cons.injEq, and_true, true_and] at hpd'
        obtain ⟨_, rfl⟩ := hpd'
        have hsub : ∀ l, 2 ≤ l → ∀ en ∈ v'.ssts.getD l [], en ∈ v.ssts.getD l [] := by
          intro l hl2 en hen
          rcases (hlst l en).1 hen with ⟨hc, _⟩ | hc
          · omega
          · exact hc
        intro l hl2 en hen en' hen'
        have := hsub l hl2 en hen
        exact hl.levels n v (base_sub hb this).2 l hl2 en this en' (hsub l hl2 en' hen')
  | start task head skip =>
    obtain ⟨s', r, e, _, a2, _, _, a5, _, a7, a8⟩ := start_spec h hn task head skip
    have hst : (Lsm.step ext x t s (.start task head skip)).2 =
        match r with
        | .ready p => { s' with jobs := s'.jobs ++ [p] }
        | _ => s' := by
      unfold Lsm.step
      simp only [e]
      cases r <;> rfl
    have hkv : (Lsm.step ext x t s (.start task head skip)).2.kv = s.kv := by
      rw [hst]; cases r <;> exact a2
    refine ⟨hsame hkv, ?_⟩
    rw [hkv] at hjobs ⊢
    intro p hp
    rw [hst] at hp
    cases r with
    | skipped => rw [a5] at hp; exact hjobs p hp
    | failed err => rw [a5] at hp; exact hjobs p hp
    | done => rw [a5] at hp; exact hjobs p hp
    | ready q =>
      simp only [a5] at hp
      rcases List.mem_append.1 hp with hp | hp
      · exact hjobs p hp
      · rw [List.mem_singleton.1 hp]
        obtain ⟨⟨v, o, b1, b2⟩, _⟩ := a8 q rfl
        obtain ⟨m, hm⟩ := hop task head skip rfl v ((latest_iff h).2 b1.here)
        exact ⟨n, v, o, task, m, b1, b2, hm⟩
  | finish i =>
    cases hi : s.jobs[i]? with
    | none =>
      have hst : (Lsm.step ext x t s (.finish i)).2 = s := by unfold Lsm.step; simp only [hi]
      rw [hst]; exact hl
    | some p =>
      have hst : (Lsm.step ext x t s (.finish i)).2 = (finish t { s with jobs := s.jobs.eraseIdx i } p).1 := by
        unfold Lsm.step; simp only [hi]
      have hp : p ∈ s.jobs := List.mem_of_getElem? hi
      obtain ⟨s', r, e, hres⟩ := finish_spec h hi
      rw [e] at hst
      have hjs : s'.jobs = s.jobs.eraseIdx i := by
        rcases hres with ⟨_, _, _, _, _, _, _, _, _, a⟩ | ⟨_, _, _, _, _, _, _, a, _⟩ <;> exact a
      refine ⟨?_, ?_⟩
      · rcases hres with ⟨_, _, _, hkv, _⟩ | ⟨_, _, hf, _, _, _, _, _, v, v', target, o, hj, hat, _, hkk, hlst, _⟩
        · exact hsame (by rw [hst]; exact hkv)
        · refine hnew v' (by rw [hst]; exact hat) (by rw [hst]; exact hkk) ?_
          rw [hst, hf]
          obtain ⟨k, u, o', task, m, g1, g2, g3⟩ := hl.jobs p hp
          have hkn : k = n := by
            have a := g1.expected
            rw [hj.expected] at a
            simpa using a.symm
          subst hkn
          have huv := at_unique g1.here hj.here
          subst huv
          exact levels_job h hl hp g1 g2 g3 hlst
      · rw [hst] at hjobs ⊢
        rw [hjs]
        exact fun q hq => hjobs q ((List.eraseIdx_sublist _ _).subset hq)

theorem linv_run {ext : R → Option K} {S : Sorter K} {cfg : PCfg} {x : Exec K R} {cap t sv : Nat}
    (hn : 0 < x.readRows) (ops : List (Lsm.Op K R)) (hp : Planned S cfg ext x cap t sv ops) :
    LInv S cfg x t (reached ext x cap t sv ops) := by
  induction ops using List.reverseRecOn with
  | nil =>
    refine ⟨fun k v hv => ?_, by simp [reached, Lsm.run, Db.new]⟩
    obtain ⟨hd, hreg⟩ := (inv_new ext x cap t sv).reg
    have := at_le hreg hv
    omega
  | append_singleton ops op ih =>
    have h1 := ih (fun pre task head skip post e v hv => hp pre task head skip (post ++ [op]) (by rw [e]; simp) v hv)
    have e : reached ext x cap t sv (ops ++ [op]) = (Lsm.step ext x t (reached ext x cap t sv ops) op).2 := by
      unfold reached; rw [run_append]; rfl
    rw [e]
    obtain ⟨n, _, h⟩ := inv_run hn ops (inv_new ext x cap t sv)
    exact linv_step h h1 hn op (fun task head skip ho v hv => hp ops task head skip [] (by rw [ho]) v hv)

end Tonbo.Lemmas.Lsm
