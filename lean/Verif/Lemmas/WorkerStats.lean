import Verif.Spec.Tally
import Verif.Lemmas.WorkerEnds

/-!
# The counters of the compactions
-/

set_option linter.unusedSectionVars false

namespace Tonbo.Lemmas.Worker
open Tonbo.Model Tonbo.Model.Manifest Tonbo.Model.Planner Tonbo.Model.Outcome Tonbo.Model.Lsm Tonbo.Model.Worker
open Tonbo.Model.WStats Tonbo.Lemmas.Manifest Tonbo.Lemmas.Lsm Tonbo.Lemmas.Outcome Tonbo.Spec

variable {K R : Type} [LinearOrder K]

/-! ## The tables before and after a publication -/

theorem mem_levels {α : Type} {L : List (List α)} {a : α} : a ∈ L.flatten ↔ ∃ l, a ∈ L.getD l [] := by
  rw [List.mem_flatten]
  constructor
  · rintro ⟨b, hb, ha⟩
    obtain ⟨l, hl⟩ := List.getElem?_of_mem hb
    exact ⟨l, by rw [List.getD_eq_getElem?_getD, hl]; exact ha⟩
  · rintro ⟨l, ha⟩
    cases hb : L[l]? with
    | none => rw [List.getD_eq_getElem?_getD, hb] at ha; cases ha
    | some b =>
      rw [List.getD_eq_getElem?_getD, hb] at ha
      exact ⟨b, List.mem_of_getElem? hb, ha⟩

theorem listed_at {c : Cfg K R} {n : Nat} {db : Db K R} (h : Inv c.ext c.x c.table n db) {v : Version (Info K)}
    (hv : At db.kv c.table n v) : listedNow c db = v.ssts.flatten := by
  obtain ⟨hd, hok⟩ := h.reg
  unfold listedNow
  rcases snapshotLatest_spec hok with ⟨h0, e⟩ | ⟨h0, u, hu, _, e⟩
  · have := (at_le hok hv).1
    omega
  · rw [e]
    have : u = v := at_unique hu hv
    rw [this]

theorem listed_base {c : Cfg K R} {n : Nat} {db : Db K R} (h : Inv c.ext c.x c.table n db) {v : Version (Info K)}
    (hv : Lemmas.Lsm.Base db.kv c.table n v) : listedNow c db = v.ssts.flatten := by
  rcases Nat.eq_zero_or_pos n with h0 | h0
  · obtain ⟨hd, hok⟩ := h.reg
    rw [hv.2.1 h0]
    unfold listedNow
    rcases snapshotLatest_spec hok with ⟨_, e⟩ | ⟨h1, _⟩
    · rw [e]
      simp [Version.empty]
    · omega
  · exact listed_at h (hv.2.2 h0)

theorem listed_kv {c : Cfg K R} {db db' : Db K R} (h : db'.kv = db.kv) : listedNow c db' = listedNow c db := by
  unfold listedNow; rw [h]

theorem total_kv {c : Cfg K R} {db db' : Db K R} (h : db'.kv = db.kv) (f : SStats K → Nat) :
    listedTotal f c db' = listedTotal f c db := by
  unfold listedTotal; rw [listed_kv h]

theorem tables_nodup {c : Cfg K R} {n : Nat} {db : Db K R} (h : Inv c.ext c.x c.table n db) {v : Version (Info K)}
    (hv : At db.kv c.table n v) : v.ssts.flatten.Nodup := by
  have hvo := version_at h hv
  rw [List.nodup_flatten]
  constructor
  · intro b hb
    obtain ⟨l, hl⟩ := List.getElem?_of_mem hb
    have := level_nodup hvo l
    rw [List.getD_eq_getElem?_getD, hl] at this
    exact this
  · rw [List.pairwise_iff_getElem]
    intro i j hi hj hij e h1 h2
    have g1 : e ∈ v.ssts.getD i [] := by
      rw [List.getD_eq_getElem?_getD, List.getElem?_eq_getElem hi]; exact h1
    have g2 : e ∈ v.ssts.getD j [] := by
      rw [List.getD_eq_getElem?_getD, List.getElem?_eq_getElem hj]; exact h2
    have := (h.uniq i e j e ⟨n, v, hv, g1⟩ ⟨n, v, hv, g2⟩ rfl).1
    omega

theorem entryOf_names {v : Version (Info K)} {d : Desc K} (h : Names v d) : entryOf d ∈ v.ssts.getD d.level [] := by
  have := h.1
  unfold entryOf
  rw [h.2]
  exact this

/-- A published job takes its inputs away and adds its outputs, each once. -/
theorem finish_tables {c : Cfg K R} {n : Nat} {s : Db K R} (h : Inv c.ext c.x c.table n s) {i : Nat} {p : Pending K}
    (hi : s.jobs[i]? = some p) (hin : (p.inputs.map (fun d => Input.mk d.level d.id)).Nodup) {m : Nat}
    (hf : (finish c.table { s with jobs := s.jobs.eraseIdx i } p).2 = .ok m) :
    (listedNow c (Lsm.step c.ext c.x c.table s (.finish i)).2 ++ p.inputs.map entryOf).Perm
      (listedNow c s ++ p.outputs.map entryOf) ∧
    (∀ d ∈ p.inputs, d.stats.isSome) ∧ (∀ d ∈ p.outputs, d.stats.isSome) := by
  have e2 : (Lsm.step c.ext c.x c.table s (.finish i)).2 = (finish c.table { s with jobs := s.jobs.eraseIdx i } p).1 := by
    unfold Lsm.step; simp only [hi]
  rw [e2]
  have hpj : p ∈ s.jobs := List.mem_of_getElem? hi
  have hpend : p ∈ pendings s := List.mem_append_right _ hpj
  obtain ⟨s', r, e, hc⟩ := finish_spec h hi
  rw [e] at hf ⊢
  simp only at hf ⊢
  subst hf
  rcases hc with ⟨err, h1, _⟩ | ⟨_, hI, _, _, _, _, _, _, v, v', tg, o, hjf, hat, hvo', _, hl, _⟩
  · cases h1
  have hstats : ∀ d : Desc K, DescOk s.files s.next d → d.stats.isSome := by
    intro d hd
    obtain ⟨_, _, _, f, _, hfo⟩ := hd
    obtain ⟨st, hst, _⟩ := hfo.stats
    have : d.stats = some st := hst
    rw [this]
    rfl
  refine ⟨?_, fun d hd => hstats d (names_descOk h.ent hjf.here (hjf.names d hd)),
    fun d hd => hstats d (h.pend p hpend d hd).1⟩
  rw [listed_at hI hat, listed_at h hjf.here]
  have hids : (p.outputs.map (·.id)).Nodup := by
    have := h.apart
    unfold pendIds at this
    exact (List.nodup_flatMap.1 this).1 p hpend
  have nodupOut : (p.outputs.map entryOf).Nodup := by
    rw [List.Nodup, List.pairwise_map] at hids ⊢
    exact hids.imp (fun hne hc => hne (congrArg Entry.id hc))
  have nodupIn : (p.inputs.map entryOf).Nodup := by
    rw [List.Nodup, List.pairwise_map] at hin ⊢
    refine List.Pairwise.imp_of_mem ?_ hin
    intro a b ha hb hne hc
    have := (h.uniq _ _ _ _ ⟨n, v, hjf.here, entryOf_names (hjf.names a ha)⟩
      ⟨n, v, hjf.here, entryOf_names (hjf.names b hb)⟩ (congrArg Entry.id hc)).1
    exact hne (by rw [this, show a.id = b.id from congrArg Entry.id hc])
  have above : ∀ e l, e ∈ v.ssts.getD l [] → ∀ d ∈ p.outputs, e.id < d.id :=
    fun e l he d hd => hjf.above n v l e (Nat.le_refl _) hjf.here he d hd
  rw [List.perm_ext_iff_of_nodup]
  · intro e
    simp only [List.mem_append, mem_levels, List.mem_map]
    constructor
    · rintro (⟨l, he⟩ | ⟨d, hd, rfl⟩)
      · rcases (hl l e).1 he with ⟨d, hd, _, rfl⟩ | ⟨h1, _⟩
        · exact .inr ⟨d, hd, rfl⟩
        · exact .inl ⟨l, h1⟩
      · exact .inl ⟨d.level, entryOf_names (hjf.names d hd)⟩
    · rintro (⟨l, he⟩ | ⟨d, hd, rfl⟩)
      · by_cases hx : ∃ d ∈ p.inputs, d.level = l ∧ d.id = e.id
        · obtain ⟨d, hd, hdl, hid⟩ := hx
          refine .inr ⟨d, hd, ?_⟩
          exact (h.uniq _ _ _ _ ⟨n, v, hjf.here, entryOf_names (hjf.names d hd)⟩ ⟨n, v, hjf.here, he⟩ hid).2
        · exact .inl ⟨l, (hl l e).2 (.inr ⟨he, fun d hd hc => hx ⟨d, hd, hc⟩⟩)⟩
      · exact .inl ⟨d.level, (hl _ _).2 (.inl ⟨d, hd, rfl, rfl⟩)⟩
  · rw [List.nodup_append]
    refine ⟨tables_nodup hI hat, nodupIn, ?_⟩
    intro e he e' he' hee
    subst hee
    obtain ⟨l, he⟩ := mem_levels.1 he
    obtain ⟨d, hd, rfl⟩ := List.mem_map.1 he'
    have hdv := entryOf_names (hjf.names d hd)
    rcases (hl l _).1 he with ⟨d', hd', _, hc⟩ | ⟨h1, h2⟩
    · have := above _ _ hdv d' hd'
      rw [hc] at this
      exact lt_irrefl _ this
    · have := (h.uniq _ _ _ _ ⟨n, v, hjf.here, hdv⟩ ⟨n, v, hjf.here, h1⟩ rfl).1
      exact h2 d hd ⟨this, rfl⟩
  · rw [List.nodup_append]
    refine ⟨tables_nodup h hjf.here, nodupOut, ?_⟩
    intro e he e' he' hee
    subst hee
    obtain ⟨l, he⟩ := mem_levels.1 he
    obtain ⟨d, hd, rfl⟩ := List.mem_map.1 he'
    exact lt_irrefl _ (above _ _ he d hd)

theorem finish_total {c : Cfg K R} {n : Nat} {s : Db K R} (h : Inv c.ext c.x c.table n s) {i : Nat} {p : Pending K}
    (hi : s.jobs[i]? = some p) (hin : (p.inputs.map (fun d => Input.mk d.level d.id)).Nodup) {m : Nat}
    (hf : (finish c.table { s with jobs := s.jobs.eraseIdx i } p).2 = .ok m) (f : SStats K → Nat) :
    listedTotal f c (Lsm.step c.ext c.x c.table s (.finish i)).2 + (p.inputs.map (fun d => statOf f d.stats)).sum =
      listedTotal f c s + (p.outputs.map (fun d => statOf f d.stats)).sum := by
  have := ((finish_tables h hi hin hf).1.map (fun e => statOf f e.info.stats)).sum_eq
  simp only [List.map_append, List.sum_append, List.map_map] at this
  exact this

/-- A published flush adds its table. -/
theorem flush_total {c : Cfg K R} {n : Nat} {s : Db K R} (h : Inv c.ext c.x c.table n s) (f : SStats K → Nat) :
    listedTotal f c (flushPublish c.table s) = listedTotal f c s +
      (match s.flushing, (flushPublish c.table s).flushing with
       | .written p _, .published _ => (p.outputs.map (fun d => statOf f d.stats)).sum
       | _, _ => 0) := by
  cases hfl : s.flushing with
  | idle =>
    have : flushPublish c.table s = s := by unfold flushPublish; rw [hfl]
    rw [this]; rfl
  | published k =>
    have : flushPublish c.table s = s := by unfold flushPublish; rw [hfl]
    rw [this]; rfl
  | written p k =>
    rcases flushPublish_spec h hfl with ⟨e, _⟩ | ⟨kv', e, hI, d, refs, v, v', hp, hb, hat, hvo', _, hl, _⟩
    · rw [e]; exact total_kv rfl f
    · have hpend : p ∈ pendings s := by unfold pendings; rw [hfl]; simp
      have hnot : ∀ l, entryOf d ∉ v.ssts.getD l [] := by
        intro l he
        obtain ⟨_, ha⟩ := base_sub hb he
        have := (h.pend p hpend d (by rw [hp]; simp)).2 l _ ⟨n, v, ha, he⟩
        exact this rfl
      have hat' : At (flushPublish c.table s).kv c.table (n + 1) v' := by rw [e]; exact hat
      have hperm : (v'.ssts.flatten).Perm (v.ssts.flatten ++ [entryOf d]) := by
        rw [List.perm_ext_iff_of_nodup (tables_nodup hI hat')]
        · intro e
          simp only [List.mem_append, mem_levels, List.mem_singleton]
          constructor
          · rintro ⟨l, he⟩
            rcases (hl l e).1 he with ⟨_, rfl⟩ | h1
            · exact .inr rfl
            · exact .inl ⟨l, h1⟩
          · rintro (⟨l, he⟩ | rfl)
            · exact ⟨l, (hl l e).2 (.inr he)⟩
            · exact ⟨d.level, (hl _ _).2 (.inl ⟨rfl, rfl⟩)⟩
        · rw [List.nodup_append]
          refine ⟨?_, by simp, ?_⟩
          · rcases Nat.eq_zero_or_pos n with h0 | h0
            · rw [hb.2.1 h0]
              simp [Version.empty]
            · exact tables_nodup h (hb.2.2 h0)
          · intro e he e' he' hee
            subst hee
            rw [List.mem_singleton] at he'
            subst he'
            obtain ⟨l, he⟩ := mem_levels.1 he
            exact hnot l he
      have hsum := (hperm.map (fun e => statOf f e.info.stats)).sum_eq
      have e3 : (flushPublish c.table s).flushing = .published k := by rw [e]
      rw [e3]
      unfold listedTotal
      rw [listed_at hI hat', listed_base h hb, hsum]
      rw [hp]
      simp [entryOf]

theorem setWal_total {c : Cfg K R} {n : Nat} {s : Db K R} (h : Inv c.ext c.x c.table n s) (refs : List WalRef)
    (f : SStats K → Nat) : listedTotal f c (setWal c.table s refs) = listedTotal f c s := by
  rcases setWal_spec h refs with e | ⟨kv', e, hI, v, v', hb, hat, hvo', _, hl, _⟩
  · rw [e]
  · have hat' : At (setWal c.table s refs).kv c.table (n + 1) v' := by rw [e]; exact hat
    have hperm : (v'.ssts.flatten).Perm v.ssts.flatten := by
      rw [List.perm_ext_iff_of_nodup (tables_nodup hI hat')]
      · intro e
        simp only [mem_levels, hl]
      · rcases Nat.eq_zero_or_pos n with h0 | h0
        · rw [hb.2.1 h0]
          simp [Version.empty]
        · exact tables_nodup h (hb.2.2 h0)
    unfold listedTotal
    rw [listed_at hI hat', listed_base h hb]
    exact (hperm.map _).sum_eq

/-! ## What a step records -/

/-- Nothing about jobs is recorded. -/
def Calm (k k' : Counters) : Prop :=
  k' = { k with plannerFull := k'.plannerFull, cascadeFull := k'.cascadeFull, scheduled := k'.scheduled,
                blockedCooldown := k'.blockedCooldown, blockedBudget := k'.blockedBudget, kick := k'.kick,
                periodic := k'.periodic }

theorem calm_refl (k : Counters) : Calm k k := rfl

theorem noteStart_cases {c : Cfg K R} {n : Nat} {w : W K R} (h : Inv c.ext c.x c.table n w.db)
    {j : Model.Worker.Job K} {a : Nat} (hr : RunOk n (j, .popped a)) (skip ms : Nat) (k : Counters) :
    noteStart c w j skip a ms k = k ∨
    ∃ ins e, noteStart c w j skip a ms k = k.abort (summary j ins [] ms 0 false) ∧
      (start c.x c.table w.db j.task j.head skip).2 = .failed e := by
  obtain ⟨hd, hok⟩ := h.reg
  obtain ⟨m, hm1, hm2, hm3, hm4⟩ := hr
  simp only at hm3 hm4
  unfold noteStart start
  rcases snapshotLatest_spec hok with ⟨h0, es⟩ | ⟨h0, v, hv, hts, es⟩
  · omega
  rw [es]
  simp only
  by_cases hc : j.head ≠ none ∧ hd.last ≠ j.head
  · rw [if_pos hc]; exact .inl rfl
  rw [if_neg hc, if_neg hc]
  have ha : a = 1 := by
    have hmn : m = n := by
      by_contra hne
      apply hc
      rw [hm3]
      refine ⟨by simp, ?_⟩
      rw [hok.last, lastOf_pos h0]
      simpa using fun hx : n = m => hne hx.symm
    rcases hm4 with h1 | ⟨_, h1⟩
    · exact h1
    · omega
  subst ha
  cases hres : resolve v j.task.input with
  | error e => exact .inl rfl
  | ok ins =>
    simp only
    rcases hex : execute c.x w.db j.task.target ins skip with ⟨s', r⟩
    cases r with
    | error e => exact .inr ⟨ins, e, rfl, rfl⟩
    | ok outs =>
      simp only
      cases hout : outcomeOf v ((walFloor w.db.kv c.table).toOption.join) j.task.target ins outs with
      | none => exact .inr ⟨ins, _, rfl, rfl⟩
      | some o =>
        simp only
        cases gcPlan o with
        | none => exact .inl rfl
        | some plan =>
          simp only
          rw [if_neg (outcomeOf_edits hout)]
          exact .inl rfl

theorem noteFail_cases {c : Cfg K R} {n : Nat} {w : W K R} (h : Inv c.ext c.x c.table n w.db)
    {js : List (Model.Worker.Job K × Stage K)} (hph : w.phase = .draining js) {i : Nat} {j : Model.Worker.Job K} {a : Nat}
    (hi : js[i]? = some (j, .popped a)) (hr : RunOk n (j, .popped a)) (ms : Nat) (k : Counters) :
    noteFail c w i ms k = k ∨ ∃ ins, noteFail c w i ms k = k.abort (summary j ins [] ms 0 false) := by
  obtain ⟨hd, hok⟩ := h.reg
  obtain ⟨m, hm1, hm2, hm3, hm4⟩ := hr
  simp only at hm3 hm4
  unfold noteFail
  rw [hph]
  simp only
  rw [hi]
  simp only
  rcases snapshotLatest_spec hok with ⟨h0, es⟩ | ⟨h0, v, hv, hts, es⟩
  · omega
  rw [es]
  simp only
  by_cases hc : j.head ≠ none ∧ hd.last ≠ j.head
  · rw [if_pos hc]; exact .inl rfl
  rw [if_neg hc]
  have ha : a = 1 := by
    have hmn : m = n := by
      by_contra hne
      apply hc
      rw [hm3]
      refine ⟨by simp, ?_⟩
      rw [hok.last, lastOf_pos h0]
      simpa using fun hx : n = m => hne hx.symm
    rcases hm4 with h1 | ⟨_, h1⟩
    · exact h1
    · omega
  subst ha
  cases hres : resolve v j.task.input with
  | error e => exact .inl rfl
  | ok ins => exact .inr ⟨ins, rfl⟩

/-- What a step of a job does and records. -/
theorem noteAct_cases {c : Cfg K R} (hn : 0 < c.x.readRows) {n : Nat} {w : W K R} (hB : Base c n w) (hS : Shaped c w)
    {js : List (Model.Worker.Job K × Stage K)} (hph : w.phase = .draining js) {i : Nat} {j : Model.Worker.Job K}
    {st : Stage K} (hi : js[i]? = some (j, st)) (now skip ms : Nat) (k : Counters) :
    (Calm k (noteAct c w j now skip ms k st) ∧ (act c w j now skip st).1.db.kv = w.db.kv ∧
      ((act c w j now skip st).1.done = w.done ∨
        ∃ f, (f = .skipped ∨ f = .failed) ∧ (act c w j now skip st).1.done = w.done ++ [(j, f)])) ∨
    (∃ S, noteAct c w j now skip ms k st = k.abort S ∧ S.retries = 0 ∧ S.aborted = false ∧
      (act c w j now skip st).1.db.kv = w.db.kv ∧ (act c w j now skip st).1.done = w.done ++ [(j, .failed)]) ∨
    (∃ p : Pending K, noteAct c w j now skip ms k st = k.success (summary j p.inputs p.outputs ms 0 false) ∧
      (act c w j now skip st).1.done = w.done ++ [(j, .published)] ∧
      (∀ f, listedTotal f c (act c w j now skip st).1.db + (p.inputs.map (fun d => statOf f d.stats)).sum =
        listedTotal f c w.db + (p.outputs.map (fun d => statOf f d.stats)).sum) ∧
      (∀ d ∈ p.inputs, d.stats.isSome) ∧ (∀ d ∈ p.outputs, d.stats.isSome) ∧
      (listedNow c (act c w j now skip st).1.db).length + p.inputs.length =
        (listedNow c w.db).length + p.outputs.length) := by
  have hmem := List.mem_of_getElem? hi
  have hP := hB.phase
  rw [hph] at hP
  have hrun := hP _ hmem
  have hw : ∀ a p, st = .merged a p → p ∈ w.db.jobs := by
    intro a p hs
    have := hB.perm
    rw [hph] at this
    rw [this.mem_iff]
    unfold waitings
    rw [List.mem_filterMap]
    exact ⟨_, hmem, by rw [hs]; rfl⟩
  have hsh := hS.2
  rw [hph] at hsh
  obtain ⟨_, g2⟩ := hsh _ hmem
  cases st with
  | popped a =>
    obtain ⟨m, hm1, _, hm3, _⟩ := id hrun
    simp only at hm3
    have hkv : (Lsm.step c.ext c.x c.table w.db (.start j.task j.head skip)).2.kv = w.db.kv := by
      rw [hm3]
      exact (start_cases (ext := c.ext) hB.inv hn j.task m skip hm1).2.1
    have hsd : ∀ w' : W K R, (match (start c.x c.table w.db j.task j.head skip).2 with
        | .done => False | _ => True) := by
      intro _
      rw [hm3]
      rcases (start_cases (ext := c.ext) hB.inv hn j.task m skip hm1).2.2 with ⟨_, e, _⟩ | ⟨_, ⟨_, e, _⟩ | ⟨_, e, _⟩⟩ <;>
        rw [e] <;> trivial
    rcases noteStart_cases hB.inv hrun skip ms k with e | ⟨ins, err, e, e'⟩
    · left
      refine ⟨by simp only [noteAct]; rw [e]; exact calm_refl k, ?_⟩
      unfold act
      simp only
      cases hr : (start c.x c.table w.db j.task j.head skip).2 with
      | skipped => exact ⟨hkv, .inr ⟨_, .inl rfl, rfl⟩⟩
      | failed e => exact ⟨hkv, .inr ⟨_, .inr rfl, rfl⟩⟩
      | done =>
        have := hsd w
        rw [hr] at this
        exact this.elim
      | ready p => exact ⟨hkv, .inl rfl⟩
    · right; left
      refine ⟨_, e, rfl, rfl, ?_⟩
      unfold act
      simp only
      rw [e']
      exact ⟨hkv, rfl⟩
  | merged a p =>
    obtain ⟨m, hm1, _, hm3, hm4⟩ := id hrun
    simp only at hm3 hm4
    have hidx : w.db.jobs[w.db.jobs.idxOf p]? = some p := List.getElem?_idxOf (hw a p rfl)
    obtain ⟨_, g⟩ := finish_cases hB.inv hidx hm1 hm4.2
    have ha := hm4.1
    subst ha
    rcases g with ⟨_, _, hkv, e⟩ | ⟨_, _, e⟩
    · left
      unfold act noteAct noteFinish
      simp only
      rw [e]
      simp only
      rw [if_neg (by omega), if_neg (by omega)]
      exact ⟨calm_refl k, hkv, .inl rfl⟩
    · right; right
      obtain ⟨t1, t2, t3⟩ := finish_tables hB.inv hidx g2.2.2.2 e
      refine ⟨p, ?_, ?_, ?_, t2, t3, ?_⟩
      · unfold noteAct noteFinish
        simp only
        rw [e]
      · unfold act
        simp only
        rw [e]
        rfl
      · intro f
        have := finish_total hB.inv hidx g2.2.2.2 e f
        unfold act
        simp only
        rw [e]
        exact this
      · have := t1.length_eq
        rw [List.length_append, List.length_append, List.length_map, List.length_map] at this
        unfold act
        simp only
        rw [e]
        exact this
  | ended =>
    left
    refine ⟨?_, ?_⟩
    · simp only [noteAct]
      split_ifs
      · split <;> rfl
      · rfl
    · unfold act
      split_ifs
      · cases w.control.acquire now with
        | mk vd k =>
          cases vd with
          | allowed =>
            simp only
            cases planFrom c w.db 1 with
            | none => exact ⟨rfl, .inl rfl⟩
            | some t => exact ⟨rfl, .inl rfl⟩
          | budget => exact ⟨rfl, .inl rfl⟩
          | cooldown => exact ⟨rfl, .inl rfl⟩
      · exact ⟨rfl, .inl rfl⟩
  | follow t =>
    left
    refine ⟨?_, ?_⟩
    · simp only [noteAct]
      split
      · rfl
      · split <;> rfl
    · unfold act
      cases noteHead c w.db with
      | none => exact ⟨rfl, .inl rfl⟩
      | some hd =>
        simp only
        cases enqueue c w.queue ⟨t, hd⟩ with
        | none => exact ⟨rfl, .inl rfl⟩
        | some q => exact ⟨rfl, .inl rfl⟩
  | over => exact .inl ⟨rfl, rfl, .inl rfl⟩

theorem turn_kv (c : Cfg K R) (w : W K R) : (Model.Worker.turn c w).db = w.db ∧ (Model.Worker.turn c w).done = w.done := by
  unfold Model.Worker.turn
  split
  · split_ifs <;> exact ⟨rfl, rfl⟩
  · exact ⟨rfl, rfl⟩
  · split <;> exact ⟨rfl, rfl⟩
  · split
    · exact ⟨rfl, rfl⟩
    · split <;> exact ⟨rfl, rfl⟩
  · split_ifs <;> exact ⟨rfl, rfl⟩

theorem noteTurn_calm (c : Cfg K R) (w : W K R) (b : Bool) (k : Counters) : Calm k (noteTurn c w b k) := by
  unfold noteTurn Counters.trigger
  split
  · split_ifs <;> rfl
  · split
    · rfl
    · split <;> rfl
  · split_ifs <;> rfl
  · rfl

/-- What a step records, and what it does. -/
inductive Told (c : Cfg K R) (w w' : W K R) (k k' : Counters) (ms : Nat) (gain : (SStats K → Nat) → Nat) : Prop
  | calm (h : Calm k k') (total : ∀ f, listedTotal f c w'.db = listedTotal f c w.db + gain f)
      (done : w'.done = w.done ∨ ∃ j f, (f = .skipped ∨ f = .failed) ∧ w'.done = w.done ++ [(j, f)])
  | abort (S : Summary) (j : Model.Worker.Job K) (h : k' = k.abort S) (r : S.retries = 0) (a : S.aborted = false)
      (total : ∀ f, listedTotal f c w'.db = listedTotal f c w.db) (g : ∀ f, gain f = 0)
      (done : w'.done = w.done ++ [(j, .failed)])
  | success (ins outs : List (Desc K)) (j : Model.Worker.Job K) (h : k' = k.success (summary j ins outs ms 0 false))
      (total : ∀ f, listedTotal f c w'.db + (ins.map (fun d => statOf f d.stats)).sum =
        listedTotal f c w.db + (outs.map (fun d => statOf f d.stats)).sum) (g : ∀ f, gain f = 0)
      (hi : ∀ d ∈ ins, d.stats.isSome) (ho : ∀ d ∈ outs, d.stats.isSome)
      (done : w'.done = w.done ++ [(j, .published)])
      (len : (listedNow c w'.db).length + ins.length = (listedNow c w.db).length + outs.length)

theorem flushGain_zero {c : Cfg K R} {w : W K R} {op : Model.Worker.Op K R} (h : op ≠ .other .flushPublish)
    (f : SStats K → Nat) : flushGain f c w op = 0 := by
  unfold flushGain
  split
  · exact absurd rfl h
  · rfl

theorem foreign_kv (ext : R → Option K) (x : Exec K R) (t : Nat) (s : Db K R) (op : Lsm.Op K R) (hf : foreign op = true)
    (h1 : op ≠ .flushPublish) (h2 : ∀ refs, op ≠ .setWal refs) : (Lsm.step ext x t s op).2.kv = s.kv := by
  have fw : ∀ count refs, (flushWrite ext x s count refs).kv = s.kv := by
    intro count refs
    unfold flushWrite
    split
    · split_ifs
      · rfl
      · split
        · rfl
        · split <;> rfl
    · rfl
  cases op with
  | write o => rfl
  | flushWrite refs => exact fw _ _
  | flushSome count refs => exact fw _ _
  | setWal refs => exact absurd rfl (h2 refs)
  | flushPublish => exact absurd rfl h1
  | flushDrain =>
    change (flushDrain s).kv = _
    unfold flushDrain
    split <;> rfl
  | start t h sk => cases hf
  | finish i => cases hf
  | reopen cap => cases hf

theorem told {c : Cfg K R} (hn : 0 < c.x.readRows) {n : Nat} {o : O K R} (hB : Base c n o.w) (hS : Shaped c o.w)
    (s : Model.Worker.Op K R × Nat × Bool) (hs : ∀ cap, s.1 ≠ .restart cap) :
    Told c o.w (obs c o s).w o.k (obs c o s).k s.2.1 (fun f => flushGain f c o.w s.1) := by
  obtain ⟨op, ms, b⟩ := s
  cases op with
  | restart cap => exact absurd rfl (hs cap)
  | trigger => exact .calm rfl (fun f => by rw [flushGain_zero (by simp)]; rfl) (.inl rfl)
  | turn =>
    refine .calm (noteTurn_calm c o.w b o.k) (fun f => ?_) (.inl (turn_kv c o.w).2)
    rw [flushGain_zero (by simp)]
    exact total_kv (congrArg Db.kv (turn_kv c o.w).1) f
  | fail i =>
    unfold obs
    simp only
    change Told c o.w (failStep o.w i) _ (noteFail c o.w i ms o.k) _ _
    rcases fail_cases o.w i with e | ⟨js, j, a, hph, hi, e⟩
    · -- nothing to fail
      have : noteFail c o.w i ms o.k = o.k := by
        unfold noteFail
        unfold failStep at e
        cases hph : o.w.phase with
        | draining js =>
          rw [hph] at e
          simp only at e ⊢
          cases hi : js[i]? with
          | none => rfl
          | some r =>
            rw [hi] at e
            obtain ⟨j, st⟩ := r
            cases st with
            | popped a =>
              exfalso
              have := congrArg (fun w : W K R => w.done.length) e
              simp [W.note] at this
            | _ => rfl
        | _ => rfl
      rw [this, e]
      exact .calm rfl (fun f => by rw [flushGain_zero (by simp)]; rfl) (.inl rfl)
    · have hP := hB.phase
      rw [hph] at hP
      have hq := noteFail_cases hB.inv hph hi (hP _ (List.mem_of_getElem? hi)) ms o.k
      rw [e]
      rcases hq with hq | ⟨ins, hq⟩
      · rw [hq]
        exact .calm rfl (fun f => by rw [flushGain_zero (by simp)]; rfl) (.inr ⟨j, _, .inr rfl, rfl⟩)
      · rw [hq]
        exact .abort _ j rfl rfl rfl (fun f => total_kv rfl f) (fun f => flushGain_zero (by simp) f) rfl
  | job i now skip =>
    unfold obs
    simp only
    change Told c o.w (jobStep c o.w i now skip) _ _ _ _
    unfold jobStep
    cases hph : o.w.phase with
    | draining js =>
      simp only
      cases hi : js[i]? with
      | none => exact .calm rfl (fun f => by rw [flushGain_zero (by simp)]; rfl) (.inl rfl)
      | some r =>
        obtain ⟨j, st⟩ := r
        simp only
        rcases noteAct_cases hn hB hS hph hi now skip ms o.k with ⟨h1, h2, h3⟩ | ⟨S, h1, h2, h3, h4, h5⟩ | ⟨p, h1, h2, h3, h4, h5, h6⟩
        · refine .calm h1 (fun f => ?_) ?_
          · rw [flushGain_zero (by simp)]
            exact total_kv h2 f
          · rcases h3 with h3 | ⟨f, hf, h3⟩
            · exact .inl h3
            · exact .inr ⟨j, f, hf, h3⟩
        · exact .abort S j h1 h2 h3 (fun f => total_kv h4 f) (fun f => flushGain_zero (by simp) f) h5
        · exact .success p.inputs p.outputs j h1 h3 (fun f => flushGain_zero (by simp) f) h4 h5 h2 h6
    | _ => exact .calm rfl (fun f => by rw [flushGain_zero (by simp)]; rfl) (.inl rfl)
  | other op =>
    unfold obs
    simp only
    by_cases hf : foreign op = true
    · have e : Model.Worker.step c o.w (.other op) = { o.w with db := (Lsm.step c.ext c.x c.table o.w.db op).2 } := by
        unfold Model.Worker.step
        simp only
        rw [if_pos hf]
      rw [e]
      by_cases h1 : op = .flushPublish
      · subst h1
        refine .calm rfl (fun f => ?_) (.inl rfl)
        refine (flush_total hB.inv f).trans ?_
        unfold flushGain
        rw [e]
        have e3 : (Lsm.step c.ext c.x c.table o.w.db .flushPublish).2 = flushPublish c.table o.w.db := rfl
        simp only [e3]
        generalize (flushPublish c.table o.w.db).flushing = b
        cases o.w.db.flushing <;> cases b <;> rfl
      · refine .calm rfl (fun f => ?_) (.inl rfl)
        rw [flushGain_zero (by simpa using h1)]
        by_cases h2 : ∃ refs, op = .setWal refs
        · obtain ⟨refs, rfl⟩ := h2
          exact setWal_total hB.inv refs f
        · exact total_kv (foreign_kv _ _ _ _ _ hf h1 (fun refs hc => h2 ⟨refs, hc⟩)) f
    · have e : Model.Worker.step c o.w (.other op) = o.w := by
        unfold Model.Worker.step
        simp only
        rw [if_neg hf]
      rw [e]
      refine .calm rfl (fun f => ?_) (.inl rfl)
      rw [flushGain_zero (by rintro ⟨⟩; exact hf rfl)]
      rfl

/-! ## The sums -/

theorem satAdd_exact {a b : Nat} (h : satAdd a b < top) : satAdd a b = a + b := by
  unfold satAdd at h ⊢; omega

theorem le_satAdd {a : Nat} (b : Nat) (h : a ≤ top) : a ≤ satAdd a b := by unfold satAdd; omega

theorem satAdd_le (a b : Nat) : satAdd a b ≤ top := by unfold satAdd; omega

theorem io_fold (m : Measure) : ∀ (ds : List (Desc K)) (s : Io), (∀ d ∈ ds, d.stats.isSome) → m.side s ≤ top →
    m.side (ds.foldl Io.add s) = min (m.side s + (ds.map (fun d => statOf m.stat d.stats)).sum) top ∧
    (ds.foldl Io.add s).complete = s.complete
  | [], s, _, h => by simp [h]
  | d :: ds, s, hd, h => by
    obtain ⟨t, ht⟩ := Option.isSome_iff_exists.1 (hd d (by simp))
    have h1 : m.side (Io.add s d) = satAdd (m.side s) (m.stat t) ∧ (Io.add s d).complete = s.complete := by
      unfold Io.add
      rw [ht]
      cases m <;> exact ⟨rfl, rfl⟩
    obtain ⟨g1, g2⟩ := io_fold m ds (Io.add s d) (fun d' hd' => hd d' (by simp [hd'])) (by rw [h1.1]; exact satAdd_le _ _)
    rw [List.foldl_cons, g1, g2, h1.1, h1.2, List.map_cons, List.sum_cons]
    refine ⟨?_, rfl⟩
    have : statOf m.stat d.stats = m.stat t := by rw [ht]; rfl
    rw [this]
    unfold satAdd
    omega

theorem io_of (m : Measure) {ds : List (Desc K)} (h : ∀ d ∈ ds, d.stats.isSome) :
    m.side (Io.of ds) = min (ds.map (fun d => statOf m.stat d.stats)).sum top ∧ (Io.of ds).complete = true := by
  obtain ⟨h1, h2⟩ := io_fold m ds Io.zero h (by cases m <;> exact Nat.zero_le _)
  unfold Io.of
  rw [h1, h2]
  refine ⟨?_, rfl⟩
  have : m.side Io.zero = 0 := by cases m <;> rfl
  rw [this, Nat.zero_add]

theorem success_sides (m : Measure) (k : Counters) (S : Summary) (h1 : S.input.complete = true)
    (h2 : S.output.complete = true) :
    m.taken (k.success S) = satAdd (m.taken k) (m.side S.input) ∧
    m.written (k.success S) = satAdd (m.written k) (m.side S.output) := by
  unfold Counters.success
  rw [h1, h2]
  cases m <;> exact ⟨rfl, rfl⟩

theorem abort_sides (m : Measure) (k : Counters) (S : Summary) :
    m.taken (k.abort S) = m.taken k ∧ m.written (k.abort S) = m.written k := by
  cases m <;> exact ⟨rfl, rfl⟩

theorem calm_sides (m : Measure) {k k' : Counters} (h : Calm k k') :
    m.taken k' = m.taken k ∧ m.written k' = m.written k := by
  rw [h]
  cases m <;> exact ⟨rfl, rfl⟩

/-- The counters hold what 64 bits hold. -/
def Capped (k : Counters) : Prop := k.jobs ≤ top ∧ k.failures ≤ top ∧ k.kick ≤ top ∧ k.periodic ≤ top ∧
  ∀ m : Measure, m.taken k ≤ top ∧ m.written k ≤ top

theorem capped_new : Capped {} := by
  refine ⟨Nat.zero_le _, Nat.zero_le _, Nat.zero_le _, Nat.zero_le _, fun m => ?_⟩
  cases m <;> exact ⟨Nat.zero_le _, Nat.zero_le _⟩

theorem sides_step {c : Cfg K R} {w w' : W K R} {k k' : Counters} {ms : Nat} {gain : (SStats K → Nat) → Nat}
    (h : Told c w w' k k' ms gain) (m : Measure) (hk : m.taken k ≤ top ∧ m.written k ≤ top) :
    (m.taken k ≤ m.taken k' ∧ m.written k ≤ m.written k' ∧ m.taken k' ≤ top ∧ m.written k' ≤ top) ∧
    (m.taken k' < top → m.written k' < top →
      listedTotal m.stat c w'.db + m.taken k' + m.written k =
        listedTotal m.stat c w.db + m.written k' + m.taken k + gain m.stat) := by
  cases h with
  | calm h total done =>
    obtain ⟨h1, h2⟩ := calm_sides m h
    rw [h1, h2, total]
    exact ⟨⟨Nat.le_refl _, Nat.le_refl _, hk.1, hk.2⟩, fun _ _ => by omega⟩
  | abort S j h r a total g done =>
    obtain ⟨h1, h2⟩ := abort_sides m k S
    rw [h, h1, h2, total, g]
    exact ⟨⟨Nat.le_refl _, Nat.le_refl _, hk.1, hk.2⟩, fun _ _ => by omega⟩
  | success ins outs j h total g hi ho done len =>
    obtain ⟨i1, i2⟩ := io_of m hi
    obtain ⟨o1, o2⟩ := io_of m ho
    obtain ⟨h1, h2⟩ := success_sides m k (summary j ins outs ms 0 false) i2 o2
    rw [h, h1, h2, g]
    refine ⟨⟨le_satAdd _ hk.1, le_satAdd _ hk.2, satAdd_le _ _, satAdd_le _ _⟩, fun g1 g2 => ?_⟩
    have e1 := satAdd_exact g1
    have e2 := satAdd_exact g2
    rw [e1] at g1 ⊢
    rw [e2] at g2 ⊢
    have e3 : m.side (summary j ins outs ms 0 false).input = (ins.map (fun d => statOf m.stat d.stats)).sum := by
      have : m.side (summary j ins outs ms 0 false).input = m.side (Io.of ins) := rfl
      omega
    have e4 : m.side (summary j ins outs ms 0 false).output = (outs.map (fun d => statOf m.stat d.stats)).sum := by
      have : m.side (summary j ins outs ms 0 false).output = m.side (Io.of outs) := rfl
      omega
    rw [e3, e4]
    have := total m.stat
    omega

/-! ## Histories -/

theorem watch_w (c : Cfg K R) : ∀ (ss : List (Model.Worker.Op K R × Nat × Bool)) (o : O K R),
    (watch c o ss).w = Model.Worker.run c o.w (ss.map (·.1))
  | [], _ => rfl
  | s :: ss, o => by
    rw [List.map_cons]
    change (watch c (obs c o s) ss).w = _
    rw [watch_w c ss]
    rfl

theorem watch_append (c : Cfg K R) : ∀ (ss ss' : List (Model.Worker.Op K R × Nat × Bool)) (o : O K R),
    watch c o (ss ++ ss') = watch c (watch c o ss) ss'
  | [], _, _ => rfl
  | s :: ss, ss', o => watch_append c ss ss' (obs c o s)

/-- A property of pairs of states that each step has and that adds up. -/
theorem watch_rel {c : Cfg K R} (hn : 0 < c.x.readRows) {P : O K R → List (Model.Worker.Op K R × Nat × Bool) → O K R → Prop}
    (hnil : ∀ o, P o [] o)
    (hcons : ∀ n o s ss o', Base c n o.w → Shaped c o.w → (∀ cap, s.1 ≠ .restart cap) → P (obs c o s) ss o' → P o (s :: ss) o') :
    ∀ (ss : List (Model.Worker.Op K R × Nat × Bool)) (n : Nat) (o : O K R), Base c n o.w → Shaped c o.w → OneProcess ss →
      P o ss (watch c o ss)
  | [], _, o, _, _, _ => hnil o
  | s :: ss, n, o, hB, hS, hs => by
    obtain ⟨n1, _, hB1⟩ := base_step hn hB s.1
    exact hcons n o s ss _ hB hS (hs s (by simp))
      (watch_rel hn hnil hcons ss n1 (obs c o s) hB1 (shaped_step hn hB hS s.1) (fun x hx => hs x (by simp [hx])))

theorem watch_sides {c : Cfg K R} (hn : 0 < c.x.readRows) (m : Measure) (ss : List (Model.Worker.Op K R × Nat × Bool))
    {n : Nat} {o : O K R} (hB : Base c n o.w) (hS : Shaped c o.w) (hs : OneProcess ss)
    (hk : m.taken o.k ≤ top ∧ m.written o.k ≤ top) :
    (m.taken o.k ≤ m.taken (watch c o ss).k ∧ m.written o.k ≤ m.written (watch c o ss).k) ∧
    (m.taken (watch c o ss).k < top → m.written (watch c o ss).k < top →
      listedTotal m.stat c (watch c o ss).w.db + m.taken (watch c o ss).k + m.written o.k =
        listedTotal m.stat c o.w.db + m.written (watch c o ss).k + m.taken o.k + flushGains m.stat c o.w (ss.map (·.1))) := by
  refine watch_rel hn (P := fun o ss o' => (m.taken o.k ≤ top ∧ m.written o.k ≤ top) →
    (m.taken o.k ≤ m.taken o'.k ∧ m.written o.k ≤ m.written o'.k) ∧
    (m.taken o'.k < top → m.written o'.k < top →
      listedTotal m.stat c o'.w.db + m.taken o'.k + m.written o.k =
        listedTotal m.stat c o.w.db + m.written o'.k + m.taken o.k + flushGains m.stat c o.w (ss.map (·.1)))) ?_ ?_
    ss n o hB hS hs hk
  · intro o _
    exact ⟨⟨Nat.le_refl _, Nat.le_refl _⟩, fun _ _ => by simp only [List.map_nil, flushGains]; omega⟩
  · intro n o s ss o' hB hS hs ih hk
    obtain ⟨⟨a1, a2, a3, a4⟩, a5⟩ := sides_step (told hn hB hS s hs) m hk
    obtain ⟨⟨b1, b2⟩, b3⟩ := ih ⟨a3, a4⟩
    refine ⟨⟨Nat.le_trans a1 b1, Nat.le_trans a2 b2⟩, fun g1 g2 => ?_⟩
    have e1 := a5 (by omega) (by omega)
    have e2 := b3 g1 g2
    have e3 : flushGains m.stat c o.w ((s :: ss).map (·.1)) = flushGain m.stat c o.w s.1 +
        flushGains m.stat c (obs c o s).w (ss.map (·.1)) := rfl
    rw [e3]
    omega

theorem ended_append (f : Fate) (w w' : W K R) (e : Model.Worker.Job K × Fate) (h : w'.done = w.done ++ [e]) :
    (endedAs f w').length = (endedAs f w).length + (if e.2 = f then 1 else 0) := by
  unfold endedAs
  rw [h, List.length_map, List.length_map, List.filter_append, List.length_append]
  congr 1
  by_cases h : e.2 = f
  · rw [if_pos h, List.filter_cons_of_pos (by simp [h])]; rfl
  · rw [if_neg h, List.filter_cons_of_neg (by simp [h])]; rfl

theorem ended_same (f : Fate) {w w' : W K R} (h : w'.done = w.done) : (endedAs f w').length = (endedAs f w).length := by
  unfold endedAs; rw [h]

theorem jobs_step {c : Cfg K R} {w w' : W K R} {k k' : Counters} {ms : Nat} {gain : (SStats K → Nat) → Nat}
    (h : Told c w w' k k' ms gain) (hk : k.jobs ≤ top ∧ k.failures ≤ top) :
    (∃ p fl, (endedAs .published w').length = (endedAs .published w).length + p ∧
      (endedAs .failed w').length = (endedAs .failed w).length + fl ∧
      k'.jobs = min (k.jobs + p) top ∧ k.failures ≤ k'.failures ∧ k'.failures ≤ min (k.failures + fl) top) ∧
    (k.retries = 0 → k'.retries = 0) ∧ k'.aborts = k.aborts := by
  cases h with
  | calm h total done =>
    have h1 : k'.jobs = k.jobs := by rw [h]
    have h2 : k'.failures = k.failures := by rw [h]
    have h3 : k'.retries = k.retries := by rw [h]
    have h4 : k'.aborts = k.aborts := by rw [h]
    rw [h1, h2, h3, h4]
    refine ⟨?_, id, rfl⟩
    rcases done with e | ⟨j, f, hf, e⟩
    · exact ⟨0, 0, ended_same _ e, ended_same _ e, by omega, Nat.le_refl _, by omega⟩
    · refine ⟨_, _, ended_append _ _ _ _ e, ended_append _ _ _ _ e, ?_, Nat.le_refl _, by omega⟩
      rcases hf with rfl | rfl <;> simp only [reduceCtorEq, if_false] <;> omega
  | abort S j h r a total g done =>
    subst h
    refine ⟨⟨_, _, ended_append _ _ _ _ done, ended_append _ _ _ _ done, ?_, ?_, ?_⟩, ?_, ?_⟩
    · simp only [reduceCtorEq, if_false]
      change k.jobs = _
      omega
    · exact le_satAdd _ hk.2
    · simp only [if_true]
      exact Nat.le_refl _
    · intro hz
      change satAdd k.retries S.retries = 0
      rw [r, hz]
      rfl
    · change (if S.aborted then _ else k.aborts) = _
      rw [a]
      rfl
  | success ins outs j h total g hi ho done len =>
    subst h
    refine ⟨⟨_, _, ended_append _ _ _ _ done, ended_append _ _ _ _ done, ?_, ?_, ?_⟩, ?_, ?_⟩
    · simp only [if_true]
      rfl
    · exact Nat.le_refl _
    · change k.failures ≤ _
      simp only [reduceCtorEq, if_false]
      omega
    · intro hz
      change satAdd k.retries 0 = 0
      rw [hz]
      rfl
    · rfl

theorem watch_jobs {c : Cfg K R} (hn : 0 < c.x.readRows) (ss : List (Model.Worker.Op K R × Nat × Bool))
    {n : Nat} {o : O K R} (hB : Base c n o.w) (hS : Shaped c o.w) (hs : OneProcess ss)
    (hk : o.k.jobs ≤ top ∧ o.k.failures ≤ top) :
    (∃ p fl, (endedAs .published (watch c o ss).w).length = (endedAs .published o.w).length + p ∧
      (endedAs .failed (watch c o ss).w).length = (endedAs .failed o.w).length + fl ∧
      (watch c o ss).k.jobs = min (o.k.jobs + p) top ∧ (watch c o ss).k.failures ≤ min (o.k.failures + fl) top) ∧
    (o.k.retries = 0 → (watch c o ss).k.retries = 0) ∧ (watch c o ss).k.aborts = o.k.aborts := by
  refine watch_rel hn (P := fun o ss o' => (o.k.jobs ≤ top ∧ o.k.failures ≤ top) →
    (∃ p fl, (endedAs .published o'.w).length = (endedAs .published o.w).length + p ∧
      (endedAs .failed o'.w).length = (endedAs .failed o.w).length + fl ∧
      o'.k.jobs = min (o.k.jobs + p) top ∧ o'.k.failures ≤ min (o.k.failures + fl) top) ∧
    (o.k.retries = 0 → o'.k.retries = 0) ∧ o'.k.aborts = o.k.aborts) ?_ ?_ ss n o hB hS hs hk
  · intro o hk
    exact ⟨⟨0, 0, rfl, rfl, by omega, by omega⟩, id, rfl⟩
  · intro n o s ss o' hB hS hs ih hk
    obtain ⟨⟨p, fl, a1, a2, a3, a4, a5⟩, a6, a7⟩ := jobs_step (told hn hB hS s hs) hk
    obtain ⟨⟨p', fl', b1, b2, b3, b4⟩, b6, b7⟩ := ih ⟨by omega, by omega⟩
    exact ⟨⟨p + p', fl + fl', by omega, by omega, by omega, by omega⟩, fun h => b6 (a6 h), b7.trans a7⟩

/-! ## Triggers -/

theorem begins_turn (c : Cfg K R) (w : W K R) (b : Bool) (k : Counters) :
    noteTurn c w b k = k.trigger b ∧ begins w.phase (Model.Worker.turn c w).phase = true ∨
    noteTurn c w b k = k.trigger false ∧ begins w.phase (Model.Worker.turn c w).phase = true ∨
    ((noteTurn c w b k).kick = k.kick ∧ (noteTurn c w b k).periodic = k.periodic) ∧
      begins w.phase (Model.Worker.turn c w).phase = false := by
  unfold noteTurn Model.Worker.turn
  cases hph : w.phase with
  | waiting =>
    simp only
    by_cases hk : w.kicks = 0
    · rw [if_pos hk, if_pos hk, hph]
      exact .inr (.inr ⟨⟨rfl, rfl⟩, rfl⟩)
    · rw [if_neg hk, if_neg hk]
      exact .inl ⟨rfl, rfl⟩
  | planning m =>
    right; right
    cases m with
    | zero => exact ⟨⟨rfl, rfl⟩, rfl⟩
    | succ m =>
      refine ⟨⟨rfl, rfl⟩, ?_⟩
      simp only
      cases planFrom c w.db 0 with
      | none => rfl
      | some t => rfl
  | planned m t =>
    right; right
    simp only
    cases noteHead c w.db with
    | none => exact ⟨⟨rfl, rfl⟩, rfl⟩
    | some h =>
      simp only
      cases enqueue c w.queue ⟨t, h⟩ with
      | none => exact ⟨⟨rfl, rfl⟩, rfl⟩
      | some q => exact ⟨⟨rfl, rfl⟩, rfl⟩
  | draining js =>
    simp only
    by_cases ho : allOver js = true
    · rw [if_pos ho]
      by_cases ha : w.applied = true ∧ planFrom c w.db 0 ≠ none
      · rw [if_pos ha, if_pos ⟨ho, ha⟩]
        exact .inr (.inl ⟨rfl, rfl⟩)
      · rw [if_neg ha, if_neg (fun hc => ha hc.2)]
        exact .inr (.inr ⟨⟨rfl, rfl⟩, rfl⟩)
    · rw [if_neg ho, if_neg (fun hc => ho hc.1), hph]
      exact .inr (.inr ⟨⟨rfl, rfl⟩, rfl⟩)

theorem begins_same (p : Phase K) : begins p p = false := by cases p <;> rfl

theorem noteAct_triggers (c : Cfg K R) (w : W K R) (j : Model.Worker.Job K) (now skip ms : Nat) (k : Counters) (st : Stage K) :
    (noteAct c w j now skip ms k st).kick = k.kick ∧ (noteAct c w j now skip ms k st).periodic = k.periodic := by
  cases st with
  | popped a =>
    simp only [noteAct, noteStart]
    split
    · split_ifs
      · exact ⟨rfl, rfl⟩
      · split
        · exact ⟨rfl, rfl⟩
        · split
          · exact ⟨rfl, rfl⟩
          · split
            · exact ⟨rfl, rfl⟩
            · split
              · exact ⟨rfl, rfl⟩
              · split_ifs <;> exact ⟨rfl, rfl⟩
    · exact ⟨rfl, rfl⟩
  | merged a p =>
    simp only [noteAct, noteFinish]
    split
    · exact ⟨rfl, rfl⟩
    · split_ifs <;> exact ⟨rfl, rfl⟩
    · exact ⟨rfl, rfl⟩
  | ended =>
    simp only [noteAct]
    split_ifs
    · split <;> exact ⟨rfl, rfl⟩
    · exact ⟨rfl, rfl⟩
  | follow t =>
    simp only [noteAct]
    split
    · exact ⟨rfl, rfl⟩
    · split <;> exact ⟨rfl, rfl⟩
  | over => exact ⟨rfl, rfl⟩

theorem triggers_step (c : Cfg K R) (o : O K R) (s : Model.Worker.Op K R × Nat × Bool) (hs : ∀ cap, s.1 ≠ .restart cap)
    (hk : o.k.kick ≤ top ∧ o.k.periodic ≤ top) :
    (o.k.kick ≤ (obs c o s).k.kick ∧ (obs c o s).k.kick ≤ top ∧ o.k.periodic ≤ (obs c o s).k.periodic ∧
      (obs c o s).k.periodic ≤ top) ∧
    ((obs c o s).k.kick < top → (obs c o s).k.periodic < top →
      (obs c o s).k.kick + (obs c o s).k.periodic = o.k.kick + o.k.periodic +
        (if begins o.w.phase (Model.Worker.step c o.w s.1).phase then 1 else 0)) := by
  obtain ⟨op, ms, b⟩ := s
  have quiet : (obs c o (op, ms, b)).k.kick = o.k.kick → (obs c o (op, ms, b)).k.periodic = o.k.periodic →
      begins o.w.phase (Model.Worker.step c o.w op).phase = false →
      (o.k.kick ≤ (obs c o (op, ms, b)).k.kick ∧ (obs c o (op, ms, b)).k.kick ≤ top ∧
        o.k.periodic ≤ (obs c o (op, ms, b)).k.periodic ∧ (obs c o (op, ms, b)).k.periodic ≤ top) ∧
      ((obs c o (op, ms, b)).k.kick < top → (obs c o (op, ms, b)).k.periodic < top →
        (obs c o (op, ms, b)).k.kick + (obs c o (op, ms, b)).k.periodic = o.k.kick + o.k.periodic +
          (if begins o.w.phase (Model.Worker.step c o.w op).phase then 1 else 0)) := by
    intro h1 h2 h3
    rw [h1, h2, h3]
    exact ⟨⟨Nat.le_refl _, hk.1, Nat.le_refl _, hk.2⟩, fun _ _ => rfl⟩
  have trig : ∀ b', (obs c o (op, ms, b)).k = o.k.trigger b' →
      begins o.w.phase (Model.Worker.step c o.w op).phase = true →
      (o.k.kick ≤ (obs c o (op, ms, b)).k.kick ∧ (obs c o (op, ms, b)).k.kick ≤ top ∧
        o.k.periodic ≤ (obs c o (op, ms, b)).k.periodic ∧ (obs c o (op, ms, b)).k.periodic ≤ top) ∧
      ((obs c o (op, ms, b)).k.kick < top → (obs c o (op, ms, b)).k.periodic < top →
        (obs c o (op, ms, b)).k.kick + (obs c o (op, ms, b)).k.periodic = o.k.kick + o.k.periodic +
          (if begins o.w.phase (Model.Worker.step c o.w op).phase then 1 else 0)) := by
    intro b' h1 h3
    rw [h1, h3]
    cases b'
    · refine ⟨⟨le_satAdd _ hk.1, satAdd_le _ _, Nat.le_refl _, hk.2⟩, fun g _ => ?_⟩
      change satAdd o.k.kick 1 + o.k.periodic = _
      rw [satAdd_exact g]
      simp only [if_true]
      omega
    · refine ⟨⟨Nat.le_refl _, hk.1, le_satAdd _ hk.2, satAdd_le _ _⟩, fun _ g => ?_⟩
      change o.k.kick + satAdd o.k.periodic 1 = _
      rw [satAdd_exact g]
      simp only [if_true]
      omega
  cases op with
  | restart cap => exact absurd rfl (hs cap)
  | trigger => exact quiet rfl rfl (begins_same _)
  | other op =>
    refine quiet rfl rfl ?_
    unfold Model.Worker.step
    simp only
    split_ifs <;> exact begins_same _
  | turn =>
    rcases begins_turn c o.w b o.k with ⟨h1, h2⟩ | ⟨h1, h2⟩ | ⟨⟨h1, h2⟩, h3⟩
    · exact trig b h1 h2
    · exact trig false h1 h2
    · exact quiet h1 h2 h3
  | fail i =>
    have hq : (noteFail c o.w i ms o.k).kick = o.k.kick ∧ (noteFail c o.w i ms o.k).periodic = o.k.periodic := by
      unfold noteFail
      split
      · split
        · split
          · split_ifs
            · exact ⟨rfl, rfl⟩
            · split <;> exact ⟨rfl, rfl⟩
          · exact ⟨rfl, rfl⟩
        · exact ⟨rfl, rfl⟩
      · exact ⟨rfl, rfl⟩
    refine quiet hq.1 hq.2 ?_
    change begins _ (failStep o.w i).phase = _
    rcases fail_cases o.w i with e | ⟨js, j, a, hph, hi, e⟩
    · rw [e]; exact begins_same _
    · rw [e, hph]; rfl
  | job i now skip =>
    have h1 : (obs c o (.job i now skip, ms, b)).k.kick = o.k.kick ∧
        (obs c o (.job i now skip, ms, b)).k.periodic = o.k.periodic ∧
        begins o.w.phase (jobStep c o.w i now skip).phase = false := by
      unfold obs jobStep
      cases hph : o.w.phase with
      | draining js =>
        simp only [hph]
        cases hi : js[i]? with
        | none => exact ⟨rfl, rfl, by rw [hph]; rfl⟩
        | some r => exact ⟨(noteAct_triggers ..).1, (noteAct_triggers ..).2, rfl⟩
      | _ => simp only [hph]; exact ⟨trivial, trivial, rfl⟩
    exact quiet h1.1 h1.2.1 h1.2.2

theorem watch_triggers {c : Cfg K R} : ∀ (ss : List (Model.Worker.Op K R × Nat × Bool)) (o : O K R), OneProcess ss →
    (o.k.kick ≤ top ∧ o.k.periodic ≤ top) →
    (o.k.kick ≤ (watch c o ss).k.kick ∧ o.k.periodic ≤ (watch c o ss).k.periodic) ∧
    ((watch c o ss).k.kick < top → (watch c o ss).k.periodic < top →
      (watch c o ss).k.kick + (watch c o ss).k.periodic = o.k.kick + o.k.periodic + cycles c o.w (ss.map (·.1)))
  | [], o, _, _ => ⟨⟨Nat.le_refl _, Nat.le_refl _⟩, fun _ _ => rfl⟩
  | s :: ss, o, hs, hk => by
    obtain ⟨⟨a1, a2, a3, a4⟩, a5⟩ := triggers_step c o s (hs s (by simp)) hk
    obtain ⟨⟨b1, b2⟩, b3⟩ := watch_triggers (c := c) ss (obs c o s) (fun x hx => hs x (by simp [hx])) ⟨a2, a4⟩
    have e : watch c o (s :: ss) = watch c (obs c o s) ss := rfl
    rw [e]
    refine ⟨⟨Nat.le_trans a1 b1, Nat.le_trans a3 b2⟩, fun g1 g2 => ?_⟩
    have e1 := a5 (by omega) (by omega)
    have e2 := b3 g1 g2
    have e3 : cycles c o.w ((s :: ss).map (·.1)) = (if begins o.w.phase (Model.Worker.step c o.w s.1).phase then 1 else 0) +
      cycles c (obs c o s).w (ss.map (·.1)) := rfl
    rw [e3]
    omega

/-! ## Follow-ups -/

/-- What was decided about follow-ups. -/
def decisions (k : Counters) : Nat := k.scheduled + k.blockedCooldown + k.blockedBudget + k.cascadeFull

/-- A job from level 0 to level 1. -/
def fromTop (j : Model.Worker.Job K) : Bool := decide (j.task.source = 0 ∧ j.task.target = 1)

/-- A job about whose follow-up nothing is decided yet. -/
def undecided (r : Model.Worker.Job K × Stage K) : Bool :=
  match r.2 with
  | .ended => fromTop r.1
  | .follow _ => true
  | _ => false

def undecideds : Phase K → Nat
  | .draining js => js.countP undecided
  | _ => 0

/-- The published jobs from level 0 to level 1. -/
def pubTop (w : W K R) : Nat := (endedAs .published w).countP fromTop

theorem pubTop_append (w w' : W K R) (e : Model.Worker.Job K × Fate) (h : w'.done = w.done ++ [e]) :
    pubTop w' = pubTop w + (if e.2 = .published ∧ fromTop e.1 then 1 else 0) := by
  unfold pubTop endedAs
  rw [h, List.filter_append, List.map_append, List.countP_append]
  congr 1
  by_cases h : e.2 = .published
  · rw [List.filter_cons_of_pos (by simp [h])]
    by_cases hf : fromTop e.1 = true
    · rw [if_pos ⟨h, hf⟩]
      simp [hf]
    · rw [if_neg (fun hc => hf hc.2)]
      simp [hf]
  · rw [if_neg (fun hc => h hc.1), List.filter_cons_of_neg (by simp [h])]
    rfl

theorem pubTop_same {w w' : W K R} (h : w'.done = w.done) : pubTop w' = pubTop w := by
  unfold pubTop endedAs; rw [h]

theorem abort_decisions (k : Counters) (S : Summary) : decisions (k.abort S) = decisions k := rfl
theorem success_decisions (k : Counters) (S : Summary) : decisions (k.success S) = decisions k := rfl

theorem satAdd_one (a : Nat) : satAdd a 1 ≤ a + 1 := by unfold satAdd; omega

theorem act_decides {c : Cfg K R} (hn : 0 < c.x.readRows) {n : Nat} {w : W K R} (hB : Base c n w)
    {js : List (Model.Worker.Job K × Stage K)} (hph : w.phase = .draining js) {i : Nat} {j : Model.Worker.Job K}
    {st : Stage K} (hi : js[i]? = some (j, st)) (now skip ms : Nat) (k : Counters) :
    decisions (noteAct c w j now skip ms k st) + (undecided (j, (act c w j now skip st).2)).toNat + pubTop w ≤
      decisions k + (undecided (j, st)).toNat + pubTop (act c w j now skip st).1 := by
  have hmem := List.mem_of_getElem? hi
  have hP := hB.phase
  rw [hph] at hP
  have hrun := hP _ hmem
  cases st with
  | popped a =>
    obtain ⟨m, hm1, _, hm3, _⟩ := id hrun
    simp only at hm3
    have hd : decisions (noteAct c w j now skip ms k (.popped a)) = decisions k := by
      rcases noteStart_cases hB.inv hrun skip ms k with e | ⟨ins, err, e, e'⟩
      · simp only [noteAct]; rw [e]
      · simp only [noteAct]; rw [e]; rfl
    rw [hd]
    unfold act
    simp only
    rw [hm3]
    rcases (start_cases (ext := c.ext) hB.inv hn j.task m skip hm1).2.2 with ⟨_, e, _⟩ | ⟨_, ⟨_, e, _⟩ | ⟨_, e, _⟩⟩ <;>
      rw [e] <;> simp only
    · refine Nat.le_trans ?_ (Nat.add_le_add_left (Nat.le_of_eq (pubTop_append w _ (j, .skipped) (by first | rfl | exact rfl)).symm) _)
      simp [undecided]
    · refine Nat.le_trans ?_ (Nat.add_le_add_left (Nat.le_of_eq (pubTop_append w _ (j, .failed) (by first | rfl | exact rfl)).symm) _)
      simp [undecided]
    · exact Nat.le_refl _
  | merged a p =>
    have hd : decisions (noteAct c w j now skip ms k (.merged a p)) = decisions k := by
      simp only [noteAct, noteFinish]
      split
      · rfl
      · split_ifs <;> rfl
      · rfl
    rw [hd]
    unfold act
    simp only
    split
    · refine Nat.le_trans ?_ (Nat.add_le_add_left (Nat.le_of_eq (pubTop_append w _ (j, .published) (by first | rfl | exact rfl)).symm) _)
      simp only [undecided]
      cases fromTop j <;> simp
      omega
    · split_ifs
      · refine Nat.le_trans ?_ (Nat.add_le_add_left (Nat.le_of_eq (pubTop_append w _ (j, .gaveUp) (by first | rfl | exact rfl)).symm) _)
        simp [undecided]
      · exact Nat.le_refl _
    · refine Nat.le_trans ?_ (Nat.add_le_add_left (Nat.le_of_eq (pubTop_append w _ (j, .failed) (by first | rfl | exact rfl)).symm) _)
      simp [undecided]
  | ended =>
    simp only [noteAct, act]
    by_cases hc : j.task.source = 0 ∧ j.task.target = 1
    · rw [if_pos hc, if_pos hc]
      have hu : (undecided (j, (Stage.ended : Stage K))).toNat = 1 := by
        simp only [undecided, fromTop, hc, and_self, decide_true]
        rfl
      rw [hu]
      rcases hq : w.control.acquire now with ⟨vd, k'⟩
      cases vd with
      | allowed =>
        simp only
        cases planFrom c w.db 1 with
        | none =>
          simp only
          rw [pubTop_same (w := w) (w' := { w with control := k' }) rfl]
          simp only [undecided, Bool.toNat_false]
          omega
        | some t =>
          simp only
          rw [pubTop_same (w := w) (w' := { w with control := k' }) rfl]
          simp only [undecided, Bool.toNat_true]
          omega
      | budget =>
        simp only
        rw [pubTop_same (w := w) (w' := { w with control := k' }) rfl]
        simp only [undecided, Bool.toNat_false, decisions]
        have := satAdd_one k.blockedBudget
        omega
      | cooldown =>
        simp only
        rw [pubTop_same (w := w) (w' := { w with control := k' }) rfl]
        simp only [undecided, Bool.toNat_false, decisions]
        have := satAdd_one k.blockedCooldown
        omega
    · rw [if_neg hc, if_neg hc]
      simp only [undecided, Bool.toNat_false]
      omega
  | follow t =>
    simp only [noteAct, act]
    cases noteHead c w.db with
    | none => simp only [undecided, Bool.toNat_false, Bool.toNat_true]; omega
    | some hd =>
      simp only
      cases enqueue c w.queue ⟨t, hd⟩ with
      | none =>
        simp only [undecided, Bool.toNat_false, Bool.toNat_true, decisions]
        have := satAdd_one k.cascadeFull
        omega
      | some q =>
        simp only
        rw [pubTop_same (w := w) (w' := { w with queue := q, kicks := w.kicks + 1 }) rfl]
        simp only [undecided, Bool.toNat_false, Bool.toNat_true, decisions]
        have := satAdd_one k.scheduled
        omega
  | over => exact Nat.le_refl _

theorem countP_set_add {α : Type} (p : α → Bool) : ∀ {l : List α} {i : Nat} {a b : α}, l[i]? = some a →
    (l.set i b).countP p + (p a).toNat = l.countP p + (p b).toNat
  | [], i, a, b, h => by simp at h
  | x :: l, 0, a, b, h => by
    simp only [List.length_cons, Nat.zero_lt_succ, List.getElem?_eq_getElem, List.getElem_cons_zero, Option.some.injEq] at h
    subst h
    simp only [List.set_cons_zero, List.countP_cons]
    cases p x <;> cases p b <;> simp
  | x :: l, i + 1, a, b, h => by
    simp only [List.getElem?_cons_succ] at h
    have := countP_set_add p (b := b) h
    simp only [List.set_cons_succ, List.countP_cons]
    omega

theorem turn_undecided (c : Cfg K R) (w : W K R) :
    undecideds (Model.Worker.turn c w).phase ≤ undecideds w.phase := by
  unfold Model.Worker.turn
  cases hph : w.phase with
  | waiting =>
    simp only
    split_ifs
    · rw [hph]
    · exact Nat.le_refl _
  | planning m =>
    cases m with
    | zero =>
      simp only [undecideds]
      rw [List.countP_eq_zero.2]
      intro r hr
      obtain ⟨j, _, rfl⟩ := List.mem_map.1 hr
      simp [undecided]
    | succ m =>
      simp only
      cases planFrom c w.db 0 with
      | none => exact Nat.le_refl _
      | some t => exact Nat.le_refl _
  | planned m t =>
    simp only
    cases noteHead c w.db with
    | none => exact Nat.le_refl _
    | some h =>
      simp only
      cases enqueue c w.queue ⟨t, h⟩ with
      | none => exact Nat.le_refl _
      | some q => exact Nat.le_refl _
  | draining js =>
    simp only
    split_ifs
    · exact Nat.zero_le _
    · exact Nat.zero_le _
    · rw [hph]

theorem noteTurn_decides (c : Cfg K R) (w : W K R) (b : Bool) (k : Counters) :
    decisions (noteTurn c w b k) = decisions k := by
  unfold noteTurn Counters.trigger
  split
  · split_ifs <;> rfl
  · split
    · rfl
    · split <;> rfl
  · split_ifs <;> rfl
  · rfl

theorem decides_step {c : Cfg K R} (hn : 0 < c.x.readRows) {n : Nat} {o : O K R} (hB : Base c n o.w)
    (s : Model.Worker.Op K R × Nat × Bool) (hs : ∀ cap, s.1 ≠ .restart cap) :
    decisions (obs c o s).k + undecideds (obs c o s).w.phase + pubTop o.w ≤
      decisions o.k + undecideds o.w.phase + pubTop (obs c o s).w := by
  obtain ⟨op, ms, b⟩ := s
  cases op with
  | restart cap => exact absurd rfl (hs cap)
  | trigger => exact Nat.le_refl _
  | other op =>
    change decisions o.k + undecideds (Model.Worker.step c o.w (.other op)).phase + pubTop o.w ≤
      decisions o.k + undecideds o.w.phase + pubTop (Model.Worker.step c o.w (.other op))
    unfold Model.Worker.step
    simp only
    split_ifs <;> exact Nat.le_refl _
  | turn =>
    change decisions (noteTurn c o.w b o.k) + undecideds (Model.Worker.turn c o.w).phase + pubTop o.w ≤
      decisions o.k + undecideds o.w.phase + pubTop (Model.Worker.turn c o.w)
    rw [noteTurn_decides, pubTop_same (turn_kv c o.w).2]
    have := turn_undecided c o.w
    omega
  | fail i =>
    have hd : decisions (noteFail c o.w i ms o.k) = decisions o.k := by
      unfold noteFail
      split
      · split
        · split
          · split_ifs
            · rfl
            · split <;> rfl
          · rfl
        · rfl
      · rfl
    change decisions (noteFail c o.w i ms o.k) + undecideds (failStep o.w i).phase + pubTop o.w ≤
      decisions o.k + undecideds o.w.phase + pubTop (failStep o.w i)
    rw [hd]
    rcases fail_cases o.w i with e | ⟨js, j, a, hph, hi, e⟩
    · rw [e]
    · rw [e, hph, pubTop_append o.w { o.w with done := o.w.done ++ [(j, .failed)], phase := .draining (js.set i (j, .over)) }
        (j, .failed) rfl]
      have := countP_set_add undecided (b := (j, .over)) hi
      simp only [undecided, Bool.toNat_false, Nat.add_zero] at this
      simp only [undecideds]
      rw [this]
      simp
  | job i now skip =>
    unfold obs
    simp only
    change _ + undecideds (jobStep c o.w i now skip).phase + _ ≤ _ + _ + pubTop (jobStep c o.w i now skip)
    unfold jobStep
    cases hph : o.w.phase with
    | draining js =>
      simp only
      cases hi : js[i]? with
      | none => simp only; rw [hph]
      | some r =>
        obtain ⟨j, st⟩ := r
        simp only
        have h1 := act_decides hn hB hph hi now skip ms o.k
        have h2 := countP_set_add undecided (b := (j, (act c o.w j now skip st).2)) hi
        rw [pubTop_same (w := (act c o.w j now skip st).1)
          (w' := { (act c o.w j now skip st).1 with phase := .draining (js.set i (j, (act c o.w j now skip st).2)) }) rfl]
        simp only [undecideds]
        omega
    | _ => simp only; rw [hph]

theorem watch_decides {c : Cfg K R} (hn : 0 < c.x.readRows) (ss : List (Model.Worker.Op K R × Nat × Bool))
    {n : Nat} {o : O K R} (hB : Base c n o.w) (hS : Shaped c o.w) (hs : OneProcess ss) :
    decisions (watch c o ss).k + undecideds (watch c o ss).w.phase + pubTop o.w ≤
      decisions o.k + undecideds o.w.phase + pubTop (watch c o ss).w := by
  refine watch_rel hn (P := fun o _ o' => decisions o'.k + undecideds o'.w.phase + pubTop o.w ≤
      decisions o.k + undecideds o.w.phase + pubTop o'.w) ?_ ?_ ss n o hB hS hs
  · intro o
    exact Nat.le_refl _
  · intro n o s ss o' hB hS hs ih
    have := decides_step hn hB s hs
    omega

end Tonbo.Lemmas.Worker
