import Verif.Lemmas.LsmContent
import Verif.Spec.FailView

/-!
# What holds after every step when storage fails
-/

set_option linter.unusedSectionVars false

namespace Tonbo.Lemmas.LsmFail
open Tonbo.Model Tonbo.Model.Manifest Tonbo.Model.Planner Tonbo.Model.Outcome Tonbo.Model.Lsm Tonbo.Spec
open Tonbo.Lemmas.Lsm Tonbo.Lemmas.Manifest Tonbo.Lemmas.Outcome
open Tonbo.Model.LsmFail (Answer cleanupBut executeTorn startTorn)
open Tonbo.Model.Sst (File)
open Tonbo.Model.Compact (fileBatches)

variable {K R : Type} [LinearOrder K]
variable {ext : R → Option K} {x : Exec K R} {t n : Nat} {s : Db K R} {log : List (Ver K R)} {exact : Prop}
variable {logs : List (List (Ver K R))} {cur : List (Ver K R)}

/-- Dropping a waiting write and some of its files keeps the content. -/
theorem cont_drop {s' : Db K R} (hc : Cont ext t n s log exact logs cur) (h : Inv ext x t n s)
    {p : Pending K} (hp : p ∈ pendings s) (hr : s'.runs = s.runs) (hkv : s'.kv = s.kv) {ds : List (Desc K)}
    (hds : ∀ d ∈ ds, d ∈ p.outputs) (hf : s'.files = cleanup s.files ds)
    (hfl : ∀ q c, s'.flushing = .written q c → s.flushing = .written q c) (hdone : doneRuns s' = doneRuns s)
    (hsub : ∀ q ∈ pendings s', q ∈ pendings s) : Cont ext t n s' log exact logs cur := by
  have hsome : ∀ q f, s'.files q = some f → s.files q = some f := by
    intro q f hq
    rw [hf] at hq
    exact cleanup_some _ _ _ _ hq
  refine ⟨by rw [hr]; exact hc.runs, by rw [hr]; exact hc.mem, hc.sub, ?_, by rw [hdone]; exact hc.done, ?_, ?_, ?_⟩
  · intro q c hq
    obtain ⟨g1, g2⟩ := hc.flush q c (hfl q c hq)
    exact ⟨g1, fun d hd f hff => g2 d hd f (hsome _ _ hff)⟩
  · rw [hkv]
    exact fun l en hen f hff => hc.listed l en hen f (hsome _ _ hff)
  · exact fun q hq d hd f hff => hc.pend q (hsub q hq) d hd f (hsome _ _ hff)
  · intro w hw
    obtain ⟨u, hu, hrest⟩ := hc.cover w hw
    refine ⟨u, ?_, hrest⟩
    rw [hdone]
    rcases hu with hu | hu | ⟨v, l, en, g, a1, a2, a3, a4⟩
    · exact .inl hu
    · exact .inr (.inl hu)
    · refine .inr (.inr ⟨v, l, en, g, by rw [hkv]; exact a1, a2, ?_, a4⟩)
      rw [hf, cleanup_other]
      · exact a3
      · intro d hd1 hc
        rw [(h.pend p hp d (hds d hd1)).1.1] at hc
        simp only [Option.some.injEq, Path.mk.injEq] at hc
        exact (h.pend p hp d (hds d hd1)).2 l en ⟨n, v, a1, a2⟩ hc.2.symm

/-- Files of listed tables stay when files of a waiting write go. -/
theorem keeps_drop {s' : Db K R} (h : Inv ext x t n s) {p : Pending K} (hp : p ∈ pendings s) (hkv : s'.kv = s.kv)
    {ds : List (Desc K)} (hds : ∀ d ∈ ds, d ∈ p.outputs) (hf : s'.files = cleanup s.files ds) : Keeps t n s n s' := by
  obtain ⟨hd, hreg⟩ := h.reg
  refine Keeps.of_kv hreg hkv (fun l en hen => ?_)
  rw [hf]
  apply cleanup_other
  intro d hd1 hc
  rw [(h.pend p hp d (hds d hd1)).1.1] at hc
  simp only [Option.some.injEq, Path.mk.injEq] at hc
  exact (h.pend p hp d (hds d hd1)).2 l en hen hc.2.symm

/-- A flush that is over leaves its runs in memory. -/
theorem to_idle (h : Inv ext x t n s) (hfl : ∀ p c, s.flushing ≠ .written p c) :
    Inv ext x t n { s with flushing := .idle } ∧ Keeps t n s n { s with flushing := .idle } ∧
      ∀ {log : List (Ver K R)} {exact : Prop} {logs : List (List (Ver K R))} {cur : List (Ver K R)},
        Cont ext t n s log exact logs cur → Cont ext t n { s with flushing := .idle } log exact logs cur := by
  have hpe : pendings { s with flushing := Flushing.idle } = pendings s := by
    unfold pendings
    cases hq : s.flushing with
    | written p c => exact absurd hq (hfl p c)
    | idle => rfl
    | published c => rfl
  obtain ⟨hd, hreg⟩ := h.reg
  refine ⟨⟨h.good, h.reg, h.mem, h.ent, h.uniq, h.top, by rw [hpe]; exact h.pend,
    by unfold pendIds; rw [hpe]; exact h.apart, by simp, h.jobs, h.gc⟩, Keeps.of_kv hreg rfl (fun _ _ _ => rfl), ?_⟩
  intro log exact logs cur hc
  refine ⟨hc.runs, hc.mem, hc.sub, by simp, Nat.zero_le _, hc.listed, by rw [hpe]; exact hc.pend, ?_⟩
  intro w hw
  obtain ⟨u, hu, hrest⟩ := hc.cover w hw
  refine ⟨u, ?_, hrest⟩
  rcases hu with hu | hu
  · left
    obtain ⟨l, hl, hu⟩ := List.mem_flatten.1 hu
    exact List.mem_flatten.2 ⟨l, List.mem_of_mem_drop hl, hu⟩
  · exact .inr hu

/-- Only files past the allocator differ. -/
structure Frame (s s' : Db K R) : Prop where
  runs : s'.runs = s.runs
  kv : s'.kv = s.kv
  gc : s'.gc = s.gc
  flushing : s'.flushing = s.flushing
  jobs : s'.jobs = s.jobs
  next : s.next ≤ s'.next
  files : ∀ p : Path, p.id < s.next → s'.files p = s.files p

theorem Frame.same (s : Db K R) : Frame s s := ⟨rfl, rfl, rfl, rfl, rfl, Nat.le_refl _, fun _ _ => rfl⟩

theorem Frame.all {s' : Db K R} (f : Frame s s') (h : Inv ext x t n s) :
    Inv ext x t n s' ∧ Keeps t n s n s' ∧
      ∀ {log : List (Ver K R)} {exact : Prop} {logs : List (List (Ver K R))} {cur : List (Ver K R)},
        Cont ext t n s log exact logs cur → Cont ext t n s' log exact logs cur := by
  obtain ⟨hd, hreg⟩ := h.reg
  refine ⟨inv_frame h (by rw [f.runs]; exact h.mem) f.kv f.next f.files f.gc f.flushing f.jobs, ?_, ?_⟩
  · exact Keeps.of_kv hreg f.kv (fun l e he => f.files _ (h.ent l e he).2.1)
  · intro log exact logs cur hc
    exact cont_frame hc h f.runs f.kv f.flushing f.jobs f.files

/-! ## A flush that cannot write -/

theorem flushTorn_frame (s : Db K R) (count : Nat) (left : Option (File K R)) :
    Frame s (LsmFail.flushTorn s count left) := by
  cases hfl : s.flushing with
  | written p c =>
    have e : LsmFail.flushTorn s count left = s := by unfold LsmFail.flushTorn; rw [hfl]
    rw [e]; exact Frame.same s
  | published c =>
    have e : LsmFail.flushTorn s count left = s := by unfold LsmFail.flushTorn; rw [hfl]
    rw [e]; exact Frame.same s
  | idle =>
    by_cases he : s.runs.runs.take count = []
    · have e : LsmFail.flushTorn s count left = s := by unfold LsmFail.flushTorn; rw [hfl]; exact if_pos he
      rw [e]; exact Frame.same s
    · have e : LsmFail.flushTorn s count left =
          { s with files := setFile s.files ⟨0, s.next⟩ left, next := s.next + 1 } := by
        unfold LsmFail.flushTorn; rw [hfl]; simp only; rw [if_neg he]
      rw [e]
      refine ⟨rfl, rfl, rfl, rfl, rfl, Nat.le_succ _, fun p hp => ?_⟩
      refine setFile_ne ?_
      rintro rfl
      simp only at hp
      omega

/-! ## A merge that fails -/

theorem executeTorn_frame (hn : 0 < x.readRows) {level : Nat} {inputs : List (Desc K)} {skip done : Nat}
    {left : Option (File K R)} {keep : Nat → Bool} (hin : ∀ d ∈ inputs, DescOk s.files s.next d) :
    Frame s (executeTorn x s level inputs skip done left keep) := by
  unfold executeTorn
  by_cases he : inputs = []
  · rw [if_pos he]
    exact Frame.same s
  rw [if_neg he]
  obtain ⟨fs, h1, h2⟩ := readAll_ok inputs hin
  rw [h1]
  have hs : ∀ f ∈ fs, FileSorted f := by
    intro f hf
    obtain ⟨d, _, hd⟩ := Lemmas.Plan.forall₂_mem_right h2 hf
    exact hd.2.sorted
  simp only
  cases hx : Compact.execute (mergeCfg x level s.next inputs) x.heap (some (s.next + 1)) (fs.map (fileBatches x.readRows)) with
  | error e =>
    refine ⟨rfl, rfl, rfl, rfl, rfl, ?_, fun _ _ => rfl⟩
    change s.next ≤ allocated s.next [] skip
    simp only [allocated, List.foldl_nil]
    omega
  | ok tables =>
    obtain ⟨i1, i2⟩ := Props.C16.output_ids _ _ _ _ fs tables hn hs (by simp [mergeCfg]) hx
    have hfresh : ∀ u ∈ tables, s.next ≤ u.id := by
      intro u hu
      rcases i2 u hu with h | h
      · simp only [mergeCfg] at h; omega
      · omega
    obtain ⟨m1, _⟩ := foldl_max_le (tables.map (·.id)) s.next
    refine ⟨rfl, rfl, rfl, rfl, rfl, ?_, fun p hp => ?_⟩
    · change s.next ≤ allocated s.next (tables.map (·.id)) skip
      unfold allocated
      omega
    have hw : writeAll s.files level (tables.take done) p = s.files p := by
      apply writeAll_other
      rintro u hu rfl
      have := hfresh u (List.mem_of_mem_take hu)
      simp only at hp
      omega
    change cleanupBut keep _ _ p = _
    unfold cleanupBut
    rw [cleanup_other]
    · cases ht : tables[done]? with
      | none => exact hw
      | some u =>
        simp only
        rw [setFile_ne]
        · exact hw
        · rintro rfl
          have := hfresh u (List.mem_of_getElem? ht)
          simp only at hp
          omega
    · intro d hd hc
      obtain ⟨u, hu, rfl⟩ := List.mem_map.1 (List.mem_filter.1 hd).1
      simp only [descOf, Option.some.injEq] at hc
      have := hfresh u (List.mem_of_mem_take hu)
      rw [← hc] at hp
      simp only at hp
      omega

theorem startTorn_frame (h : Inv ext x t n s) (hn : 0 < x.readRows) (task : PTask K) (head : Option Nat) (skip done : Nat)
    (left : Option (File K R)) (keep : Nat → Bool) :
    Frame s (startTorn x t s task head skip done left keep) := by
  obtain ⟨hd, hok⟩ := h.reg
  unfold startTorn
  rcases snapshotLatest_spec hok with ⟨_, e⟩ | ⟨h0, v, hv, hts, e⟩
  · rw [e]; exact Frame.same s
  rw [e]
  simp only
  by_cases hh : head ≠ none ∧ hd.last ≠ head
  · rw [if_pos hh]; exact Frame.same s
  rw [if_neg hh]
  cases hr : resolve v task.input with
  | error err => exact Frame.same s
  | ok inputs =>
    have hat : At s.kv t n v := hv
    refine executeTorn_frame hn (fun d hd' => ?_)
    obtain ⟨en, he, hde⟩ := resolve_spec hr d hd'
    have hent := h.ent _ _ ⟨n, v, hat, he⟩
    refine names_descOk h.ent hat (?_ : Names v d)
    rw [hde]
    refine ⟨?_, by simp [descAt, hent.1]⟩
    simp only [descAt, ← hent.1]
    rw [hde] at he
    exact he

/-! ## Manifest calls -/

theorem call_told (kv : Kv (Info K)) (edits : List (Edit (Info K))) (expected : Option (Option Nat)) :
    (∃ k, (apply kv t edits expected).2 = .ok k ∧ LsmFail.call kv t edits expected .told = ((apply kv t edits expected).1, true)) ∨
    (∃ e, (apply kv t edits expected).2 = .error e ∧ LsmFail.call kv t edits expected .told = ((apply kv t edits expected).1, false)) := by
  unfold LsmFail.call
  rcases hr : apply kv t edits expected with ⟨kv', k | e⟩
  · exact .inr ⟨_, rfl, rfl⟩
  · exact .inl ⟨_, rfl, rfl⟩

theorem flushPublish_told (s : Db K R) : LsmFail.flushPublish t s .told = Lsm.flushPublish t s := by
  unfold LsmFail.flushPublish Lsm.flushPublish
  cases hfl : s.flushing with
  | idle => rfl
  | published c => rfl
  | written p c =>
    simp only
    unfold LsmFail.call
    rcases hr : apply s.kv t p.edits p.expected with ⟨kv', k | e⟩ <;> rfl

theorem flushPublish_lost (s : Db K R) {p : Pending K} {c : Nat} (hfl : s.flushing = .written p c) :
    LsmFail.flushPublish t s .lost = { Lsm.flushPublish t s with flushing := .idle } := by
  unfold LsmFail.flushPublish Lsm.flushPublish
  rw [hfl]
  simp only
  unfold LsmFail.call
  rcases hr : apply s.kv t p.edits p.expected with ⟨kv', k | e⟩ <;> rfl

/-- The number of versions is determined by the manifest. -/
theorem inv_num {n' : Nat} (h : Inv ext x t n s) (h' : Inv ext x t n' s) : n = n' := by
  obtain ⟨hd, hreg⟩ := h.reg
  obtain ⟨hd', hreg'⟩ := h'.reg
  have h1 : n ≤ n' := by
    rcases Nat.eq_zero_or_pos n with h0 | h0
    · omega
    · obtain ⟨v, hv, _⟩ := hreg.some n h0 (Nat.le_refl _)
      exact (at_le hreg' hv).2
  have h2 : n' ≤ n := by
    rcases Nat.eq_zero_or_pos n' with h0 | h0
    · omega
    · obtain ⟨v, hv, _⟩ := hreg'.some n' h0 (Nat.le_refl _)
      exact (at_le hreg hv).2
  omega

theorem flushPublish_all (h : Inv ext x t n s) (hn : 0 < x.readRows) (a : Answer) :
    ∃ n', Inv ext x t n' (LsmFail.flushPublish t s a) ∧ Keeps t n s n' (LsmFail.flushPublish t s a) ∧
      ∀ {log : List (Ver K R)} {exact : Prop} {logs : List (List (Ver K R))} {cur : List (Ver K R)},
        Cont ext t n s log exact logs cur → Cont ext t n' (LsmFail.flushPublish t s a) log exact logs cur := by
  obtain ⟨hd, hreg⟩ := h.reg
  cases hfl : s.flushing with
  | idle =>
    have e : LsmFail.flushPublish t s a = s := by unfold LsmFail.flushPublish; rw [hfl]
    rw [e]
    exact ⟨n, h, Keeps.of_kv hreg rfl (fun _ _ _ => rfl), fun hc => hc⟩
  | published c =>
    have e : LsmFail.flushPublish t s a = s := by unfold LsmFail.flushPublish; rw [hfl]
    rw [e]
    exact ⟨n, h, Keeps.of_kv hreg rfl (fun _ _ _ => rfl), fun hc => hc⟩
  | written p c =>
    have hp : p ∈ pendings s := by unfold pendings; rw [hfl]; simp
    have hwr : ∀ q c', (Lsm.flushPublish t s).flushing ≠ .written q c' := by
      intro q c'
      rcases flushPublish_spec h hfl with ⟨e, _⟩ | ⟨kv', e, _⟩ <;> rw [e] <;> simp
    have hnormal : ∃ n', Inv ext x t n' (Lsm.flushPublish t s) ∧ Keeps t n s n' (Lsm.flushPublish t s) ∧
      ∀ {log : List (Ver K R)} {exact : Prop} {logs : List (List (Ver K R))} {cur : List (Ver K R)},
        Cont ext t n s log exact logs cur → Cont ext t n' (Lsm.flushPublish t s) log exact logs cur := by
      obtain ⟨n', h1, h2⟩ := keeps_step (ext := ext) (x := x) h hn .flushPublish
      refine ⟨n', h1, h2, fun hc => ?_⟩
      obtain ⟨n'', h3, h4⟩ := cont_flushPublish hc h
      rwa [inv_num h1 h3]
    cases a with
    | told => rw [flushPublish_told]; exact hnormal
    | refused =>
      have e : LsmFail.flushPublish t s .refused = { s with flushing := .idle } := by
        unfold LsmFail.flushPublish; rw [hfl]; rfl
      rw [e]
      have hperm : (pendings s).Perm (p :: pendings { s with flushing := Flushing.idle }) := by
        unfold pendings; rw [hfl]; exact List.Perm.refl _
      refine ⟨n, inv_drop_some h hperm h.mem rfl rfl ⟨[], by simp, rfl⟩ (.inr (by simp)) (List.Sublist.refl _) rfl,
        Keeps.of_kv hreg rfl (fun _ _ _ => rfl), fun hc => ?_⟩
      refine cont_drop (ds := []) hc h hp rfl rfl (by simp) rfl (by simp) ?_ ?_
      · unfold doneRuns; rw [hfl]
      · exact fun q hq => hperm.mem_iff.2 (List.mem_cons_of_mem _ hq)
    | lost =>
      rw [flushPublish_lost s hfl]
      obtain ⟨n', h1, h2, h3⟩ := hnormal
      obtain ⟨i1, i2, i3⟩ := to_idle h1 hwr
      obtain ⟨hd', hreg'⟩ := h1.reg
      exact ⟨n', i1, Keeps.trans hreg hreg' h2 i2, fun hc => i3 (h3 hc)⟩

/-- A job whose publication had no effect. -/
theorem drop_all (h : Inv ext x t n s) {i : Nat} {p : Pending K} (hi : s.jobs[i]? = some p) (keep : Nat → Bool) :
    let s' : Db K R := { s with jobs := s.jobs.eraseIdx i, files := cleanupBut keep s.files p.outputs }
    Inv ext x t n s' ∧ Keeps t n s n s' ∧
      ∀ {log : List (Ver K R)} {exact : Prop} {logs : List (List (Ver K R))} {cur : List (Ver K R)},
        Cont ext t n s log exact logs cur → Cont ext t n s' log exact logs cur := by
  intro s'
  have hp : p ∈ pendings s := List.mem_append_right _ (List.mem_of_getElem? hi)
  have hds : ∀ d ∈ p.outputs.filter (fun d => !keep d.id), d ∈ p.outputs := fun d hd => (List.mem_filter.1 hd).1
  have hperm : (pendings s).Perm (p :: pendings s') := by
    unfold pendings
    exact (List.Perm.append_left _ (eraseIdx_perm hi)).trans List.perm_middle
  refine ⟨inv_drop_some h hperm h.mem rfl rfl ⟨_, hds, rfl⟩ (.inl rfl) (List.eraseIdx_sublist _ _) rfl,
    keeps_drop h hp rfl hds rfl, fun hc => ?_⟩
  exact cont_drop hc h hp rfl rfl hds rfl (fun _ _ h => h) rfl
    (fun q hq => hperm.mem_iff.2 (List.mem_cons_of_mem _ hq))

theorem finish_all (h : Inv ext x t n s) (hn : 0 < x.readRows) {i : Nat} {p : Pending K} (hi : s.jobs[i]? = some p) (a : Answer)
    (ha : a ≠ .lost) (keep : Nat → Bool) (g : Bool) :
    ∃ n', Inv ext x t n' (LsmFail.finish t { s with jobs := s.jobs.eraseIdx i } p a keep g) ∧
      Keeps t n s n' (LsmFail.finish t { s with jobs := s.jobs.eraseIdx i } p a keep g) ∧
      ∀ {log : List (Ver K R)} {exact : Prop} {logs : List (List (Ver K R))} {cur : List (Ver K R)},
        Cont ext t n s log exact logs cur → Fitting x.readRows t s → ¬ exact →
          Cont ext t n' (LsmFail.finish t { s with jobs := s.jobs.eraseIdx i } p a keep g) log exact logs cur := by
  obtain ⟨hd, hreg⟩ := h.reg
  obtain ⟨d1, d2, d3⟩ := drop_all h hi keep
  cases a with
  | lost => exact absurd rfl ha
  | refused => exact ⟨n, d1, d2, fun hc _ _ => d3 hc⟩
  | told =>
    have hp : p ∈ pendings s := List.mem_append_right _ (List.mem_of_getElem? hi)
    rcases call_told (t := t) s.kv p.edits p.expected with ⟨k, hk, e⟩ | ⟨er, hk, e⟩
    · have hfin : (Lsm.step ext x t s (.finish i)).2 =
          { s with jobs := s.jobs.eraseIdx i, kv := (apply s.kv t p.edits p.expected).1, gc := p.gc.or s.gc } := by
        unfold Lsm.step
        simp only [hi]
        unfold Lsm.finish
        rcases hr : apply s.kv t p.edits p.expected with ⟨kv', k' | e'⟩
        · rw [hr] at hk; cases hk
        · rfl
      have hF : LsmFail.finish t { s with jobs := s.jobs.eraseIdx i } p .told keep g =
          { (Lsm.step ext x t s (.finish i)).2 with gc := if g then s.gc else p.gc.or s.gc } := by
        rw [hfin]
        unfold LsmFail.finish
        simp only [e]
      obtain ⟨n', h1, h2⟩ := keeps_step h hn (.finish i)
      have hgc : GcOk (Lsm.step ext x t s (.finish i)).2.kv t n' (if g then s.gc else p.gc.or s.gc) := by
        cases g with
        | false =>
          have := h1.gc
          rw [hfin] at this ⊢
          exact this
        | true =>
          rw [if_pos rfl]
          -- the old garbage is still garbage
          obtain ⟨s', r, e1, ⟨_, _, _, hkv, _⟩ | ⟨_, i1, hf, _, _, _, _, _, v, v', target, o, hj, hat, hv', hk', hl, _⟩⟩ := finish_spec h hi
          · have hs' : (Lsm.step ext x t s (.finish i)).2 = s' := by
              unfold Lsm.step; simp only [hi]; rw [e1]
            rw [hs'] at h1 ⊢
            have hnn : n' = n := by
              obtain ⟨hd', hreg'⟩ := h1.reg
              rw [hkv] at hreg'
              have a1 : n' ≤ n := by
                rcases Nat.eq_zero_or_pos n' with h0 | h0
                · omega
                · obtain ⟨v, hv, _⟩ := hreg'.some n' h0 (Nat.le_refl _)
                  exact (at_le hreg hv).2
              have := h2.more
              omega
            rw [hkv, hnn]
            exact h.gc
          · have hs' : (Lsm.step ext x t s (.finish i)).2 = s' := by
              unfold Lsm.step; simp only [hi]; rw [e1]
            rw [hs'] at h1 ⊢
            rw [inv_num h1 i1]
            have h0 := (at_le hreg hj.here).1
            obtain ⟨u, hu, _, _, ok⟩ := hreg.some n h0 (Nat.le_refl _)
            have hvo : VersionOk v := by rw [at_unique hj.here hu]; exact ok
            refine gcOk_publish h hp hk' hat (v := v) ⟨hvo, fun h => by omega, fun _ => hj.here⟩ ?_
            intro l en hen
            rcases (hl l en).1 hen with h2 | h2
            · exact .inr h2
            · exact .inl h2.1
      refine ⟨n', ?_, ?_, ?_⟩
      · rw [hF]
        exact { h1 with gc := hgc }
      · rw [hF]
        exact ⟨h2.more, h2.versions, h2.files, h2.gone⟩
      · intro log exact logs cur hc hfit hex
        obtain ⟨n'', h3, h4⟩ := cont_finish hc h hfit hex i
        rw [hF, inv_num h1 h3]
        exact { h4 with }
    · have hkv : (apply s.kv t p.edits p.expected).1 = s.kv := by
        rcases apply_spec h.good hreg p.edits p.expected with ⟨e', ha⟩ | ⟨m', h', v, v', ha, _⟩
        · rw [ha]
        · rw [ha] at hk; cases hk
      have hF : LsmFail.finish t { s with jobs := s.jobs.eraseIdx i } p .told keep g =
          { s with jobs := s.jobs.eraseIdx i, files := cleanupBut keep s.files p.outputs } := by
        unfold LsmFail.finish
        simp only [e, hkv]
      rw [hF]
      exact ⟨n, d1, d2, fun hc _ _ => d3 hc⟩

/-! ## Histories -/

/-- The step does not lose the answer to a job. -/
def heard : LsmFail.Op K R → Bool
  | .finish _ .lost _ _ => false
  | _ => true

def isRestart : LsmFail.Op K R → Bool
  | .fine o => isReopen o
  | _ => false

def isEnd : LsmFail.Op K R → Bool
  | .fine o => isFinish o
  | .finish _ _ _ _ => true
  | _ => false

/-- What one step writes. -/
def writesF (ext : R → Option K) : LsmFail.Op K R → List (Ver K R)
  | .fine o => stepWrites ext o
  | _ => []

theorem logOfF_cons (ext : R → Option K) (o : LsmFail.Op K R) (os : List (LsmFail.Op K R)) :
    logOfF ext (o :: os) = writesF ext o ++ logOfF ext os := by
  unfold logOfF
  rw [List.flatMap_cons]
  rcases o with (_ | _ | _ | _ | _ | _ | _ | _ | _) | _ | _ | _ | _ <;> rfl

theorem step_all (h : Inv ext x t n s) (hn : 0 < x.readRows) (o : LsmFail.Op K R) (ho : heard o = true) :
    ∃ n', Inv ext x t n' (LsmFail.step ext x t s o).2 ∧ Keeps t n s n' (LsmFail.step ext x t s o).2 := by
  obtain ⟨hd, hreg⟩ := h.reg
  cases o with
  | fine o => exact keeps_step h hn o
  | flushTorn count left =>
    obtain ⟨a, b, _⟩ := (flushTorn_frame s count left).all h
    exact ⟨n, a, b⟩
  | flushPublish a =>
    obtain ⟨n', h1, h2, _⟩ := flushPublish_all h hn a
    exact ⟨n', h1, h2⟩
  | startTorn task head skip done left keep =>
    obtain ⟨a, b, _⟩ := (startTorn_frame h hn task head skip done left keep).all h
    exact ⟨n, a, b⟩
  | finish i a keep g =>
    unfold LsmFail.step
    cases hi : s.jobs[i]? with
    | none =>
      simp only [hi]
      exact ⟨n, h, Keeps.of_kv hreg rfl (fun _ _ _ => rfl)⟩
    | some p =>
      simp only [hi]
      obtain ⟨n', h1, h2, _⟩ := finish_all h hn hi a (by rintro rfl; simp [heard] at ho) keep g
      exact ⟨n', h1, h2⟩

theorem run_all (hn : 0 < x.readRows) : ∀ (ops : List (LsmFail.Op K R)) {n : Nat} {s : Db K R}, Inv ext x t n s →
    (∀ o ∈ ops, heard o = true) →
    ∃ n', Inv ext x t n' (LsmFail.run ext x t s ops).2 ∧ Keeps t n s n' (LsmFail.run ext x t s ops).2
  | [], n, s, h, _ => by
    obtain ⟨hd, hreg⟩ := h.reg
    exact ⟨n, h, Keeps.of_kv hreg rfl (fun _ _ _ => rfl)⟩
  | o :: os, n, s, h, ho => by
    obtain ⟨n1, h1, k1⟩ := step_all h hn o (ho o List.mem_cons_self)
    obtain ⟨n2, h2, k2⟩ := run_all hn os h1 (fun o' h' => ho o' (List.mem_cons_of_mem _ h'))
    obtain ⟨hd, hreg⟩ := h.reg
    obtain ⟨hd1, hreg1⟩ := h1.reg
    exact ⟨n2, h2, Keeps.trans hreg hreg1 k1 k2⟩

theorem run_appendF (ext : R → Option K) (x : Exec K R) (t : Nat) : ∀ (a b : List (LsmFail.Op K R)) (s : Db K R),
    (LsmFail.run ext x t s (a ++ b)).2 = (LsmFail.run ext x t (LsmFail.run ext x t s a).2 b).2
  | [], _, _ => rfl
  | o :: a, b, s => run_appendF ext x t a b _

theorem step_cont (hc : Cont ext t n s log exact logs cur) (h : Inv ext x t n s) (hn : 0 < x.readRows)
    (hfun : Functional (· ∈ log)) (hfit : ¬ exact → Fitting x.readRows t s) (o : LsmFail.Op K R) (ho : heard o = true)
    (hre : isRestart o = false) (hex : exact → isEnd o = false) (hok : (LsmFail.step ext x t s o).1 = true) :
    ∃ n' logs' cur', Inv ext x t n' (LsmFail.step ext x t s o).2 ∧
      Cont ext t n' (LsmFail.step ext x t s o).2 (log ++ writesF ext o) exact logs' cur' := by
  cases o with
  | fine o => exact cont_step hc h hn hfun hfit o hre hex hok
  | flushTorn count left =>
    obtain ⟨a, _, b⟩ := (flushTorn_frame s count left).all h
    exact ⟨n, logs, cur, a, by simpa [writesF, LsmFail.step] using b hc⟩
  | flushPublish a =>
    obtain ⟨n', h1, _, h2⟩ := flushPublish_all h hn a
    exact ⟨n', logs, cur, h1, by simpa [writesF, LsmFail.step] using h2 hc⟩
  | startTorn task head skip done left keep =>
    obtain ⟨a, _, b⟩ := (startTorn_frame h hn task head skip done left keep).all h
    exact ⟨n, logs, cur, a, by simpa [writesF, LsmFail.step] using b hc⟩
  | finish i a keep g =>
    have hne : ¬ exact := fun he => by simpa [isEnd] using hex he
    simp only [writesF, List.append_nil]
    unfold LsmFail.step
    cases hi : s.jobs[i]? with
    | none =>
      simp only [hi]
      exact ⟨n, logs, cur, h, hc⟩
    | some p =>
      simp only [hi]
      obtain ⟨n', h1, _, h2⟩ := finish_all h hn hi a (by rintro rfl; simp [heard] at ho) keep g
      exact ⟨n', logs, cur, h1, h2 hc (hfit hne) hne⟩

theorem run_cont (hn : 0 < x.readRows) : ∀ (ops : List (LsmFail.Op K R)) {n : Nat} {s : Db K R} {log : List (Ver K R)}
    {logs : List (List (Ver K R))} {cur : List (Ver K R)}, Cont ext t n s log exact logs cur → Inv ext x t n s →
    Functional (· ∈ log ++ logOfF ext ops) → (¬ exact → Fitting x.readRows t (LsmFail.run ext x t s ops).2) →
    (∀ o ∈ ops, heard o = true) → (∀ o ∈ ops, isRestart o = false) → (exact → ∀ o ∈ ops, isEnd o = false) →
    (LsmFail.run ext x t s ops).1 = true →
    ∃ n' logs' cur', Inv ext x t n' (LsmFail.run ext x t s ops).2 ∧
      Cont ext t n' (LsmFail.run ext x t s ops).2 (log ++ logOfF ext ops) exact logs' cur'
  | [], n, s, log, logs, cur, hc, h, _, _, _, _, _, _ => ⟨n, logs, cur, h, by simpa [logOfF, LsmFail.run] using hc⟩
  | o :: os, n, s, log, logs, cur, hc, h, hfun, hfit, hh, hre, hex, hok => by
    unfold LsmFail.run at hok
    simp only [Bool.and_eq_true] at hok
    have hh' : ∀ p ∈ os, heard p = true := fun p hp => hh p (List.mem_cons_of_mem _ hp)
    obtain ⟨nk, hik, hk1⟩ := step_all h hn o (hh o List.mem_cons_self)
    obtain ⟨nk2, hik2, hk2⟩ := run_all hn os hik hh'
    have hfit1 : ¬ exact → Fitting x.readRows t (LsmFail.step ext x t s o).2 := fun h => fitting_back hik hk2 (hfit h)
    have hfit0 : ¬ exact → Fitting x.readRows t s := fun he => fitting_back h hk1 (hfit1 he)
    obtain ⟨n1, l1, c1, h1, hc1⟩ := step_cont hc h hn
      (fun a b ha hb => hfun a b (List.mem_append_left _ ha) (List.mem_append_left _ hb)) hfit0 o
      (hh o List.mem_cons_self) (hre o List.mem_cons_self) (fun he => hex he o List.mem_cons_self) hok.1
    rw [logOfF_cons, ← List.append_assoc] at hfun ⊢
    exact run_cont hn os hc1 h1 hfun hfit hh' (fun p hp => hre p (List.mem_cons_of_mem _ hp))
      (fun he p hp => hex he p (List.mem_cons_of_mem _ hp)) hok.2

end Tonbo.Lemmas.LsmFail
