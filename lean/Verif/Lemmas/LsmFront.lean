import Verif.Lemmas.LsmContent
import Verif.Spec.FleetView

/-!
# What the files alone hold, whatever happens to the memory
-/

set_option linter.unusedSectionVars false

namespace Tonbo.Lemmas.Lsm
open Tonbo.Model Tonbo.Model.Manifest Tonbo.Model.Planner Tonbo.Model.Outcome Tonbo.Model.Lsm Tonbo.Spec
open Tonbo.Lemmas.Manifest Tonbo.Lemmas.Outcome
open Tonbo.Lemmas.Mem (Rep Imm.Rep Imm.WF Imm.Content Imm.exists_content lastWrite_mem rep_new call_last lastWrite_empty_of)
open Tonbo.Lemmas.Plan (forall₂_getElem? forall₂_mem_right mem_lastWrite)
open Tonbo.Model.Sst (File)

variable {K R : Type} [LinearOrder K]

/-- The writes that are in memory only. -/
def restOf (s : Db K R) (logs : List (List (Ver K R))) (cur : List (Ver K R)) : List (Ver K R) :=
  (logs.drop (doneRuns s)).flatten ++ cur

/-- The tables of the latest version hold the writes `pre` and nothing else; of every write at least a newer one
of its key. -/
structure Front (ext : R → Option K) (t n : Nat) (s : Db K R) (pre : List (Ver K R))
    (logs : List (List (Ver K R))) (cur : List (Ver K R)) : Prop where
  runs : List.Forall₂ (Imm.Rep ext) s.runs.runs logs
  mem : Rep ext s.runs.mem cur
  flush : ∀ p c, s.flushing = .written p c → c ≤ logs.length ∧
    ∀ d ∈ p.outputs, ∀ f, s.files ⟨d.level, d.id⟩ = some f → ∀ w, Holds f w ↔ w ∈ (logs.take c).flatten
  done : doneRuns s ≤ logs.length
  listed : ∀ l e, Lst s.kv t l e → ∀ f, s.files ⟨l, e.id⟩ = some f → ∀ w, Holds f w → w ∈ pre
  jobs : ∀ p ∈ s.jobs, ∀ d ∈ p.outputs, ∀ f, s.files ⟨d.level, d.id⟩ = some f → ∀ w, Holds f w → w ∈ pre
  cover : ∀ w ∈ pre, ∃ u, OnDisk t n s u ∧ u.key = w.key ∧ w.ts ≤ u.ts

section Steps
variable {ext : R → Option K} {x : Exec K R} {t n : Nat} {s : Db K R} {pre : List (Ver K R)}
  {logs : List (List (Ver K R))} {cur : List (Ver K R)}

theorem front_write (hc : Front ext t n s pre logs cur) (op : Mem.Op K R)
    (hok : (Lsm.step ext x t s (.write op)).1 = true) :
    ∃ logs' cur', Front ext t n (Lsm.step ext x t s (.write op)).2 pre logs' cur' ∧
      restOf (Lsm.step ext x t s (.write op)).2 logs' cur' = restOf s logs cur ++ batchWrites ext op := by
  have hcall : s.runs.call ext op = (true, (s.runs.call ext op).2) := Prod.ext hok rfl
  rcases call_last hc.mem hcall with ⟨h1, h2⟩ | ⟨m, h1, h2, h3⟩
  · refine ⟨logs, cur ++ batchWrites ext op, ⟨?_, h2, hc.flush, hc.done, hc.listed, hc.jobs, hc.cover⟩, ?_⟩
    · change List.Forall₂ _ (s.runs.call ext op).2.runs _
      rw [h1]; exact hc.runs
    · exact (List.append_assoc _ _ _).symm
  · refine ⟨logs ++ [cur], batchWrites ext op, ⟨?_, h3, ?_, ?_, hc.listed, hc.jobs, hc.cover⟩, ?_⟩
    · change List.Forall₂ _ (s.runs.call ext op).2.runs _
      rw [h1]
      exact List.rel_append hc.runs (.cons h2 .nil)
    · intro p c hp
      obtain ⟨g1, g2⟩ := hc.flush p c hp
      refine ⟨by simp; omega, ?_⟩
      rw [take_append_le g1]
      exact g2
    · have := hc.done
      change doneRuns s ≤ _
      simp; omega
    · change ((logs ++ [cur]).drop (doneRuns s)).flatten ++ _ = ((logs.drop (doneRuns s)).flatten ++ cur) ++ _
      rw [drop_append_le hc.done, List.flatten_append, List.flatten_singleton]

/-- A change of files that keeps those of published and waiting tables. -/
theorem front_frame {s' : Db K R} (hc : Front ext t n s pre logs cur) (h : Inv ext x t n s)
    (hr : s'.runs = s.runs) (hkv : s'.kv = s.kv) (hfl : s'.flushing = s.flushing) (hj : s'.jobs = s.jobs)
    (hf : ∀ p : Path, p.id < s.next → s'.files p = s.files p) : Front ext t n s' pre logs cur := by
  have hdone : doneRuns s' = doneRuns s := by unfold doneRuns; rw [hfl]
  refine ⟨by rw [hr]; exact hc.runs, by rw [hr]; exact hc.mem, ?_, by rw [hdone]; exact hc.done, ?_, ?_, ?_⟩
  · rw [hfl]
    intro p c hpc
    obtain ⟨g1, g2⟩ := hc.flush p c hpc
    refine ⟨g1, fun d hd f hff => g2 d hd f ?_⟩
    rw [← hf]
    · exact hff
    · exact (h.pend p (by unfold pendings; rw [hpc]; simp) d hd).1.2.2.1
  · rw [hkv]
    intro l e he f hff
    rw [hf _ (h.ent l e he).2.1] at hff
    exact hc.listed l e he f hff
  · rw [hj]
    intro p hpp d hd f hff
    have := (h.pend p (List.mem_append_right _ hpp) d hd).1.2.2.1
    simp only [entryOf] at this
    rw [hf _ this] at hff
    exact hc.jobs p hpp d hd f hff
  · intro w hw
    obtain ⟨u, ⟨v, l, e, f, h1, h2, h3, h4⟩, hrest⟩ := hc.cover w hw
    refine ⟨u, ⟨v, l, e, f, by rw [hkv]; exact h1, h2, ?_, h4⟩, hrest⟩
    rw [hf _ (h.ent l e ⟨n, v, h1, h2⟩).2.1]
    exact h3

theorem front_flushWrite (hc : Front ext t n s pre logs cur) (h : Inv ext x t n s)
    (hfun : Functional (· ∈ restOf s logs cur)) (count : Nat) (refs : Option (List WalRef)) :
    Front ext t n (flushWrite ext x s count refs) pre logs cur ∧
      doneRuns (flushWrite ext x s count refs) = doneRuns s := by
  unfold flushWrite
  cases hfl : s.flushing with
  | written p c => exact ⟨hc, rfl⟩
  | published c => exact ⟨hc, rfl⟩
  | idle =>
    have hdone : doneRuns s = 0 := by unfold doneRuns; rw [hfl]
    simp only
    by_cases hr : s.runs.runs.take count = []
    · rw [if_pos hr]; exact ⟨hc, rfl⟩
    rw [if_neg hr]
    have hskip : Front ext t n { s with next := s.next + 1 } pre logs cur :=
      front_frame hc h rfl rfl rfl rfl (fun _ _ => rfl)
    have hmem := fun m (hm : m ∈ s.runs.runs.take count) => h.mem.2 m (List.mem_of_mem_take hm)
    have hruns : List.Forall₂ (Imm.Rep ext) (s.runs.runs.take count) (logs.take count) :=
      List.forall₂_take count hc.runs
    have hsubt : ∀ w ∈ (logs.take count).flatten, w ∈ restOf s logs cur := by
      intro w hw
      obtain ⟨l, hl, hw⟩ := List.mem_flatten.1 hw
      unfold restOf
      rw [hdone, List.drop_zero]
      exact List.mem_append_left _ (List.mem_flatten.2 ⟨l, List.mem_of_mem_take hl, hw⟩)
    cases hf : Flush.flush ext (s.runs.runs.take count) with
    | error e => rw [hfl] at hskip; exact ⟨hskip, by rw [hdone]; rfl⟩
    | ok tab =>
      simp only
      cases hfile : tab.file ext with
      | none => rw [hfl] at hskip; exact ⟨hskip, by rw [hdone]; rfl⟩
      | some f =>
        simp only
        have hne : ∃ m ∈ s.runs.runs.take count, ∃ v, Imm.Content m v := by
          obtain ⟨m, hm⟩ := List.exists_mem_of_ne_nil _ hr
          exact ⟨m, hm, Imm.exists_content (hmem m hm)⟩
        have hfl' : Functional (· ∈ (logs.take count).flatten) := fun a b ha hb =>
          hfun a b (hsubt _ ha) (hsubt _ hb)
        have hholds : ∀ w, Holds f w ↔ w ∈ (logs.take count).flatten := by
          obtain ⟨tab', f', g1, g2, _, _, g5, g6, _⟩ := Lemmas.Flush.flush_spec hmem hne
          rw [hf] at g1
          cases g1
          rw [hfile] at g2
          cases g2
          intro w
          rw [← runs_content hruns hfl']
          obtain ⟨k, ts, op⟩ := w
          cases op with
          | put r => exact g5 ⟨k, ts⟩ r
          | del => exact g6 ⟨k, ts⟩
        have hc' : Front ext t n { s with files := setFile s.files ⟨0, s.next⟩ (some f), next := s.next + 1 } pre logs cur := by
          refine front_frame hc h rfl rfl rfl rfl (fun p hp => ?_)
          simp only
          rw [setFile_ne]
          rintro rfl
          exact absurd hp (Nat.lt_irrefl _)
        have hlen : (s.runs.runs.take count).length = min count logs.length := by
          rw [List.length_take, hc.runs.length_eq]
        refine ⟨⟨hc'.runs, hc'.mem, ?_, Nat.zero_le _, hc'.listed, hc'.jobs, hc'.cover⟩, by rw [hdone]; rfl⟩
        intro p c hpc
        simp only [Flushing.written.injEq] at hpc
        obtain ⟨rfl, rfl⟩ := hpc
        refine ⟨by rw [hlen]; exact Nat.min_le_right _ _, ?_⟩
        intro d hd g hg w
        rw [List.mem_singleton.1 hd] at hg
        simp only [descOf, setFile_eq, Option.some.injEq] at hg
        subst hg
        rw [hlen, ← List.take_eq_take_min]
        exact hholds w

theorem front_setWal (hc : Front ext t n s pre logs cur) (h : Inv ext x t n s) (refs : List WalRef) :
    ∃ n', Inv ext x t n' (setWal t s refs) ∧ Front ext t n' (setWal t s refs) pre logs cur ∧
      doneRuns (setWal t s refs) = doneRuns s := by
  obtain ⟨hd, hreg⟩ := h.reg
  rcases setWal_spec h refs with e | ⟨kv', e, h1, v, v', hb, hat, _, hk, hl, _⟩
  · rw [e]
    exact ⟨n, h, hc, rfl⟩
  refine ⟨n + 1, h1, ?_⟩
  rw [e]
  refine ⟨⟨hc.runs, hc.mem, hc.flush, hc.done, ?_, hc.jobs, ?_⟩, rfl⟩
  · intro l en hen f hf w hw
    refine hc.listed l en ?_ f hf w hw
    rcases (lst_publish hreg hk hat l en).1 hen with h2 | h2
    · exact h2
    · have := (hl l en).1 h2
      exact ⟨n, v, (base_sub hb this).2, this⟩
  · intro w hw
    obtain ⟨u, ⟨u', l, en, f, g1, g2, g3⟩, h2⟩ := hc.cover w hw
    have huv : u' = v := at_unique g1 (hb.2.2 (at_le hreg g1).1)
    rw [huv] at g2
    exact ⟨u, ⟨v', l, en, f, hat, (hl l en).2 g2, g3⟩, h2⟩

theorem front_flushPublish (hc : Front ext t n s pre logs cur) (h : Inv ext x t n s) :
    ∃ n' more, Inv ext x t n' (flushPublish t s) ∧ Front ext t n' (flushPublish t s) (pre ++ more) logs cur ∧
      restOf s logs cur = more ++ restOf (flushPublish t s) logs cur := by
  cases hfl : s.flushing with
  | idle =>
    have e : flushPublish t s = s := by unfold flushPublish; rw [hfl]
    rw [e]
    exact ⟨n, [], h, by rw [List.append_nil]; exact hc, rfl⟩
  | published c =>
    have e : flushPublish t s = s := by unfold flushPublish; rw [hfl]
    rw [e]
    exact ⟨n, [], h, by rw [List.append_nil]; exact hc, rfl⟩
  | written p c =>
    have hdone : doneRuns s = 0 := by unfold doneRuns; rw [hfl]
    have hpp : p ∈ pendings s := by unfold pendings; rw [hfl]; simp
    rcases flushPublish_spec h hfl with ⟨e, h1⟩ | ⟨kv', e, h1, d, refs, v, v', hpd, hb, hat, _, hk, hl, _⟩
    · refine ⟨n, [], h1, ?_⟩
      rw [List.append_nil, e]
      refine ⟨⟨hc.runs, hc.mem, ?_, Nat.zero_le _, hc.listed, hc.jobs, hc.cover⟩, ?_⟩
      · intro q c' hq
        simp at hq
      · unfold restOf
        rw [hdone]
        rfl
    · refine ⟨n + 1, (logs.take c).flatten, h1, ?_⟩
      obtain ⟨hd0, hreg⟩ := h.reg
      rw [e]
      obtain ⟨g1, g2⟩ := hc.flush p c hfl
      have hdp : d ∈ p.outputs := by rw [hpd]; simp
      obtain ⟨hdo, _⟩ := h.pend p hpp d hdp
      obtain ⟨f, hf, _⟩ := hdo.2.2.2
      have hlst := lst_publish hreg hk hat
      refine ⟨⟨hc.runs, hc.mem, ?_, g1, ?_, ?_, ?_⟩, ?_⟩
      · intro q c' hq
        simp at hq
      · intro l en hen g hg w hw
        rcases (hlst l en).1 hen with hen | hen
        · exact List.mem_append_left _ (hc.listed l en hen g hg w hw)
        · rcases (hl l en).1 hen with ⟨h2, h3⟩ | h2
          · subst h2
            subst h3
            exact List.mem_append_right _ ((g2 d hdp g hg w).1 hw)
          · exact List.mem_append_left _ (hc.listed l en ⟨n, v, (base_sub hb h2).2, h2⟩ g hg w hw)
      · exact fun q hq d hd f hf w hw => List.mem_append_left _ (hc.jobs q hq d hd f hf w hw)
      · intro w hw
        rcases List.mem_append.1 hw with hw | hw
        · obtain ⟨u, ⟨v2, l, en, g, a1, a2, a3, a4⟩, hrest⟩ := hc.cover w hw
          have h0 := (at_le hreg a1).1
          rw [at_unique a1 (hb.2.2 h0)] at a2
          exact ⟨u, ⟨v', l, en, g, hat, (hl _ _).2 (.inr a2), a3, a4⟩, hrest⟩
        · exact ⟨w, ⟨v', d.level, entryOf d, f, hat, (hl _ _).2 (.inl ⟨rfl, rfl⟩), hf, (g2 d hdp f hf w).2 hw⟩, rfl,
            Nat.le_refl _⟩
      · unfold restOf
        rw [hdone, List.drop_zero]
        change _ = (logs.take c).flatten ++ ((logs.drop c).flatten ++ cur)
        rw [← List.append_assoc, ← List.flatten_append, List.take_append_drop]

theorem front_flushDrain (hc : Front ext t n s pre logs cur) :
    ∃ logs', Front ext t n (flushDrain s) pre logs' cur ∧ restOf (flushDrain s) logs' cur = restOf s logs cur := by
  unfold flushDrain
  cases hfl : s.flushing with
  | idle => exact ⟨logs, hc, rfl⟩
  | written p c => exact ⟨logs, hc, rfl⟩
  | published c =>
    have hdone : doneRuns s = c := by unfold doneRuns; rw [hfl]
    have hle : c ≤ s.runs.runs.length := by
      rw [hc.runs.length_eq, ← hdone]
      exact hc.done
    simp only [if_pos hle]
    refine ⟨logs.drop c, ⟨?_, hc.mem, ?_, Nat.zero_le _, hc.listed, hc.jobs, hc.cover⟩, ?_⟩
    · exact List.forall₂_drop c hc.runs
    · intro q c' hq
      simp at hq
    · unfold restOf
      rw [hdone]
      rfl

theorem front_start (hc : Front ext t n s pre logs cur) (h : Inv ext x t n s) (hn : 0 < x.readRows)
    (task : PTask K) (head : Option Nat) (skip : Nat) :
    Front ext t n (Lsm.step ext x t s (.start task head skip)).2 pre logs cur ∧
      doneRuns (Lsm.step ext x t s (.start task head skip)).2 = doneRuns s := by
  obtain ⟨s', r, e, a1, a2, a3, a4, a5, a6, a7, a8⟩ := start_spec h hn task head skip
  have hc' : Front ext t n s' pre logs cur := front_frame hc h a1 a2 a4 a5 a7
  have hdone : doneRuns s' = doneRuns s := by unfold doneRuns; rw [a4]
  unfold Lsm.step
  simp only [e]
  cases r with
  | skipped => exact ⟨hc', hdone⟩
  | failed err => exact ⟨hc', hdone⟩
  | done => exact ⟨hc', hdone⟩
  | ready p =>
    obtain ⟨⟨v, o, b1, _⟩, ⟨fs, gs, c1, c2, _, c3, _⟩, b3, b4⟩ := a8 p rfl
    refine ⟨⟨hc'.runs, hc'.mem, hc'.flush, hc'.done, hc'.listed, ?_, hc'.cover⟩, hdone⟩
    intro q hq d hd f hf w hw
    rcases List.mem_append.1 hq with hq' | hq'
    · exact hc'.jobs q hq' d hd f hf w hw
    · rw [List.mem_singleton.1 hq'] at hd
      obtain ⟨g, hg, hgf⟩ := (readAll_mem (fun d hd => (b3 d hd).1) c2).2 d hd
      have hfg : f = g := by
        have : s'.files ⟨d.level, d.id⟩ = some f := hf
        rw [hgf] at this
        exact (Option.some.inj this).symm
      subst hfg
      obtain ⟨f', hf', hw'⟩ := c3 w ⟨f, hg, hw⟩
      have hin : ∀ d ∈ p.inputs, DescOk s'.files s'.next d := fun d hd =>
        descOk_mono (names_descOk h.ent b1.here (b1.names d hd))
          (a7 _ (names_descOk h.ent b1.here (b1.names d hd)).2.2.1) a6
      obtain ⟨d', hd', hfd⟩ := (readAll_mem hin c1).1 f' hf'
      have hnm := b1.names d' hd'
      have hl : Lst s.kv t d'.level _ := ⟨n, v, b1.here, hnm.1⟩
      rw [← a2] at hl
      exact hc'.listed _ _ hl f' hfd w hw'

theorem front_finish (hc : Front ext t n s pre logs cur) (h : Inv ext x t n s)
    (hfit : Fitting x.readRows t s) (i : Nat) :
    ∃ n', Inv ext x t n' (Lsm.step ext x t s (.finish i)).2 ∧
      Front ext t n' (Lsm.step ext x t s (.finish i)).2 pre logs cur ∧
      doneRuns (Lsm.step ext x t s (.finish i)).2 = doneRuns s := by
  obtain ⟨hd0, hreg⟩ := h.reg
  unfold Lsm.step
  cases hi : s.jobs[i]? with
  | none => simp only [hi]; exact ⟨n, h, hc, trivial⟩
  | some p =>
    have hpj : p ∈ s.jobs := List.mem_of_getElem? hi
    have hp : p ∈ pendings s := List.mem_append_right _ hpj
    simp only [hi]
    obtain ⟨s', r, e, ⟨_, _, h1, hkv, hf, hr, _, _, hfl, hj⟩ | ⟨_, h1, hf, _, hr, _, hfl, hj, v, v', target, o, hjf, hat, hv', hk, hl, _⟩⟩ :=
      finish_spec h hi
    · rw [e]
      have hdone : doneRuns s' = doneRuns s := by unfold doneRuns; rw [hfl]
      have hsome : ∀ q f, s'.files q = some f → s.files q = some f := by
        intro q f hq
        rw [hf] at hq
        exact cleanup_some _ _ _ _ hq
      refine ⟨n, h1, ⟨by rw [hr]; exact hc.runs, by rw [hr]; exact hc.mem, ?_, by rw [hdone]; exact hc.done, ?_, ?_, ?_⟩, hdone⟩
      · rw [hfl]
        intro q c hq
        obtain ⟨g1, g2⟩ := hc.flush q c hq
        exact ⟨g1, fun d hd f hff => g2 d hd f (hsome _ _ hff)⟩
      · rw [hkv]
        exact fun l en hen f hff => hc.listed l en hen f (hsome _ _ hff)
      · rw [hj]
        exact fun q hq d hd f hff => hc.jobs q ((List.eraseIdx_sublist _ _).subset hq) d hd f (hsome _ _ hff)
      · intro w hw
        obtain ⟨u, ⟨v, l, en, g, a1, a2, a3, a4⟩, hrest⟩ := hc.cover w hw
        refine ⟨u, ⟨v, l, en, g, by rw [hkv]; exact a1, a2, ?_, a4⟩, hrest⟩
        rw [hf, cleanup_other]
        · exact a3
        · intro d hd1 hc
          rw [(h.pend p hp d hd1).1.1] at hc
          simp only [Option.some.injEq, Path.mk.injEq] at hc
          exact (h.pend p hp d hd1).2 l en ⟨n, v, a1, a2⟩ hc.2.symm
    · rw [e]
      have hdone : doneRuns s' = doneRuns s := by unfold doneRuns; rw [hfl]
      have hlst := lst_publish hreg hk hat
      refine ⟨n + 1, h1, ⟨by rw [hr]; exact hc.runs, by rw [hr]; exact hc.mem, by rw [hfl, hf]; exact hc.flush,
        by rw [hdone]; exact hc.done, ?_, ?_, ?_⟩, hdone⟩
      · rw [hf]
        intro l en hen g hg w hw
        rcases (hlst l en).1 hen with hen | hen
        · exact hc.listed l en hen g hg w hw
        · rcases (hl l en).1 hen with ⟨d, hd, rfl, rfl⟩ | h2
          · exact hc.jobs p hpj d hd g hg w hw
          · exact hc.listed l en ⟨n, v, hjf.here, h2.1⟩ g hg w hw
      · rw [hf, hj]
        exact fun q hq => hc.jobs q ((List.eraseIdx_sublist _ _).subset hq)
      · intro w hw
        obtain ⟨u, ⟨v2, l, en, g, a1, a2, a3, a4⟩, hk1, hk2⟩ := hc.cover w hw
        rw [at_unique a1 hjf.here] at a2
        by_cases hin : ∃ d ∈ p.inputs, d.level = l ∧ d.id = en.id
        · obtain ⟨d, hd, rfl, hid⟩ := hin
          obtain ⟨fs, gs, c1, c2, _, _, _, c3⟩ := (h.jobs p hpj).2
          have hino : ∀ d ∈ p.inputs, DescOk s.files s.next d := fun d hd =>
            names_descOk h.ent hjf.here (hjf.names d hd)
          obtain ⟨f, hff, hfd⟩ := (readAll_mem hino c1).2 d hd
          rw [hid, a3] at hfd
          cases hfd
          obtain ⟨u', ⟨g', hg', hu'⟩, hk3, hk4⟩ := c3 (by
            intro f hf'
            obtain ⟨d', hd', hfd⟩ := (readAll_mem hino c1).1 f hf'
            exact hfit _ _ ⟨n, v, hjf.here, (hjf.names d' hd').1⟩ f hfd) u ⟨g, hff, a4⟩
          obtain ⟨d', hd', hgd⟩ := (readAll_mem (fun d hd => (h.pend p hp d hd).1) c2).1 g' hg'
          refine ⟨u', ⟨v', d'.level, entryOf d', g', hat, (hl _ _).2 (.inl ⟨d', hd', rfl, rfl⟩), ?_, hu'⟩,
            hk3.trans hk1, Nat.le_trans hk2 hk4⟩
          rw [hf]
          exact hgd
        · refine ⟨u, ⟨v', l, en, g, hat, (hl _ _).2 (.inr ⟨a2, ?_⟩), by rw [hf]; exact a3, a4⟩, hk1, hk2⟩
          intro d hd hc
          exact hin ⟨d, hd, hc⟩

theorem front_reopen (hc : Front ext t n s pre logs cur) (h : Inv ext x t n s) (cap : Nat) :
    Front ext t n (Lsm.step ext x t s (.reopen cap)).2 pre [] [] ∧
      restOf (Lsm.step ext x t s (.reopen cap)).2 [] [] = ([] : List (Ver K R)) := by
  obtain ⟨k, hk, _⟩ := allocator_spec h
  unfold Lsm.step
  simp only [reopen, hk]
  refine ⟨⟨.nil, rep_new ext cap, by simp, Nat.zero_le _, hc.listed, by simp, hc.cover⟩, ?_⟩
  simp [restOf]

/-- One step: the tables hold what they held and, after a flush, the oldest writes that were in memory. -/
theorem front_step (hc : Front ext t n s pre logs cur) (h : Inv ext x t n s) (hn : 0 < x.readRows)
    (hfun : Functional (· ∈ restOf s logs cur)) (hfit : Fitting x.readRows t s) (o : Lsm.Op K R)
    (hok : (Lsm.step ext x t s o).1 = true) :
    ∃ n' more logs' cur', Inv ext x t n' (Lsm.step ext x t s o).2 ∧
      Front ext t n' (Lsm.step ext x t s o).2 (pre ++ more) logs' cur' ∧
      (isReopen o = false →
        restOf s logs cur ++ stepWrites ext o = more ++ restOf (Lsm.step ext x t s o).2 logs' cur') ∧
      (isReopen o = true → more = [] ∧ restOf (Lsm.step ext x t s o).2 logs' cur' = []) := by
  have hrest : ∀ s' : Db K R, doneRuns s' = doneRuns s → restOf s logs cur ++ [] = [] ++ restOf s' logs cur := by
    intro s' e
    unfold restOf
    rw [e]
    simp
  cases o with
  | write op =>
    obtain ⟨l, c, h1, h2⟩ := front_write (x := x) hc op hok
    exact ⟨n, [], l, c, inv_write h op, by rw [List.append_nil]; exact h1, fun _ => by rw [h2]; rfl,
      fun h => by simp [isReopen] at h⟩
  | flushWrite refs =>
    obtain ⟨h1, h2⟩ := front_flushWrite hc h hfun s.runs.runs.length refs
    exact ⟨n, [], logs, cur, inv_flushWrite h _ refs, by rw [List.append_nil]; exact h1,
      fun _ => hrest _ h2, fun h => by simp [isReopen] at h⟩
  | flushSome count refs =>
    obtain ⟨h1, h2⟩ := front_flushWrite hc h hfun count refs
    exact ⟨n, [], logs, cur, inv_flushWrite h _ refs, by rw [List.append_nil]; exact h1,
      fun _ => hrest _ h2, fun h => by simp [isReopen] at h⟩
  | setWal refs =>
    obtain ⟨n', h1, h2, h3⟩ := front_setWal hc h refs
    exact ⟨n', [], logs, cur, h1, by rw [List.append_nil]; exact h2, fun _ => hrest _ h3,
      fun h => by simp [isReopen] at h⟩
  | flushPublish =>
    obtain ⟨n', more, h1, h2, h3⟩ := front_flushPublish hc h
    exact ⟨n', more, logs, cur, h1, h2, fun _ => by rw [h3]; exact List.append_nil _, fun h => by simp [isReopen] at h⟩
  | flushDrain =>
    obtain ⟨l, h1, h2⟩ := front_flushDrain hc
    refine ⟨n, [], l, cur, inv_flushDrain h, by rw [List.append_nil]; exact h1, fun _ => ?_,
      fun h => by simp [isReopen] at h⟩
    have e : (Lsm.step ext x t s .flushDrain).2 = flushDrain s := rfl
    rw [e, h2]
    exact List.append_nil _
  | start task head skip =>
    obtain ⟨h1, h2⟩ := front_start hc h hn task head skip
    exact ⟨n, [], logs, cur, inv_start h hn task head skip, by rw [List.append_nil]; exact h1,
      fun _ => hrest _ h2, fun h => by simp [isReopen] at h⟩
  | finish i =>
    obtain ⟨n', h1, h2, h3⟩ := front_finish hc h hfit i
    exact ⟨n', [], logs, cur, h1, by rw [List.append_nil]; exact h2, fun _ => hrest _ h3,
      fun h => by simp [isReopen] at h⟩
  | reopen cap =>
    obtain ⟨h1, h2⟩ := front_reopen hc h cap
    exact ⟨n, [], [], [], inv_reopen h cap, by rw [List.append_nil]; exact h1,
      fun h => by simp [isReopen] at h, fun _ => ⟨rfl, h2⟩⟩

end Steps

/-! ## Histories -/

theorem sessionsFrom_cons (ext : R → Option K) (sofar : List (Ver K R)) (o : Lsm.Op K R) (os : List (Lsm.Op K R))
    (h : isReopen o = false) : sessionsFrom ext sofar (o :: os) = sessionsFrom ext (sofar ++ stepWrites ext o) os := by
  cases o with
  | reopen cap => simp [isReopen] at h
  | _ => simp [sessionsFrom, stepWrites]

theorem front_run {ext : R → Option K} {x : Exec K R} {t : Nat} (hn : 0 < x.readRows) :
    ∀ (ops : List (Lsm.Op K R)) {n : Nat} {s : Db K R} {P : List (List (Ver K R))} {pc sofar : List (Ver K R)}
    {logs : List (List (Ver K R))} {cur : List (Ver K R)}, Front ext t n s (P.flatten ++ pc) logs cur → Inv ext x t n s →
    sofar = pc ++ restOf s logs cur →
    Functional (· ∈ sofar ++ logOf ext ops) → Fitting x.readRows t (Lsm.run ext x t s ops).2 →
    (Lsm.run ext x t s ops).1 = true →
    ∃ n' Q pc' logs' cur', Inv ext x t n' (Lsm.run ext x t s ops).2 ∧
      Front ext t n' (Lsm.run ext x t s ops).2 ((P ++ Q).flatten ++ pc') logs' cur' ∧
      List.Forall₂ (· <+: ·) (Q ++ [pc']) (sessionsFrom ext sofar ops) ∧
      (sessionsFrom ext sofar ops).getLast? = some (pc' ++ restOf (Lsm.run ext x t s ops).2 logs' cur') ∧
      (∀ a, (Q ++ [pc']).head? = some a → pc <+: a)
  | [], n, s, P, pc, sofar, logs, cur, hc, h, hs, _, _, _ =>
    ⟨n, [], pc, logs, cur, h, by simpa [Lsm.run] using hc, .cons (by rw [hs]; exact List.prefix_append _ _) .nil,
      by simp [sessionsFrom, hs, Lsm.run], by simp⟩
  | o :: os, n, s, P, pc, sofar, logs, cur, hc, h, hs, hfun, hfit, hok => by
    unfold Lsm.run at hok
    simp only [Bool.and_eq_true] at hok
    obtain ⟨nk, hik, hk1⟩ := keeps_step h hn o
    obtain ⟨nk2, hik2, hk2⟩ := keeps_run hn os hik
    have hfit1 : Fitting x.readRows t (Lsm.step ext x t s o).2 := fitting_back hik hk2 hfit
    have hfit0 : Fitting x.readRows t s := fitting_back h hk1 hfit1
    obtain ⟨n1, more, l1, c1, h1, hc1, hr1, hr2⟩ := front_step hc h hn
      (fun a b ha hb => hfun a b (List.mem_append_left _ (by rw [hs]; exact List.mem_append_right _ ha))
        (List.mem_append_left _ (by rw [hs]; exact List.mem_append_right _ hb))) hfit0 o hok.1
    rw [logOf_cons] at hfun
    by_cases hre : isReopen o = true
    · obtain ⟨e1, e2⟩ := hr2 hre
      subst e1
      rw [List.append_nil] at hc1
      have hP : Front ext t n1 (Lsm.step ext x t s o).2 ((P ++ [pc]).flatten ++ []) l1 c1 := by simpa using hc1
      obtain ⟨n', Q, pc', l', c', g1, g2, g3, g4, g5⟩ := front_run hn os (sofar := []) hP h1 (by simp [e2])
        (fun a b ha hb => hfun a b (List.mem_append_right _ (List.mem_append_right _ (by simpa using ha)))
          (List.mem_append_right _ (List.mem_append_right _ (by simpa using hb)))) hfit hok.2
      have hse : sessionsFrom ext sofar (o :: os) = sofar :: sessionsFrom ext [] os := by
        cases o with
        | reopen cap => rfl
        | _ => simp [isReopen] at hre
      refine ⟨n', pc :: Q, pc', l', c', g1, by simpa [Lsm.run] using g2, ?_, ?_, by simp⟩
      · rw [hse]
        exact .cons (by rw [hs]; exact List.prefix_append _ _) g3
      · rw [hse, List.getLast?_cons, g4]
        rfl
    · simp only [Bool.not_eq_true] at hre
      have hP : Front ext t n1 (Lsm.step ext x t s o).2 (P.flatten ++ (pc ++ more)) l1 c1 := by simpa using hc1
      obtain ⟨n', Q, pc', l', c', g1, g2, g3, g4, g5⟩ := front_run hn os (sofar := sofar ++ stepWrites ext o) hP h1
        (by rw [hs, List.append_assoc, hr1 hre, List.append_assoc]) (by rw [List.append_assoc]; exact hfun) hfit hok.2
      rw [sessionsFrom_cons ext sofar o os hre]
      exact ⟨n', Q, pc', l', c', g1, g2, g3, g4, fun a ha => (List.prefix_append _ _).trans (g5 a ha)⟩

theorem front_new (ext : R → Option K) (cap t sv : Nat) :
    Front ext t 0 (Db.new cap t sv : Db K R) [] [] [] := by
  refine ⟨.nil, rep_new ext cap, ?_, Nat.zero_le _, ?_, ?_, by simp⟩
  · intro p c h
    simp [Db.new] at h
  · intro l e _ f hf
    simp [Db.new] at hf
  · intro p hp
    simp [Db.new] at hp

/-- Nothing is in memory only. -/
theorem rest_nil {ext : R → Option K} {t n : Nat} {s : Db K R} {pre : List (Ver K R)}
    {logs : List (List (Ver K R))} {cur : List (Ver K R)} (hc : Front ext t n s pre logs cur)
    (hr : s.runs.runs = []) (hm : s.runs.mem.index = []) : restOf s logs cur = [] := by
  have h1 : logs = [] := by
    have := hc.runs
    rw [hr] at this
    cases this
    rfl
  have h2 : cur = [] := by
    apply lastWrite_empty_of
    intro w hw
    obtain ⟨_, h, _⟩ := (hc.mem.2 w).2 hw
    rw [hm] at h
    cases h
  rw [h1, h2]
  simp [restOf]

/-- The state with an empty memory: what another process sees. -/
theorem inv_blank {ext : R → Option K} {x : Exec K R} {t n : Nat} {s : Db K R} (h : Inv ext x t n s) (cap : Nat) :
    Inv ext x t n { s with runs := Mem.Runs.new cap, flushing := .idle, jobs := [] } := by
  have hpe : pendings { s with runs := Mem.Runs.new cap, flushing := Flushing.idle, jobs := [] } = [] := rfl
  exact ⟨h.good, h.reg, memOk_new _ _, h.ent, h.uniq, h.top, by rw [hpe]; simp, by unfold pendIds; rw [hpe]; simp, by simp,
    by simp, h.gc⟩

theorem cont_blank {ext : R → Option K} {t n : Nat} {s : Db K R} {pre : List (Ver K R)}
    {logs : List (List (Ver K R))} {cur : List (Ver K R)} (hc : Front ext t n s pre logs cur) (cap : Nat) :
    Cont ext t n { s with runs := Mem.Runs.new cap, flushing := .idle, jobs := [] } pre False [] [] := by
  have hpe : pendings { s with runs := Mem.Runs.new cap, flushing := Flushing.idle, jobs := [] } = [] := rfl
  refine ⟨.nil, rep_new ext cap, by simp, by simp, Nat.zero_le _, hc.listed, by rw [hpe]; simp, ?_⟩
  intro w hw
  obtain ⟨u, h1, h2, h3⟩ := hc.cover w hw
  exact ⟨u, .inr (.inr h1), h2, h3, fun h => h.elim⟩

end Tonbo.Lemmas.Lsm
