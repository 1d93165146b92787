import Verif.Lemmas.LsmKeep
import Verif.Lemmas.StoreScan

/-!
# Nothing written is lost and nothing is invented by flushes and compactions
-/

set_option linter.unusedSectionVars false

namespace Tonbo.Lemmas.Lsm
open Tonbo.Model Tonbo.Model.Manifest Tonbo.Model.Planner Tonbo.Model.Outcome Tonbo.Model.Lsm Tonbo.Spec
open Tonbo.Lemmas.Manifest Tonbo.Lemmas.Outcome
open Tonbo.Lemmas.Mem (Rep Imm.Rep Imm.WF Imm.Content Imm.exists_content lastWrite_mem rep_new call_last)
open Tonbo.Lemmas.Plan (forall₂_getElem? forall₂_mem_right mem_lastWrite)
open Tonbo.Model.Sst (File)

variable {K R : Type} [LinearOrder K]

/-- Runs that the latest version already lists, and memory still holds. -/
def doneRuns (s : Db K R) : Nat :=
  match s.flushing with
  | .published c => c
  | _ => 0

/-- A table of version `n` holds `u`. -/
def OnDisk (t n : Nat) (s : Db K R) (u : Ver K R) : Prop :=
  ∃ v l e f, At s.kv t n v ∧ e ∈ v.ssts.getD l [] ∧ s.files ⟨l, e.id⟩ = some f ∧ Holds f u

/-- What memory and tables hold, against the log of writes. -/
structure Cont (ext : R → Option K) (t n : Nat) (s : Db K R) (log : List (Ver K R)) (exact : Prop)
    (logs : List (List (Ver K R))) (cur : List (Ver K R)) : Prop where
  runs : List.Forall₂ (Imm.Rep ext) s.runs.runs logs
  mem : Rep ext s.runs.mem cur
  sub : ∀ w ∈ logs.flatten ++ cur, w ∈ log
  flush : ∀ p c, s.flushing = .written p c → c ≤ logs.length ∧
    ∀ d ∈ p.outputs, ∀ f, s.files ⟨d.level, d.id⟩ = some f → ∀ w ∈ (logs.take c).flatten, Holds f w
  done : doneRuns s ≤ logs.length
  listed : ∀ l e, Lst s.kv t l e → ∀ f, s.files ⟨l, e.id⟩ = some f → ∀ w, Holds f w → w ∈ log
  pend : ∀ p ∈ pendings s, ∀ d ∈ p.outputs, ∀ f, s.files ⟨d.level, d.id⟩ = some f → ∀ w, Holds f w → w ∈ log
  cover : ∀ w ∈ log, ∃ u, (u ∈ (logs.drop (doneRuns s)).flatten ∨ u ∈ cur ∨ OnDisk t n s u) ∧
    u.key = w.key ∧ w.ts ≤ u.ts ∧ (exact → u = w)

theorem runs_content {ext : R → Option K} {ms : List (Mem.Imm K R)}
    {logs : List (List (Ver K R))} (h : List.Forall₂ (Imm.Rep ext) ms logs)
    (hf : Functional (· ∈ logs.flatten)) (w : Ver K R) :
    (∃ m ∈ ms, Imm.Content m w) ↔ w ∈ logs.flatten := by
  constructor
  · rintro ⟨m, hm, hw⟩
    obtain ⟨i, hi⟩ := List.mem_iff_getElem?.1 hm
    obtain ⟨l, hl, hrep⟩ := forall₂_getElem? h hi
    exact List.mem_flatten.2 ⟨l, List.mem_of_getElem? hl, lastWrite_mem ((hrep.2 w).1 hw)⟩
  · intro hw
    obtain ⟨l, hl, hw⟩ := List.mem_flatten.1 hw
    obtain ⟨m, hm, hrep⟩ := forall₂_mem_right h hl
    refine ⟨m, hm, (hrep.2 w).2 (mem_lastWrite l ?_ w hw)⟩
    exact fun a b ha hb => hf a b (List.mem_flatten.2 ⟨l, hl, ha⟩) (List.mem_flatten.2 ⟨l, hl, hb⟩)

theorem cleanup_some : ∀ (ds : List (Desc K)) (files : Path → Option (File K R)) (q : Path) (f : File K R),
    cleanup files ds q = some f → files q = some f
  | [], _, _, _, h => h
  | d :: ds, files, q, f, h => by
    unfold cleanup at h
    cases hd : d.data with
    | none => simp only [hd] at h; exact cleanup_some ds files q f h
    | some p =>
      simp only [hd] at h
      have := cleanup_some ds _ q f h
      unfold setFile at this
      split_ifs at this
      exact this

/-- The files of described tables, one for one. -/
theorem readAll_mem {files : Path → Option (File K R)} {next : Nat} {ds : List (Desc K)}
    (h : ∀ d ∈ ds, DescOk files next d) {fs : List (File K R)} (hr : readAll files ds = some fs) :
    (∀ f ∈ fs, ∃ d ∈ ds, files ⟨d.level, d.id⟩ = some f) ∧
    ∀ d ∈ ds, ∃ f ∈ fs, files ⟨d.level, d.id⟩ = some f := by
  obtain ⟨fs', h1, h2⟩ := readAll_ok ds h
  rw [hr] at h1
  cases h1
  constructor
  · intro f hf
    obtain ⟨d, hd, h3, _⟩ := forall₂_mem_right h2 hf
    exact ⟨d, hd, h3⟩
  · intro d hd
    obtain ⟨i, hi⟩ := List.mem_iff_getElem?.1 hd
    obtain ⟨f, hf, h3, _⟩ := forall₂_getElem? h2 hi
    exact ⟨f, List.mem_of_getElem? hf, h3⟩

/-- Which files the step may need to merge in one go. -/
def Fitting (readRows t : Nat) (s : Db K R) : Prop :=
  ∀ l e, Lst s.kv t l e → ∀ f, s.files ⟨l, e.id⟩ = some f → Fits readRows f

theorem drop_append_le {α : Type} {l : List α} {k : Nat} (h : k ≤ l.length) (l' : List α) :
    (l ++ l').drop k = l.drop k ++ l' := by
  rw [List.drop_append, Nat.sub_eq_zero_of_le h, List.drop_zero]

theorem take_append_le {α : Type} {l : List α} {k : Nat} (h : k ≤ l.length) (l' : List α) :
    (l ++ l').take k = l.take k := by
  rw [List.take_append, Nat.sub_eq_zero_of_le h, List.take_zero, List.append_nil]

section Steps
variable {ext : R → Option K} {x : Exec K R} {t n : Nat} {s : Db K R} {log : List (Ver K R)} {exact : Prop}
  {logs : List (List (Ver K R))} {cur : List (Ver K R)}

theorem cont_write (hc : Cont ext t n s log exact logs cur) (op : Mem.Op K R)
    (hok : (Lsm.step ext x t s (.write op)).1 = true) :
    ∃ logs' cur', Cont ext t n (Lsm.step ext x t s (.write op)).2 (log ++ batchWrites ext op) exact logs' cur' := by
  have hcall : s.runs.call ext op = (true, (s.runs.call ext op).2) := Prod.ext hok rfl
  have hsub : ∀ w ∈ logs.flatten ++ cur, w ∈ log ++ batchWrites ext op := fun w hw =>
    List.mem_append_left _ (hc.sub w hw)
  have hnew : ∀ w ∈ batchWrites ext op, w ∈ log ++ batchWrites ext op := fun w hw => List.mem_append_right _ hw
  rcases call_last hc.mem hcall with ⟨h1, h2⟩ | ⟨m, h1, h2, h3⟩
  · refine ⟨logs, cur ++ batchWrites ext op, ?_, h2, ?_, hc.flush, hc.done, ?_, ?_, ?_⟩
    · change List.Forall₂ _ (s.runs.call ext op).2.runs _
      rw [h1]; exact hc.runs
    · intro w hw
      rw [← List.append_assoc] at hw
      rcases List.mem_append.1 hw with hw | hw
      · exact hsub w hw
      · exact hnew w hw
    · exact fun l e he f hf w hw => List.mem_append_left _ (hc.listed l e he f hf w hw)
    · exact fun p hp d hd f hf w hw => List.mem_append_left _ (hc.pend p hp d hd f hf w hw)
    · intro w hw
      rcases List.mem_append.1 hw with hw | hw
      · obtain ⟨u, hu, hrest⟩ := hc.cover w hw
        refine ⟨u, ?_, hrest⟩
        rcases hu with hu | hu | hu
        · exact .inl hu
        · exact .inr (.inl (List.mem_append_left _ hu))
        · exact .inr (.inr hu)
      · exact ⟨w, .inr (.inl (List.mem_append_right _ hw)), rfl, Nat.le_refl _, fun _ => rfl⟩
  · refine ⟨logs ++ [cur], batchWrites ext op, ?_, h3, ?_, ?_, ?_, ?_, ?_, ?_⟩
    · change List.Forall₂ _ (s.runs.call ext op).2.runs _
      rw [h1]
      exact List.rel_append hc.runs (.cons h2 .nil)
    · intro w hw
      rcases List.mem_append.1 hw with hw | hw
      · rw [List.flatten_append, List.flatten_singleton] at hw
        exact hsub w hw
      · exact hnew w hw
    · intro p c hp
      obtain ⟨g1, g2⟩ := hc.flush p c hp
      refine ⟨by simp; omega, ?_⟩
      rw [take_append_le g1]
      exact g2
    · have := hc.done
      change doneRuns s ≤ _
      simp; omega
    · exact fun l e he f hf w hw => List.mem_append_left _ (hc.listed l e he f hf w hw)
    · exact fun p hp d hd f hf w hw => List.mem_append_left _ (hc.pend p hp d hd f hf w hw)
    · intro w hw
      change ∃ u, (u ∈ ((logs ++ [cur]).drop (doneRuns s)).flatten ∨ _) ∧ _
      rw [drop_append_le hc.done, List.flatten_append, List.flatten_singleton]
      rcases List.mem_append.1 hw with hw | hw
      · obtain ⟨u, hu, hrest⟩ := hc.cover w hw
        refine ⟨u, ?_, hrest⟩
        rcases hu with hu | hu | hu
        · exact .inl (List.mem_append_left _ hu)
        · exact .inl (List.mem_append_right _ hu)
        · exact .inr (.inr hu)
      · exact ⟨w, .inr (.inl hw), rfl, Nat.le_refl _, fun _ => rfl⟩

/-- A change of files that keeps those of published and waiting tables. -/
theorem cont_frame {s' : Db K R} (hc : Cont ext t n s log exact logs cur) (h : Inv ext x t n s)
    (hr : s'.runs = s.runs) (hkv : s'.kv = s.kv) (hfl : s'.flushing = s.flushing) (hj : s'.jobs = s.jobs)
    (hf : ∀ p : Path, p.id < s.next → s'.files p = s.files p) : Cont ext t n s' log exact logs cur := by
  have hp : pendings s' = pendings s := by unfold pendings; rw [hfl, hj]
  have hdone : doneRuns s' = doneRuns s := by unfold doneRuns; rw [hfl]
  refine ⟨by rw [hr]; exact hc.runs, by rw [hr]; exact hc.mem, hc.sub, ?_, by rw [hdone]; exact hc.done, ?_, ?_, ?_⟩
  · rw [hfl]
    intro p c hpc
    obtain ⟨g1, g2⟩ := hc.flush p c hpc
    refine ⟨g1, fun d hd f hff => g2 d hd f ?_⟩
    rw [← hf]
    · exact hff
    · exact (h.pend p (by unfold pendings; rw [hpc]; simp) d hd).1.2.2.1
  · rw [hkv]
    intro l e he f hff
    rw [hf _ (h.ent l e he).2.1] at hff
    exact hc.listed l e he f hff
  · rw [hp]
    intro p hpp d hd f hff
    have := (h.pend p hpp d hd).1.2.2.1
    simp only [entryOf] at this
    rw [hf _ this] at hff
    exact hc.pend p hpp d hd f hff
  · intro w hw
    obtain ⟨u, hu, hrest⟩ := hc.cover w hw
    refine ⟨u, ?_, hrest⟩
    rw [hdone]
    rcases hu with hu | hu | ⟨v, l, e, f, h1, h2, h3, h4⟩
    · exact .inl hu
    · exact .inr (.inl hu)
    · refine .inr (.inr ⟨v, l, e, f, by rw [hkv]; exact h1, h2, ?_, h4⟩)
      rw [hf _ (h.ent l e ⟨n, v, h1, h2⟩).2.1]
      exact h3

theorem cont_flushWrite (hc : Cont ext t n s log exact logs cur) (h : Inv ext x t n s)
    (hfun : Functional (· ∈ log)) (count : Nat) (refs : Option (List WalRef)) :
    Cont ext t n (flushWrite ext x s count refs) log exact logs cur := by
  unfold flushWrite
  cases hfl : s.flushing with
  | written p c => exact hc
  | published c => exact hc
  | idle =>
    simp only
    by_cases hr : s.runs.runs.take count = []
    · rw [if_pos hr]; exact hc
    rw [if_neg hr]
    have hskip : Cont ext t n { s with next := s.next + 1 } log exact logs cur :=
      cont_frame hc h rfl rfl rfl rfl (fun _ _ => rfl)
    have hmem := fun m (hm : m ∈ s.runs.runs.take count) => h.mem.2 m (List.mem_of_mem_take hm)
    have hruns : List.Forall₂ (Imm.Rep ext) (s.runs.runs.take count) (logs.take count) :=
      List.forall₂_take count hc.runs
    have hsubt : ∀ w ∈ (logs.take count).flatten, w ∈ logs.flatten := by
      intro w hw
      obtain ⟨l, hl, hw⟩ := List.mem_flatten.1 hw
      exact List.mem_flatten.2 ⟨l, List.mem_of_mem_take hl, hw⟩
    cases hf : Flush.flush ext (s.runs.runs.take count) with
    | error e => rw [hfl] at hskip; exact hskip
    | ok tab =>
      simp only
      cases hfile : tab.file ext with
      | none => rw [hfl] at hskip; exact hskip
      | some f =>
        simp only
        have hne : ∃ m ∈ s.runs.runs.take count, ∃ v, Imm.Content m v := by
          obtain ⟨m, hm⟩ := List.exists_mem_of_ne_nil _ hr
          exact ⟨m, hm, Imm.exists_content (hmem m hm)⟩
        have hfl' : Functional (· ∈ (logs.take count).flatten) := fun a b ha hb =>
          hfun a b (hc.sub a (List.mem_append_left _ (hsubt _ ha))) (hc.sub b (List.mem_append_left _ (hsubt _ hb)))
        have hholds : ∀ w, Holds f w ↔ w ∈ (logs.take count).flatten := by
          obtain ⟨tab', f', g1, g2, _, _, g5, g6, _⟩ := Lemmas.Flush.flush_spec hmem hne
          rw [hf] at g1
          cases g1
          rw [hfile] at g2
          cases g2
          intro w
          rw [← runs_content hruns hfl']
          obtain ⟨k, ts, op⟩ := w
          cases op with
          | put r => exact g5 ⟨k, ts⟩ r
          | del => exact g6 ⟨k, ts⟩
        have hc' : Cont ext t n { s with files := setFile s.files ⟨0, s.next⟩ (some f), next := s.next + 1 } log exact logs cur := by
          refine cont_frame hc h rfl rfl rfl rfl (fun p hp => ?_)
          simp only
          rw [setFile_ne]
          rintro rfl
          exact absurd hp (Nat.lt_irrefl _)
        have hlen : (s.runs.runs.take count).length = min count logs.length := by
          rw [List.length_take, hc.runs.length_eq]
        have hdone : doneRuns s = 0 := by unfold doneRuns; rw [hfl]
        refine ⟨hc'.runs, hc'.mem, hc'.sub, ?_, Nat.zero_le _, hc'.listed, ?_, ?_⟩
        · intro p c hpc
          simp only [Flushing.written.injEq] at hpc
          obtain ⟨rfl, rfl⟩ := hpc
          refine ⟨by rw [hlen]; exact Nat.min_le_right _ _, ?_⟩
          intro d hd g hg w hw
          rw [List.mem_singleton.1 hd] at hg
          simp only [descOf, setFile_eq, Option.some.injEq] at hg
          subst hg
          rw [hlen, ← List.take_eq_take_min] at hw
          exact (hholds w).2 hw
        · intro q hq d hd g hg w hw
          have hpend : q = ⟨none, flushEdits (descOf x 0 s.next f tab.stats (flushWal refs)) refs, [],
              [descOf x 0 s.next f tab.stats (flushWal refs)], none⟩ ∨ q ∈ pendings s := by
            unfold pendings at hq ⊢
            simp only [hfl] at hq ⊢
            simpa using hq
          rcases hpend with rfl | hq
          · rw [List.mem_singleton.1 hd] at hg
            simp only [descOf, setFile_eq, Option.some.injEq] at hg
            subst hg
            exact hc.sub w (List.mem_append_left _ (hsubt w ((hholds w).1 hw)))
          · exact hc'.pend q hq d hd g hg w hw
        · have := hc'.cover
          change ∀ w ∈ log, ∃ u, (u ∈ (logs.drop (doneRuns s)).flatten ∨ _) ∧ _ at this
          rw [hdone] at this
          exact this

theorem cont_setWal (hc : Cont ext t n s log exact logs cur) (h : Inv ext x t n s) (refs : List WalRef) :
    ∃ n', Inv ext x t n' (setWal t s refs) ∧ Cont ext t n' (setWal t s refs) log exact logs cur := by
  obtain ⟨hd, hreg⟩ := h.reg
  rcases setWal_spec h refs with e | ⟨kv', e, h1, v, v', hb, hat, _, hk, hl, _⟩
  · rw [e]
    exact ⟨n, h, hc⟩
  refine ⟨n + 1, h1, ?_⟩
  rw [e]
  refine ⟨hc.runs, hc.mem, hc.sub, hc.flush, hc.done, ?_, hc.pend, ?_⟩
  · intro l en hen f hf w hw
    refine hc.listed l en ?_ f hf w hw
    rcases (lst_publish hreg hk hat l en).1 hen with h2 | h2
    · exact h2
    · have := (hl l en).1 h2
      exact ⟨n, v, (base_sub hb this).2, this⟩
  · intro w hw
    obtain ⟨u, hu, h2⟩ := hc.cover w hw
    refine ⟨u, ?_, h2⟩
    rcases hu with hu | hu | ⟨u', l, en, f, g1, g2, g3⟩
    · exact .inl hu
    · exact .inr (.inl hu)
    · have huv : u' = v := at_unique g1 (hb.2.2 (at_le hreg g1).1)
      rw [huv] at g2
      exact .inr (.inr ⟨v', l, en, f, hat, (hl l en).2 g2, g3⟩)

theorem cont_flushPublish (hc : Cont ext t n s log exact logs cur) (h : Inv ext x t n s) :
    ∃ n', Inv ext x t n' (Lsm.step ext x t s .flushPublish).2 ∧
      Cont ext t n' (Lsm.step ext x t s .flushPublish).2 log exact logs cur := by
  change ∃ n', Inv ext x t n' (flushPublish t s) ∧ Cont ext t n' (flushPublish t s) log exact logs cur
  cases hfl : s.flushing with
  | idle => exact ⟨n, by unfold flushPublish; rw [hfl]; exact h, by unfold flushPublish; rw [hfl]; exact hc⟩
  | published c => exact ⟨n, by unfold flushPublish; rw [hfl]; exact h, by unfold flushPublish; rw [hfl]; exact hc⟩
  | written p c =>
    have hdone : doneRuns s = 0 := by unfold doneRuns; rw [hfl]
    have hcov := hc.cover
    rw [hdone, List.drop_zero] at hcov
    have hpp : p ∈ pendings s := by unfold pendings; rw [hfl]; simp
    have hsubp : ∀ s' : Db K R, (∀ p c, s'.flushing ≠ .written p c) → s'.jobs = s.jobs →
        ∀ q ∈ pendings s', q ∈ pendings s := by
      intro s' hf hj q hq
      unfold pendings at hq ⊢
      rw [hj] at hq
      cases hx : s'.flushing with
      | idle => rw [hx] at hq; exact List.mem_append_right _ (by simpa using hq)
      | written p c => exact absurd hx (hf p c)
      | published c => rw [hx] at hq; exact List.mem_append_right _ (by simpa using hq)
    rcases flushPublish_spec h hfl with ⟨e, h1⟩ | ⟨kv', e, h1, d, refs, v, v', hpd, hb, hat, _, hk, hl, _⟩
    · refine ⟨n, h1, ?_⟩
      rw [e]
      refine ⟨hc.runs, hc.mem, hc.sub, ?_, Nat.zero_le _, hc.listed, ?_, hcov⟩
      · intro q c' hq
        simp at hq
      · intro q hq
        exact hc.pend q (hsubp _ (by simp) (by rfl) q hq)
    · refine ⟨n + 1, h1, ?_⟩
      obtain ⟨hd0, hreg⟩ := h.reg
      have hok := h1.reg
      rw [e] at hok ⊢
      obtain ⟨g1, g2⟩ := hc.flush p c hfl
      have hdp : d ∈ p.outputs := by rw [hpd]; simp
      obtain ⟨hdo, _⟩ := h.pend p hpp d hdp
      obtain ⟨f, hf, _⟩ := hdo.2.2.2
      have hlst := lst_publish hreg hk hat
      refine ⟨hc.runs, hc.mem, hc.sub, ?_, g1, ?_, ?_, ?_⟩
      · intro q c' hq
        simp at hq
      · intro l en hen g hg w hw
        rcases (hlst l en).1 hen with hen | hen
        · exact hc.listed l en hen g hg w hw
        · rcases (hl l en).1 hen with ⟨h2, h3⟩ | h2
          · subst h2
            subst h3
            exact hc.pend p hpp d hdp g hg w hw
          · exact hc.listed l en ⟨n, v, (base_sub hb h2).2, h2⟩ g hg w hw
      · intro q hq
        exact hc.pend q (hsubp _ (by simp) (by rfl) q hq)
      · intro w hw
        obtain ⟨u, hu, hrest⟩ := hcov w hw
        refine ⟨u, ?_, hrest⟩
        change u ∈ (logs.drop c).flatten ∨ u ∈ cur ∨ _
        rcases hu with hu | hu | ⟨v2, l, en, g, a1, a2, a3, a4⟩
        · rw [← List.take_append_drop c logs, List.flatten_append] at hu
          rcases List.mem_append.1 hu with hu | hu
          · exact .inr (.inr ⟨v', d.level, entryOf d, f, hat, (hl _ _).2 (.inl ⟨rfl, rfl⟩), hf,
              g2 d hdp f hf u hu⟩)
          · exact .inl hu
        · exact .inr (.inl hu)
        · have h0 := (at_le hreg a1).1
          rw [at_unique a1 (hb.2.2 h0)] at a2
          exact .inr (.inr ⟨v', l, en, g, hat, (hl _ _).2 (.inr a2), a3, a4⟩)

theorem cont_flushDrain (hc : Cont ext t n s log exact logs cur) :
    ∃ logs', Cont ext t n (Lsm.step ext x t s .flushDrain).2 log exact logs' cur := by
  change ∃ logs', Cont ext t n (flushDrain s) log exact logs' cur
  unfold flushDrain
  cases hfl : s.flushing with
  | idle => exact ⟨logs, hc⟩
  | written p c => exact ⟨logs, hc⟩
  | published c =>
    have hdone : doneRuns s = c := by unfold doneRuns; rw [hfl]
    have hle : c ≤ s.runs.runs.length := by
      rw [hc.runs.length_eq, ← hdone]
      exact hc.done
    have hcov := hc.cover
    rw [hdone] at hcov
    simp only [if_pos hle]
    refine ⟨logs.drop c, ?_, hc.mem, ?_, ?_, Nat.zero_le _, hc.listed, ?_, hcov⟩
    · exact List.forall₂_drop c hc.runs
    · intro w hw
      apply hc.sub
      rcases List.mem_append.1 hw with hw | hw
      · obtain ⟨l, hl, hw⟩ := List.mem_flatten.1 hw
        exact List.mem_append_left _ (List.mem_flatten.2 ⟨l, List.mem_of_mem_drop hl, hw⟩)
      · exact List.mem_append_right _ hw
    · intro q c' hq
      simp at hq
    · intro q hq
      refine hc.pend q ?_
      unfold pendings at hq ⊢
      rw [hfl]
      exact hq

theorem cont_start (hc : Cont ext t n s log exact logs cur) (h : Inv ext x t n s) (hn : 0 < x.readRows)
    (task : PTask K) (head : Option Nat) (skip : Nat) :
    Cont ext t n (Lsm.step ext x t s (.start task head skip)).2 log exact logs cur := by
  obtain ⟨s', r, e, a1, a2, a3, a4, a5, a6, a7, a8⟩ := start_spec h hn task head skip
  have hc' : Cont ext t n s' log exact logs cur := cont_frame hc h a1 a2 a4 a5 a7
  unfold Lsm.step
  simp only [e]
  cases r with
  | skipped => exact hc'
  | failed err => exact hc'
  | done => exact hc'
  | ready p =>
    obtain ⟨⟨v, o, b1, _⟩, ⟨fs, gs, c1, c2, _, c3, _⟩, b3, b4⟩ := a8 p rfl
    refine ⟨hc'.runs, hc'.mem, hc'.sub, hc'.flush, hc'.done, hc'.listed, ?_, hc'.cover⟩
    intro q hq d hd f hf w hw
    have hq' : q ∈ pendings s' ∨ q = p := by
      unfold pendings at hq ⊢
      simp only [← List.append_assoc, List.mem_append, List.mem_singleton] at hq ⊢
      exact hq
    rcases hq' with hq' | rfl
    · exact hc'.pend q hq' d hd f hf w hw
    · obtain ⟨g, hg, hgf⟩ := (readAll_mem (fun d hd => (b3 d hd).1) c2).2 d hd
      have hfg : f = g := by
        have : s'.files ⟨d.level, d.id⟩ = some f := hf
        rw [hgf] at this
        exact (Option.some.inj this).symm
      subst hfg
      obtain ⟨f', hf', hw'⟩ := c3 w ⟨f, hg, hw⟩
      have hin : ∀ d ∈ q.inputs, DescOk s'.files s'.next d := fun d hd =>
        descOk_mono (names_descOk h.ent b1.here (b1.names d hd))
          (a7 _ (names_descOk h.ent b1.here (b1.names d hd)).2.2.1) a6
      obtain ⟨d', hd', hfd⟩ := (readAll_mem hin c1).1 f' hf'
      have hnm := b1.names d' hd'
      have hl : Lst s.kv t d'.level _ := ⟨n, v, b1.here, hnm.1⟩
      rw [← a2] at hl
      exact hc'.listed _ _ hl f' hfd w hw'

theorem cont_finish (hc : Cont ext t n s log exact logs cur) (h : Inv ext x t n s)
    (hfit : Fitting x.readRows t s) (hex : ¬ exact) (i : Nat) :
    ∃ n', Inv ext x t n' (Lsm.step ext x t s (.finish i)).2 ∧
      Cont ext t n' (Lsm.step ext x t s (.finish i)).2 log exact logs cur := by
  obtain ⟨hd0, hreg⟩ := h.reg
  unfold Lsm.step
  cases hi : s.jobs[i]? with
  | none => simp only [hi]; exact ⟨n, h, hc⟩
  | some p =>
    have hpj : p ∈ s.jobs := List.mem_of_getElem? hi
    have hp : p ∈ pendings s := List.mem_append_right _ hpj
    have hsubp : ∀ s' : Db K R, s'.flushing = s.flushing → s'.jobs = s.jobs.eraseIdx i →
        ∀ q ∈ pendings s', q ∈ pendings s := by
      intro s' hf hj q hq
      unfold pendings at hq ⊢
      rw [hf, hj] at hq
      rcases List.mem_append.1 hq with hq | hq
      · exact List.mem_append_left _ hq
      · exact List.mem_append_right _ ((List.eraseIdx_sublist _ _).subset hq)
    simp only [hi]
    obtain ⟨s', r, e, ⟨_, _, h1, hkv, hf, hr, _, _, hfl, hj⟩ | ⟨_, h1, hf, _, hr, _, hfl, hj, v, v', target, o, hjf, hat, hv', hk, hl, _⟩⟩ :=
      finish_spec h hi
    · rw [e]
      have hdone : doneRuns s' = doneRuns s := by unfold doneRuns; rw [hfl]
      have hsome : ∀ q f, s'.files q = some f → s.files q = some f := by
        intro q f hq
        rw [hf] at hq
        exact cleanup_some _ _ _ _ hq
      refine ⟨n, h1, by rw [hr]; exact hc.runs, by rw [hr]; exact hc.mem, hc.sub, ?_, by rw [hdone]; exact hc.done, ?_, ?_, ?_⟩
      · rw [hfl]
        intro q c hq
        obtain ⟨g1, g2⟩ := hc.flush q c hq
        exact ⟨g1, fun d hd f hff => g2 d hd f (hsome _ _ hff)⟩
      · rw [hkv]
        exact fun l en hen f hff => hc.listed l en hen f (hsome _ _ hff)
      · exact fun q hq d hd f hff => hc.pend q (hsubp s' hfl hj q hq) d hd f (hsome _ _ hff)
      · intro w hw
        obtain ⟨u, hu, hrest⟩ := hc.cover w hw
        refine ⟨u, ?_, hrest⟩
        rw [hdone]
        rcases hu with hu | hu | ⟨v, l, en, g, a1, a2, a3, a4⟩
        · exact .inl hu
        · exact .inr (.inl hu)
        · refine .inr (.inr ⟨v, l, en, g, by rw [hkv]; exact a1, a2, ?_, a4⟩)
          rw [hf, cleanup_other]
          · exact a3
          · intro d hd1 hc
            rw [(h.pend p hp d hd1).1.1] at hc
            simp only [Option.some.injEq, Path.mk.injEq] at hc
            exact (h.pend p hp d hd1).2 l en ⟨n, v, a1, a2⟩ hc.2.symm
    · rw [e]
      have hdone : doneRuns s' = doneRuns s := by unfold doneRuns; rw [hfl]
      have hlst := lst_publish hreg hk hat
      refine ⟨n + 1, h1, by rw [hr]; exact hc.runs, by rw [hr]; exact hc.mem, hc.sub, by rw [hfl, hf]; exact hc.flush,
        by rw [hdone]; exact hc.done, ?_, ?_, ?_⟩
      · rw [hf]
        intro l en hen g hg w hw
        rcases (hlst l en).1 hen with hen | hen
        · exact hc.listed l en hen g hg w hw
        · rcases (hl l en).1 hen with ⟨d, hd, rfl, rfl⟩ | h2
          · exact hc.pend p hp d hd g hg w hw
          · exact hc.listed l en ⟨n, v, hjf.here, h2.1⟩ g hg w hw
      · rw [hf]
        exact fun q hq => hc.pend q (hsubp s' hfl hj q hq)
      · intro w hw
        obtain ⟨u, hu, hk1, hk2, _⟩ := hc.cover w hw
        rw [hdone]
        rcases hu with hu | hu | ⟨v2, l, en, g, a1, a2, a3, a4⟩
        · exact ⟨u, .inl hu, hk1, hk2, fun h => absurd h hex⟩
        · exact ⟨u, .inr (.inl hu), hk1, hk2, fun h => absurd h hex⟩
        · rw [at_unique a1 hjf.here] at a2
          by_cases hin : ∃ d ∈ p.inputs, d.level = l ∧ d.id = en.id
          · obtain ⟨d, hd, rfl, hid⟩ := hin
            obtain ⟨fs, gs, c1, c2, _, _, _, c3⟩ := (h.jobs p hpj).2
            have hino : ∀ d ∈ p.inputs, DescOk s.files s.next d := fun d hd =>
              names_descOk h.ent hjf.here (hjf.names d hd)
            obtain ⟨f, hff, hfd⟩ := (readAll_mem hino c1).2 d hd
            rw [hid, a3] at hfd
            cases hfd
            obtain ⟨u', ⟨g', hg', hu'⟩, hk3, hk4⟩ := c3 (by
              intro f hf'
              obtain ⟨d', hd', hfd⟩ := (readAll_mem hino c1).1 f hf'
              exact hfit _ _ ⟨n, v, hjf.here, (hjf.names d' hd').1⟩ f hfd) u ⟨g, hff, a4⟩
            obtain ⟨d', hd', hgd⟩ := (readAll_mem (fun d hd => (h.pend p hp d hd).1) c2).1 g' hg'
            refine ⟨u', .inr (.inr ⟨v', d'.level, entryOf d', g', hat, (hl _ _).2 (.inl ⟨d', hd', rfl, rfl⟩), ?_, hu'⟩),
              hk3.trans hk1, Nat.le_trans hk2 hk4, fun h => absurd h hex⟩
            rw [hf]
            exact hgd
          · refine ⟨u, .inr (.inr ⟨v', l, en, g, hat, (hl _ _).2 (.inr ⟨a2, ?_⟩), by rw [hf]; exact a3, a4⟩),
              hk1, hk2, fun h => absurd h hex⟩
            intro d hd hc
            exact hin ⟨d, hd, hc⟩

end Steps

/-! ## Histories -/

/-- What one step writes. -/
def stepWrites (ext : R → Option K) : Lsm.Op K R → List (Ver K R)
  | .write op => batchWrites ext op
  | _ => []

theorem logOf_cons (ext : R → Option K) (o : Lsm.Op K R) (os : List (Lsm.Op K R)) :
    logOf ext (o :: os) = stepWrites ext o ++ logOf ext os := by
  unfold logOf
  rw [List.flatMap_cons]
  cases o <;> rfl

def isFinish : Lsm.Op K R → Bool
  | .finish _ => true
  | _ => false

def isReopen : Lsm.Op K R → Bool
  | .reopen _ => true
  | _ => false

theorem cont_step {ext : R → Option K} {x : Exec K R} {t n : Nat} {s : Db K R} {log : List (Ver K R)} {exact : Prop}
    {logs : List (List (Ver K R))} {cur : List (Ver K R)} (hc : Cont ext t n s log exact logs cur)
    (h : Inv ext x t n s) (hn : 0 < x.readRows) (hfun : Functional (· ∈ log)) (hfit : ¬ exact → Fitting x.readRows t s)
    (o : Lsm.Op K R) (hre : isReopen o = false) (hex : exact → isFinish o = false)
    (hok : (Lsm.step ext x t s o).1 = true) :
    ∃ n' logs' cur', Inv ext x t n' (Lsm.step ext x t s o).2 ∧
      Cont ext t n' (Lsm.step ext x t s o).2 (log ++ stepWrites ext o) exact logs' cur' := by
  cases o with
  | write op =>
    obtain ⟨l, c, h1⟩ := cont_write (x := x) hc op hok
    exact ⟨n, l, c, inv_write h op, h1⟩
  | flushWrite refs =>
    exact ⟨n, logs, cur, inv_flushWrite h _ refs, by simpa [stepWrites, Lsm.step] using cont_flushWrite hc h hfun _ refs⟩
  | flushSome count refs =>
    exact ⟨n, logs, cur, inv_flushWrite h count refs, by simpa [stepWrites, Lsm.step] using cont_flushWrite hc h hfun count refs⟩
  | setWal refs =>
    obtain ⟨n', h1, h2⟩ := cont_setWal hc h refs
    exact ⟨n', logs, cur, h1, by simpa [stepWrites, Lsm.step] using h2⟩
  | flushPublish =>
    obtain ⟨n', h1, h2⟩ := cont_flushPublish hc h
    exact ⟨n', logs, cur, h1, by simpa [stepWrites] using h2⟩
  | flushDrain =>
    obtain ⟨l, h1⟩ := cont_flushDrain (x := x) hc
    exact ⟨n, l, cur, inv_flushDrain h, by simpa [stepWrites] using h1⟩
  | start task head skip =>
    exact ⟨n, logs, cur, inv_start h hn task head skip, by simpa [stepWrites] using cont_start hc h hn task head skip⟩
  | finish i =>
    obtain ⟨n', h1, h2⟩ := cont_finish hc h (hfit (fun he => by simpa [isFinish] using hex he)) (fun he => by simpa [isFinish] using hex he) i
    exact ⟨n', logs, cur, h1, by simpa [stepWrites] using h2⟩
  | reopen cap => simp [isReopen] at hre

theorem fitting_back {ext : R → Option K} {x : Exec K R} {t n n' : Nat} {s s' : Db K R} (h : Inv ext x t n s)
    (hk : Keeps t n s n' s') (hf : Fitting x.readRows t s') : Fitting x.readRows t s := by
  obtain ⟨hd, hreg⟩ := h.reg
  intro l e he f hff
  obtain ⟨k, v, hat, hev⟩ := he
  refine hf l e ⟨k, v, ?_, hev⟩ f ?_
  · exact hk.versions k v hat
  · rw [hk.files l e ⟨k, v, hat, hev⟩]
    exact hff

theorem cont_run {ext : R → Option K} {x : Exec K R} {t : Nat} (hn : 0 < x.readRows) {exact : Prop} :
    ∀ (ops : List (Lsm.Op K R)) {n : Nat} {s : Db K R} {log : List (Ver K R)}
    {logs : List (List (Ver K R))} {cur : List (Ver K R)}, Cont ext t n s log exact logs cur → Inv ext x t n s →
    Functional (· ∈ log ++ logOf ext ops) → (¬ exact → Fitting x.readRows t (Lsm.run ext x t s ops).2) →
    (∀ o ∈ ops, isReopen o = false) → (exact → ∀ o ∈ ops, isFinish o = false) →
    (Lsm.run ext x t s ops).1 = true →
    ∃ n' logs' cur', Inv ext x t n' (Lsm.run ext x t s ops).2 ∧
      Cont ext t n' (Lsm.run ext x t s ops).2 (log ++ logOf ext ops) exact logs' cur'
  | [], n, s, log, logs, cur, hc, h, _, _, _, _, _ => ⟨n, logs, cur, h, by simpa [logOf, Lsm.run] using hc⟩
  | o :: os, n, s, log, logs, cur, hc, h, hfun, hfit, hre, hex, hok => by
    unfold Lsm.run at hok
    simp only [Bool.and_eq_true] at hok
    obtain ⟨nk, hik, hk1⟩ := keeps_step h hn o
    obtain ⟨nk2, hik2, hk2⟩ := keeps_run hn os hik
    have hfit1 : ¬ exact → Fitting x.readRows t (Lsm.step ext x t s o).2 := fun h => fitting_back hik hk2 (hfit h)
    have hfit0 : ¬ exact → Fitting x.readRows t s := fun he => fitting_back h hk1 (hfit1 he)
    obtain ⟨n1, l1, c1, h1, hc1⟩ := cont_step hc h hn
      (fun a b ha hb => hfun a b (List.mem_append_left _ ha) (List.mem_append_left _ hb)) hfit0 o
      (hre o List.mem_cons_self) (fun he => hex he o List.mem_cons_self) hok.1
    rw [logOf_cons, ← List.append_assoc] at hfun ⊢
    exact cont_run hn os hc1 h1 hfun hfit (fun p hp => hre p (List.mem_cons_of_mem _ hp))
      (fun he p hp => hex he p (List.mem_cons_of_mem _ hp)) hok.2

theorem cont_new (ext : R → Option K) (cap t sv : Nat) (exact : Prop) :
    Cont ext t 0 (Db.new cap t sv : Db K R) [] exact [] [] := by
  refine ⟨.nil, rep_new ext cap, by simp, ?_, Nat.zero_le _, ?_, ?_, by simp⟩
  · intro p c h
    simp [Db.new] at h
  · intro l e _ f hf
    simp [Db.new] at hf
  · intro p hp
    simp [pendings, Db.new] at hp

end Tonbo.Lemmas.Lsm
