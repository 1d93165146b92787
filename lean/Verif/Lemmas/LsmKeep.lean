import Verif.Lemmas.LsmStep

/-!
# What later steps leave alone
-/

set_option linter.unusedSectionVars false

namespace Tonbo.Lemmas.Lsm
open Tonbo.Model Tonbo.Model.Manifest Tonbo.Model.Planner Tonbo.Model.Outcome Tonbo.Model.Lsm Tonbo.Spec
open Tonbo.Lemmas.Manifest Tonbo.Lemmas.Outcome
open Tonbo.Model.Sst (File)
open Tonbo.Model.Mem (Imm Runs)

variable {K R : Type} [LinearOrder K]

/-- From `s` with `n` versions to `s'` with `n'` versions. -/
structure Keeps (t n : Nat) (s : Db K R) (n' : Nat) (s' : Db K R) : Prop where
  more : n ≤ n'
  versions : ∀ k v, At s.kv t k v → At s'.kv t k v
  files : ∀ l e, Lst s.kv t l e → s'.files ⟨l, e.id⟩ = s.files ⟨l, e.id⟩
  gone : ∀ l e, Lst s.kv t l e → (∀ v, At s.kv t n v → ∀ l', ∀ e' ∈ v.ssts.getD l' [], e'.id ≠ e.id) →
    ∀ k v, n < k → At s'.kv t k v → ∀ l', ∀ e' ∈ v.ssts.getD l' [], e'.id ≠ e.id

theorem Keeps.of_kv {t n : Nat} {s s' : Db K R} {hd : Head} (hreg : TableOk s.kv t n hd) (hk : s'.kv = s.kv)
    (hf : ∀ l e, Lst s.kv t l e → s'.files ⟨l, e.id⟩ = s.files ⟨l, e.id⟩) : Keeps t n s n s' :=
  ⟨Nat.le_refl _, fun k v h => by rw [hk]; exact h, hf, fun l e _ _ k v hlt hv => by
    rw [hk] at hv
    have := (at_le hreg hv).2
    omega⟩

theorem Keeps.trans {t n n' n'' : Nat} {s s' s'' : Db K R} {hd hd' : Head} (hreg : TableOk s.kv t n hd)
    (hreg' : TableOk s'.kv t n' hd') (h : Keeps t n s n' s')
    (h' : Keeps t n' s' n'' s'') : Keeps t n s n'' s'' := by
  have hl : ∀ l e, Lst s.kv t l e → Lst s'.kv t l e := fun l e ⟨k, v, hv, he⟩ => ⟨k, v, h.versions k v hv, he⟩
  refine ⟨Nat.le_trans h.more h'.more, fun k v hv => h'.versions k v (h.versions k v hv), ?_, ?_⟩
  · intro l e he
    rw [h'.files l e (hl l e he), h.files l e he]
  · intro l e he hgone k v hlt hv l' e' he'
    have hold : ∀ k v, n ≤ k → k ≤ n' → At s'.kv t k v → ∀ l', ∀ e' ∈ v.ssts.getD l' [], e'.id ≠ e.id := by
      intro k v h1 h2 hv
      rcases Nat.eq_or_lt_of_le h1 with rfl | h1
      · rcases Nat.eq_zero_or_pos n with h0 | h0
        · have := (at_le hreg' hv).1; omega
        · obtain ⟨w, hw, _⟩ := hreg.some n h0 (Nat.le_refl _)
          rw [at_unique hv (h.versions _ _ hw)]
          exact hgone w hw
      · exact h.gone l e he hgone k v h1 hv
    by_cases hkn : k ≤ n'
    · obtain ⟨u, hu, _⟩ := hreg'.some k (by omega) hkn
      rw [at_unique hv (h'.versions k u hu)] at he'
      exact h.gone l e he hgone k u hlt hu l' e' he'
    · refine h'.gone l e (hl l e he) (fun w hw => ?_) k v (by omega) hv l' e' he'
      exact hold n' w h.more (Nat.le_refl _) hw

theorem keeps_publish {ext : R → Option K} {x : Exec K R} {t n : Nat} {s s' : Db K R} (h : Inv ext x t n s)
    {p : Pending K} (hp : p ∈ pendings s) {v v' : Version (Info K)}
    (hk : ∀ k, k ≠ n + 1 → kget s'.kv (.version t k) = kget s.kv (.version t k)) (hat : At s'.kv t (n + 1) v')
    (hok : ∃ hd, TableOk s'.kv t (n + 1) hd) (hb : Base s.kv t n v)
    (hnew : ∀ l, ∀ e ∈ v'.ssts.getD l [], e ∈ v.ssts.getD l [] ∨ ∃ d ∈ p.outputs, d.level = l ∧ e = entryOf d)
    (hf : s'.files = s.files) : Keeps t n s (n + 1) s' := by
  obtain ⟨hd, hreg⟩ := h.reg
  refine ⟨Nat.le_succ _, fun k u hu => ?_, fun _ _ _ => by rw [hf], ?_⟩
  · have := at_le hreg hu
    unfold At
    rw [hk k (by omega)]
    exact hu
  · intro l e he hgone k u hlt hu l' e' he'
    obtain ⟨hd', hreg'⟩ := hok
    have := at_le hreg' hu
    have hkn : k = n + 1 := by omega
    subst hkn
    rw [at_unique hu hat] at he'
    rcases hnew l' e' he' with h1 | ⟨d, hd1, _, rfl⟩
    · exact hgone v (base_sub hb h1).2 l' e' h1
    · exact fun hc => (h.pend p hp d hd1).2 l e he hc.symm

theorem keeps_flushWrite {ext : R → Option K} {x : Exec K R} {t n : Nat} {s : Db K R} (h : Inv ext x t n s)
    (count : Nat) (refs : Option (List WalRef)) : Keeps t n s n (flushWrite ext x s count refs) := by
  obtain ⟨hd, hreg⟩ := h.reg
  unfold flushWrite
  cases hfl : s.flushing with
  | written p c => exact Keeps.of_kv hreg rfl (fun _ _ _ => rfl)
  | published c => exact Keeps.of_kv hreg rfl (fun _ _ _ => rfl)
  | idle =>
    simp only
    split_ifs
    · exact Keeps.of_kv hreg rfl (fun _ _ _ => rfl)
    · cases Flush.flush ext (s.runs.runs.take count) with
      | error e => exact Keeps.of_kv hreg rfl (fun _ _ _ => rfl)
      | ok tab =>
        simp only
        cases tab.file ext with
        | none => exact Keeps.of_kv hreg rfl (fun _ _ _ => rfl)
        | some f =>
          refine Keeps.of_kv hreg rfl (fun l e he => ?_)
          simp only
          rw [setFile_ne]
          intro hc
          have := (h.ent l e he).2.1
          simp only [Path.mk.injEq] at hc
          omega

theorem keeps_setWal {ext : R → Option K} {x : Exec K R} {t n : Nat} {s : Db K R} (h : Inv ext x t n s)
    (refs : List WalRef) : ∃ n', Inv ext x t n' (setWal t s refs) ∧ Keeps t n s n' (setWal t s refs) := by
  obtain ⟨hd, hreg⟩ := h.reg
  rcases setWal_spec h refs with e | ⟨kv', e, h1, v, v', hb, hat, _, hk, hl, _⟩
  · rw [e]
    exact ⟨n, h, Keeps.of_kv hreg rfl (fun _ _ _ => rfl)⟩
  · refine ⟨n + 1, h1, ?_⟩
    obtain ⟨hd', hreg'⟩ := h1.reg
    rw [e] at hreg' ⊢
    refine ⟨Nat.le_succ _, fun k u hu => ?_, fun _ _ _ => rfl, ?_⟩
    · have := at_le hreg hu
      unfold At
      rw [hk k (by omega)]
      exact hu
    · intro l en _ hgone k u hlt hu l' e' he'
      have := at_le hreg' hu
      have hkn : k = n + 1 := by omega
      subst hkn
      rw [at_unique hu hat] at he'
      have := (hl l' e').1 he'
      exact hgone v (base_sub hb this).2 l' e' this

theorem keeps_step {ext : R → Option K} {x : Exec K R} {t n : Nat} {s : Db K R} (h : Inv ext x t n s)
    (hn : 0 < x.readRows) (op : Lsm.Op K R) :
    ∃ n', Inv ext x t n' (Lsm.step ext x t s op).2 ∧ Keeps t n s n' (Lsm.step ext x t s op).2 := by
  obtain ⟨hd, hreg⟩ := h.reg
  cases op with
  | write o => exact ⟨n, inv_write h o, Keeps.of_kv hreg rfl (fun _ _ _ => rfl)⟩
  | flushWrite refs => exact ⟨n, inv_flushWrite h _ refs, keeps_flushWrite h _ refs⟩
  | flushSome count refs => exact ⟨n, inv_flushWrite h count refs, keeps_flushWrite h count refs⟩
  | setWal refs => exact keeps_setWal h refs
  | flushPublish =>
    change ∃ n', Inv ext x t n' (flushPublish t s) ∧ Keeps t n s n' (flushPublish t s)
    cases hfl : s.flushing with
    | idle => exact ⟨n, by unfold flushPublish; rw [hfl]; exact h, by unfold flushPublish; rw [hfl]; exact Keeps.of_kv hreg rfl (fun _ _ _ => rfl)⟩
    | published c => exact ⟨n, by unfold flushPublish; rw [hfl]; exact h, by unfold flushPublish; rw [hfl]; exact Keeps.of_kv hreg rfl (fun _ _ _ => rfl)⟩
    | written p c =>
      rcases flushPublish_spec h hfl with ⟨e, h1⟩ | ⟨kv', e, h1, d, refs, v, v', hpd, hb, hat, _, hk, hl, _⟩
      · refine ⟨n, h1, ?_⟩
        rw [e]
        exact Keeps.of_kv hreg rfl (fun _ _ _ => rfl)
      · refine ⟨n + 1, h1, ?_⟩
        have hok := h1.reg
        rw [e] at hok ⊢
        refine keeps_publish h (p := p) (by unfold pendings; rw [hfl]; simp) hk hat hok hb ?_ rfl
        intro l en hen
        rcases (hl l en).1 hen with ⟨a, b⟩ | a
        · exact .inr ⟨d, by rw [hpd]; simp, a, b⟩
        · exact .inl a
  | flushDrain =>
    refine ⟨n, inv_flushDrain h, ?_⟩
    change Keeps t n s n (flushDrain s)
    unfold flushDrain
    cases s.flushing <;> exact Keeps.of_kv hreg rfl (fun _ _ _ => rfl)
  | start task head skip =>
    refine ⟨n, inv_start h hn task head skip, ?_⟩
    obtain ⟨s', r, e, _, a2, _, _, _, _, a7, _⟩ := start_spec h hn task head skip
    have hf : ∀ l e, Lst s.kv t l e → s'.files ⟨l, e.id⟩ = s.files ⟨l, e.id⟩ := fun l e he => a7 _ (h.ent l e he).2.1
    unfold Lsm.step
    simp only [e]
    cases r <;> exact Keeps.of_kv hreg a2 hf
  | finish i =>
    unfold Lsm.step
    cases hi : s.jobs[i]? with
    | none => exact ⟨n, by simp only [hi]; exact h, by simp only [hi]; exact Keeps.of_kv hreg rfl (fun _ _ _ => rfl)⟩
    | some p =>
      have hp : p ∈ pendings s := List.mem_append_right _ (List.mem_of_getElem? hi)
      simp only [hi]
      obtain ⟨s', r, e, ⟨_, _, h1, hkv, hf, _⟩ | ⟨_, h1, hf, _, _, _, _, _, v, v', target, o, hj, hat, hv', hk, hl, _⟩⟩ := finish_spec h hi
      · rw [e]
        refine ⟨n, h1, Keeps.of_kv hreg hkv (fun l en hen => ?_)⟩
        rw [hf]
        apply cleanup_other
        intro d hd1 hc
        rw [(h.pend p hp d hd1).1.1] at hc
        simp only [Option.some.injEq, Path.mk.injEq] at hc
        exact (h.pend p hp d hd1).2 l en hen hc.2.symm
      · rw [e]
        obtain ⟨_, hv, _, _⟩ := hreg.some n (at_le hreg hj.here).1 (Nat.le_refl _)
        have hvo : VersionOk v := by
          obtain ⟨u, hu, _, _, ok⟩ := hreg.some n (at_le hreg hj.here).1 (Nat.le_refl _)
          rw [at_unique hj.here hu]; exact ok
        have h0 := (at_le hreg hj.here).1
        refine ⟨n + 1, h1, keeps_publish h hp hk hat h1.reg (v := v) ⟨hvo, fun h => by omega, fun _ => hj.here⟩ ?_ hf⟩
        intro l en hen
        rcases (hl l en).1 hen with h2 | h2
        · exact .inr h2
        · exact .inl h2.1
  | reopen cap =>
    refine ⟨n, inv_reopen h cap, ?_⟩
    obtain ⟨k, hk, _⟩ := allocator_spec h
    unfold Lsm.step
    simp only [reopen, hk]
    exact Keeps.of_kv hreg rfl (fun _ _ _ => rfl)

theorem keeps_run {ext : R → Option K} {x : Exec K R} {t : Nat} (hn : 0 < x.readRows) :
    ∀ (ops : List (Lsm.Op K R)) {n : Nat} {s : Db K R}, Inv ext x t n s →
      ∃ n', Inv ext x t n' (Lsm.run ext x t s ops).2 ∧ Keeps t n s n' (Lsm.run ext x t s ops).2
  | [], n, s, h => by
    obtain ⟨hd, hreg⟩ := h.reg
    exact ⟨n, h, Keeps.of_kv hreg rfl (fun _ _ _ => rfl)⟩
  | o :: os, n, s, h => by
    obtain ⟨n1, h1, k1⟩ := keeps_step h hn o
    obtain ⟨n2, h2, k2⟩ := keeps_run hn os h1
    obtain ⟨hd, hreg⟩ := h.reg
    obtain ⟨hd1, hreg1⟩ := h1.reg
    exact ⟨n2, h2, Keeps.trans hreg hreg1 k1 k2⟩

theorem run_append (ext : R → Option K) (x : Exec K R) (t : Nat) : ∀ (a b : List (Lsm.Op K R)) (s : Db K R),
    (Lsm.run ext x t s (a ++ b)).2 = (Lsm.run ext x t (Lsm.run ext x t s a).2 b).2
  | [], _, _ => rfl
  | o :: a, b, s => run_append ext x t a b (Lsm.step ext x t s o).2

theorem published_iff {s : Db K R} {t n : Nat} {v : Version (Info K)} : Published s t n v ↔ At s.kv t n v := by
  unfold Published At readVersion
  cases kget s.kv (.version t n) with
  | none => simp
  | some val => cases val <;> simp [asVersion]

theorem everListed_iff {s : Db K R} {t l : Nat} {e : Entry (Info K)} : EverListed s t l e ↔ Lst s.kv t l e := by
  unfold EverListed Lst
  simp only [published_iff]

theorem latest_iff {ext : R → Option K} {x : Exec K R} {t n : Nat} {s : Db K R} (h : Inv ext x t n s)
    {v : Version (Info K)} : Latest s t v ↔ At s.kv t n v := by
  obtain ⟨hd, hreg⟩ := h.reg
  unfold Latest
  simp only [published_iff]
  constructor
  · rintro ⟨k, hk, hmax⟩
    obtain ⟨h1, h2⟩ := at_le hreg hk
    obtain ⟨u, hu, _⟩ := hreg.some n (by omega) (Nat.le_refl _)
    have := hmax n u hu
    have : k = n := by omega
    subst this
    exact hk
  · exact fun h => ⟨n, h, fun k u hu => (at_le hreg hu).2⟩

end Tonbo.Lemmas.Lsm
