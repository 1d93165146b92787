import Verif.Spec.FailedWrites
import Verif.Lemmas.LsmFail
import Verif.Lemmas.RunsFail
import Verif.Lemmas.LsmQuery

/-! # Writes that fail, among steps that fail -/

set_option linter.unusedSectionVars false

namespace Tonbo.Lemmas.LsmFail
open Tonbo.Model Tonbo.Model.Manifest Tonbo.Model.Lsm
open Tonbo.Spec Tonbo.Lemmas.Lsm Tonbo.Lemmas.Mem

variable {K R : Type} [LinearOrder K]

theorem kept_sub {ext : R → Option K} {x : Exec K R} {t : Nat} : ∀ {ops : List (LsmFail.Op K R)} {s : Db K R}
    {o : LsmFail.Op K R}, o ∈ acknowledged ext x t s ops → o ∈ ops
  | o' :: os, s, o, h => by
    unfold acknowledged at h
    rcases List.mem_append.1 h with h | h
    · split at h
      · rw [List.mem_singleton.1 h]; exact List.mem_cons_self
      · cases h
    · exact List.mem_cons_of_mem _ (kept_sub h)

theorem kept_all {ext : R → Option K} {x : Exec K R} {t : Nat} : ∀ {ops : List (LsmFail.Op K R)} {s : Db K R},
    (LsmFail.run ext x t s ops).1 = true → acknowledged ext x t s ops = ops ∧ Spec.FailsWithRoom ext x t s ops
  | [], _, _ => ⟨rfl, trivial⟩
  | o :: os, s, h => by
    unfold LsmFail.run at h
    simp only [Bool.and_eq_true] at h
    obtain ⟨h1, h2⟩ := kept_all (s := (LsmFail.step ext x t s o).2) h.2
    refine ⟨?_, (fun hf => by rw [h.1] at hf; cases hf), h2⟩
    unfold acknowledged
    rw [h.1, h1]
    rfl

/-- Only writes fail. -/
theorem fails_write {ext : R → Option K} {x : Exec K R} {t : Nat} {s : Db K R} {o : LsmFail.Op K R}
    (h : (LsmFail.step ext x t s o).1 = false) : ∃ op, o = .fine (.write op) := by
  rcases o with (op | _ | _ | _ | _ | _ | _ | _ | _) | _ | _ | _ | ⟨i, a, keep, g⟩
  · exact ⟨op, rfl⟩
  all_goals (exfalso; revert h; simp only [LsmFail.step, Lsm.step]; repeat' split)
  all_goals simp

theorem cont_failed {ext : R → Option K} {x : Exec K R} {t n : Nat} {s : Db K R} {log : List (Ver K R)} {exact : Prop}
    {logs : List (List (Ver K R))} {cur : List (Ver K R)} (hc : Cont ext t n s log exact logs cur) (op : Mem.Op K R)
    (hf : (s.runs.call ext op).1 = false) (hr : SlotsUsedUp s.runs.mem op → s.runs.mem.index = []) :
    Cont ext t n (Lsm.step ext x t s (.write op)).2 log exact logs cur := by
  have hcall : s.runs.call ext op = (false, (s.runs.call ext op).2) := Prod.ext hf rfl
  obtain ⟨e1, ⟨e2, _⟩ | ⟨e3, e4, _⟩⟩ := call_fails hc.mem hcall
  · refine ⟨?_, e2, hc.sub, hc.flush, hc.done, hc.listed, hc.pend, hc.cover⟩
    change List.Forall₂ _ (s.runs.call ext op).2.runs _
    rw [e1]
    exact hc.runs
  · exact absurd (hr (by cases op <;> exact e3)) e4

theorem run_cont_kept {ext : R → Option K} {x : Exec K R} {t : Nat} {exact : Prop} (hn : 0 < x.readRows) :
    ∀ (ops : List (LsmFail.Op K R)) {n : Nat} {s : Db K R} {log : List (Ver K R)}
    {logs : List (List (Ver K R))} {cur : List (Ver K R)}, Cont ext t n s log exact logs cur → Inv ext x t n s →
    Functional (· ∈ log ++ logOfF ext (acknowledged ext x t s ops)) →
    (¬ exact → Fitting x.readRows t (LsmFail.run ext x t s ops).2) →
    (∀ o ∈ ops, heard o = true) → (∀ o ∈ ops, isRestart o = false) → (exact → ∀ o ∈ ops, isEnd o = false) →
    Spec.FailsWithRoom ext x t s ops →
    ∃ n' logs' cur', Inv ext x t n' (LsmFail.run ext x t s ops).2 ∧
      Cont ext t n' (LsmFail.run ext x t s ops).2 (log ++ logOfF ext (acknowledged ext x t s ops)) exact logs' cur'
  | [], n, s, log, logs, cur, hc, h, _, _, _, _, _, _ => ⟨n, logs, cur, h, by simpa [logOfF, LsmFail.run, acknowledged] using hc⟩
  | o :: os, n, s, log, logs, cur, hc, h, hfun, hfit, hh, hre, hex, hroom => by
    obtain ⟨hroom, hroom'⟩ := hroom
    have hh' : ∀ p ∈ os, heard p = true := fun p hp => hh p (List.mem_cons_of_mem _ hp)
    obtain ⟨nk, hik, hk1⟩ := step_all h hn o (hh o List.mem_cons_self)
    obtain ⟨nk2, hik2, hk2⟩ := run_all hn os hik hh'
    have hfit1 : ¬ exact → Fitting x.readRows t (LsmFail.step ext x t s o).2 := fun h => fitting_back hik hk2 (hfit h)
    have hfit0 : ¬ exact → Fitting x.readRows t s := fun he => fitting_back h hk1 (hfit1 he)
    cases hb : (LsmFail.step ext x t s o).1 with
    | true =>
      have hkept : acknowledged ext x t s (o :: os) = o :: acknowledged ext x t (LsmFail.step ext x t s o).2 os := by
        rw [acknowledged, hb]
        rfl
      rw [hkept, logOfF_cons, ← List.append_assoc] at hfun ⊢
      obtain ⟨n1, l1, c1, h1, hc1⟩ := step_cont hc h hn
        (fun a b ha hb => hfun a b (List.mem_append_left _ (List.mem_append_left _ ha))
          (List.mem_append_left _ (List.mem_append_left _ hb))) hfit0 o
        (hh o List.mem_cons_self) (hre o List.mem_cons_self) (fun he => hex he o List.mem_cons_self) hb
      exact run_cont_kept hn os hc1 h1 hfun hfit hh' (fun p hp => hre p (List.mem_cons_of_mem _ hp))
        (fun he p hp => hex he p (List.mem_cons_of_mem _ hp)) hroom'
    | false =>
      have hkept : acknowledged ext x t s (o :: os) = acknowledged ext x t (LsmFail.step ext x t s o).2 os := by
        rw [acknowledged, hb]
        rfl
      obtain ⟨op, rfl⟩ := fails_write hb
      rw [hkept] at hfun ⊢
      have hc1 : Cont ext t n (LsmFail.step ext x t s (.fine (.write op))).2 log exact logs cur :=
        cont_failed (x := x) hc op hb (hroom hb op rfl)
      have h1 : Inv ext x t n (LsmFail.step ext x t s (.fine (.write op))).2 := inv_write h op
      exact run_cont_kept hn os hc1 h1 hfun hfit hh' (fun p hp => hre p (List.mem_cons_of_mem _ hp))
        (fun he p hp => hex he p (List.mem_cons_of_mem _ hp)) hroom'

/-- The batches of the table after a failing call were there before, or are those of the call. -/
theorem failed_batches {ext : R → Option K} {r : Mem.Runs K R} {op : Mem.Op K R} (hf : (r.call ext op).1 = false) :
    (r.call ext op).2.runs = r.runs ∧ ∀ a ∈ (r.call ext op).2.mem.batches, a ∈ r.mem.batches ∨
      ∃ rows, op = .put rows ∧ a.rows = rows.map (·.1) := by
  have hseal : ∀ (s : Mem.Inner K R), ∀ a ∈ (Mem.sealInner ext s).2.batches, a ∈ s.batches := by
    intro s a ha
    unfold Mem.sealInner at ha
    split at ha
    · exact ha
    · split at ha
      · exact ha
      · simp only at ha
        split at ha
        · cases ha
        · split at ha <;> cases ha
  have hins : ∀ (s s' : Mem.Inner K R) rows ts e, Mem.tryInsertBatch ext s rows ts = .err e s' →
      ∀ a ∈ s'.batches, a ∈ s.batches ∨ a.rows = rows := by
    intro s s' rows ts e h a ha
    unfold Mem.tryInsertBatch at h
    split at h
    · cases h
    · simp only at h
      split at h
      · cases h
        rcases List.mem_append.1 ha with ha | ha
        · exact .inl ha
        · rw [List.mem_singleton.1 ha]; exact .inr rfl
      · cases h
  have hdel : ∀ (s s' : Mem.Inner K R) b e, Mem.tryInsertDelete s b = .err e s' → s'.batches = s.batches := by
    intro s s' b e h
    unfold Mem.tryInsertDelete at h
    repeat' split at h
    all_goals first | (cases h; done) | (cases h; rfl)
  have hm : ∃ e m, Mem.memCall ext r.mem op = (.error e, m) ∧ (r.call ext op).2 = { r with mem := m } := by
    unfold Mem.Runs.call at hf ⊢
    rcases hm : Mem.memCall ext r.mem op with ⟨o, m⟩
    rw [hm] at hf
    cases o with
    | ok o => cases hf
    | error e => exact ⟨e, m, rfl, rfl⟩
  obtain ⟨e, m, hm, he⟩ := hm
  rw [he]
  refine ⟨rfl, fun a ha => ?_⟩
  change a ∈ m.batches at ha
  cases op with
  | freeze =>
    have := hseal r.mem
    change Mem.sealInner ext r.mem = _ at hm
    rw [hm] at this
    exact .inl (this a ha)
  | put rows =>
    have key : a ∈ r.mem.batches ∨ a.rows = rows.map (·.1) := by
      simp only [Mem.memCall, Mem.insertBatchMvcc] at hm
      split at hm
      · cases hm; exact .inl ha
      · split at hm
        · cases hm; exact .inl ha
        · split at hm
          · cases hm
          · rename_i hi; cases hm
            exact hins _ _ _ _ _ hi a ha
          · have hs := hseal r.mem
            split at hm
            · rename_i heq; rw [heq] at hs; cases hm; exact .inl (hs a ha)
            · rename_i heq
              rw [heq] at hs
              split at hm
              · cases hm
              · rename_i hi; cases hm
                rcases hins _ _ _ _ _ hi a ha with h | h
                · exact .inl (hs a h)
                · exact .inr h
              · cases hm; exact .inl (hs a ha)
    rcases key with h | h
    · exact .inl h
    · exact .inr ⟨rows, rfl, h⟩
  | del keys =>
    simp only [Mem.memCall, Mem.insertDeleteBatch] at hm
    split at hm
    · cases hm
    · rename_i hi; cases hm
      rw [hdel _ _ _ _ hi] at ha
      exact .inl ha
    · have hs := hseal r.mem
      split at hm
      · rename_i heq; rw [heq] at hs; cases hm; exact .inl (hs a ha)
      · rename_i heq
        rw [heq] at hs
        split at hm
        · cases hm
        · rename_i hi; cases hm
          rw [hdel _ _ _ _ hi] at ha
          exact .inl (hs a ha)
        · cases hm; exact .inl (hs a ha)

end Tonbo.Lemmas.LsmFail
