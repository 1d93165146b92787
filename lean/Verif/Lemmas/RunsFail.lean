import Verif.Lemmas.Runs

/-!
# Calls on the memory table that fail
-/

set_option linter.unusedSectionVars false

namespace Tonbo.Lemmas.Mem
open Tonbo.Model Tonbo.Model.Mem Tonbo.Spec

variable {K R : Type} [LinearOrder K]

/-- The slots the call needs are used up. -/
def Full (s : Inner K R) : Op K R → Prop
  | .put _ => s.cap ≤ s.batches.length
  | .del _ => s.cap ≤ s.dels.length
  | .freeze => False

/-- A call that fails leaves the runs alone. The table keeps its content, or, if the slots were used up,
has lost all of it. -/
theorem call_fails {ext : R → Option K} {t t' : Runs K R} {op : Op K R} {log : List (Ver K R)}
    (h : Rep ext t.mem log) (hc : t.call ext op = (false, t')) :
    t'.runs = t.runs ∧
      ((Rep ext t'.mem log ∧ (Full t.mem op → t.mem.index = [])) ∨
       (Full t.mem op ∧ t.mem.index ≠ [] ∧ Rep ext t'.mem [])) := by
  have key : ∀ (tr : Inner K R → TryRes (Inner K R)),
      (∀ s e s' l, Rep ext s l → tr s = .err e s' → Rep ext s' l) →
      (∀ e s', tr t.mem = .err e s' → ¬ Full t.mem op) →
      (tr t.mem = .full → Full t.mem op) →
      ∀ (r : Except Err (Option (Imm K R)) × Inner K R),
      r = (match tr t.mem with
        | .ok s' => (.ok none, s')
        | .err e s' => (.error e, s')
        | .full =>
          match sealInner ext t.mem with
          | (.error e, s') => (.error e, s')
          | (.ok sealed, s') =>
            match tr s' with
            | .ok s'' => (.ok sealed, s'')
            | .err e s'' => (.error e, s'')
            | .full => (.error .capacity, s')) →
      (match r with
        | (.error _, m) => (false, { t with mem := m })
        | (.ok o, m) => (true, ({ runs := addRun t.runs o, mem := m } : Runs K R))) = (false, t') →
      t'.runs = t.runs ∧
      ((Rep ext t'.mem log ∧ (Full t.mem op → t.mem.index = [])) ∨
       (Full t.mem op ∧ t.mem.index ≠ [] ∧ Rep ext t'.mem [])) := by
    intro tr htr hne hfull r hr hc
    cases h1 : tr t.mem with
    | ok s' => rw [h1] at hr; subst hr; simp at hc
    | err e s' =>
      rw [h1] at hr; subst hr
      simp at hc; subst hc
      exact ⟨rfl, .inl ⟨htr _ _ _ _ h h1, fun hf => absurd hf (hne _ _ h1)⟩⟩
    | full =>
      rw [h1] at hr
      rcases seal_rep h with ⟨h2, h3, h4⟩ | ⟨m, h2, h3, h4⟩
      · simp only [h2, h1] at hr
        subst hr
        simp at hc; subst hc
        exact ⟨rfl, .inl ⟨h, fun _ => h4⟩⟩
      · simp only [h2] at hr
        cases h5 : tr (Inner.new t.mem.cap) with
        | ok s' => rw [h5] at hr; subst hr; simp at hc
        | err e s' =>
          rw [h5] at hr; subst hr
          simp at hc; subst hc
          exact ⟨rfl, .inr ⟨hfull h1, h4, htr _ _ _ _ (rep_new ext _) h5⟩⟩
        | full =>
          rw [h5] at hr; subst hr
          simp at hc; subst hc
          exact ⟨rfl, .inr ⟨hfull h1, h4, rep_new ext _⟩⟩
  cases op with
  | put rows =>
    refine key (fun s => tryInsertBatch ext s (rows.map (·.1)) (rows.map (·.2))) ?_ ?_ ?_
      (memCall ext t.mem (.put rows)) ?_ hc
    · intro s e s' l hl ho
      obtain ⟨w, _, c⟩ := tryInsertBatch_err hl.1 ho
      exact ⟨w, fun v => (c v).trans (hl.2 v)⟩
    · intro e s' ho hf
      simp only [Full] at hf
      simp only [tryInsertBatch] at ho
      rw [if_pos hf] at ho
      cases ho
    · intro ho
      simp only [tryInsertBatch] at ho
      by_contra hf
      simp only [Full] at hf
      rw [if_neg hf] at ho
      split at ho <;> cases ho
    · show insertBatchMvcc _ _ _ _ = _
      unfold insertBatchMvcc
      rw [if_neg (by simp)]
      simp only [mapM_id_some]
      rfl
  | del keys =>
    refine key (fun s => tryInsertDelete s (keys.map (fun p => (some p.1, some p.2)))) ?_ ?_ ?_
      (memCall ext t.mem (.del keys)) rfl hc
    · intro s e s' l hl ho
      obtain ⟨w, _, c⟩ := tryInsertDelete_err hl.1 ho
      exact ⟨w, fun v => (c v).trans (hl.2 v)⟩
    · intro e s' ho hf
      simp only [Full] at hf
      simp only [tryInsertDelete] at ho
      split at ho
      · cases ho
      · split at ho
        · rename_i hm
          have : ∀ l : List (K × Nat), (l.map (fun p => (some p.1, some p.2))).mapM
              (fun q : Option K × Option Nat => q.2) = some (l.map (·.2)) := by
            intro l
            induction l with
            | nil => rfl
            | cons a l ih => simp only [List.map_cons, List.mapM_cons, ih]; rfl
          rw [this] at hm
          cases hm
        · first | cases ho | (rw [if_pos hf] at ho; cases ho)
    · intro ho
      simp only [tryInsertDelete] at ho
      split at ho
      · cases ho
      · split at ho
        · cases ho
        · by_contra hf
          simp only [Full] at hf
          rw [if_neg hf] at ho
          split at ho <;> cases ho
  | freeze =>
    simp only [Runs.call, memCall] at hc
    rcases seal_rep h with ⟨h2, _, _⟩ | ⟨m, h2, _, _⟩
    · rw [h2] at hc; simp at hc
    · rw [h2] at hc; simp at hc

/-- After any calls, whatever their answers, the runs and the table hold some log. -/
theorem calls_rep {ext : R → Option K} : ∀ (ops : List (Op K R)) (t : Runs K R) (logs : List (List (Ver K R)))
    (cur : List (Ver K R)), List.Forall₂ (Imm.Rep ext) t.runs logs → Rep ext t.mem cur →
    ∃ logs' cur', List.Forall₂ (Imm.Rep ext) (t.calls ext ops).2.runs logs' ∧ Rep ext (t.calls ext ops).2.mem cur'
  | [], t, logs, cur, h1, h2 => ⟨logs, cur, h1, h2⟩
  | op :: ops, t, logs, cur, h1, h2 => by
    simp only [Runs.calls]
    cases hr : t.call ext op with
    | mk b t' =>
      cases b with
      | true =>
        rcases call_ok h2 hr with ⟨e1, e2⟩ | ⟨m, e1, e2, e3⟩
        · exact calls_rep ops _ logs _ (by rw [e1]; exact h1) e2
        · exact calls_rep ops _ (logs ++ [cur]) _ (by rw [e1]; exact forall₂_snoc h1 e2) e3
      | false =>
        obtain ⟨e1, ⟨e2, _⟩ | ⟨_, _, e2⟩⟩ := call_fails h2 hr
        · exact calls_rep ops _ logs _ (by rw [e1]; exact h1) e2
        · exact calls_rep ops _ logs _ (by rw [e1]; exact h1) e2

/-- The same for the table alone. -/
theorem calls_rep_mem {ext : R → Option K} : ∀ (ops : List (Op K R)) (t : Runs K R) (cur : List (Ver K R)),
    Rep ext t.mem cur → ∃ cur', Rep ext (t.calls ext ops).2.mem cur'
  | [], t, cur, h => ⟨cur, h⟩
  | op :: ops, t, cur, h => by
    simp only [Runs.calls]
    cases hr : t.call ext op with
    | mk b t' =>
      cases b with
      | true =>
        rcases call_ok h hr with ⟨_, e⟩ | ⟨_, _, _, e⟩ <;> exact calls_rep_mem ops _ _ e
      | false =>
        obtain ⟨_, ⟨e, _⟩ | ⟨_, _, e⟩⟩ := call_fails h hr <;> exact calls_rep_mem ops _ _ e

end Tonbo.Lemmas.Mem
