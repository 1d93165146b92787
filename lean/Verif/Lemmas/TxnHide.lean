import Verif.Lemmas.TxnLock

/-!
# Threads leave each other alone; a thread without a timestamp leaves nothing behind
-/

set_option linter.unusedSectionVars false

namespace Tonbo.Lemmas.Txn
open Tonbo.Model Tonbo.Model.Txn Tonbo.Model.Lsm Tonbo.Spec

variable {K R : Type} [LinearOrder K]

theorem advance_other (e : Env K R) (s : Sys K R) {p i : Nat} (h : i ≠ p) : (advance e s p).procs i = s.procs i := by
  unfold advance
  split <;> try exact setProc_other _ h _
  · split
    · exact setProc_other _ h _
    · rfl
  · split
    · exact setProc_other _ h _
    · exact setProc_other _ h _
  · split
    · exact setProc_other _ h _
    · exact setProc_other _ h _
  · split
    · exact setProc_other _ h _
    · unfold applyCall
      dsimp only
      split <;> exact setProc_other _ h _
  · split
    · exact setProc_other _ h _
    · unfold applyCall
      dsimp only
      split <;> exact setProc_other _ h _
  · rfl

/-- An operation changes only the thread it belongs to. -/
theorem step_other (e : Env K R) (s : Sys K R) (o : Txn.Op K R) (i : Nat) (h : ofThread i o = false) :
    (Txn.step e s o).procs i = s.procs i := by
  cases o with
  | lsm o =>
    simp only [Txn.step]
    split <;> rfl
  | advance p =>
    have : i ≠ p := by rintro rfl; simp [ofThread] at h
    exact advance_other e s this
  | readVersion p | openTxn p | abort p | commit p =>
    have : i ≠ p := by rintro rfl; simp [ofThread] at h
    simp only [Txn.step]
    split <;> try rfl
    all_goals first | exact setProc_other _ this _ | (split <;> first | rfl | exact setProc_other _ this _)
  | upsert p r =>
    have : i ≠ p := by rintro rfl; simp [ofThread] at h
    simp only [Txn.step]
    split <;> try rfl
    split <;> first | rfl | exact setProc_other _ this _
  | delete p k =>
    have : i ≠ p := by rintro rfl; simp [ofThread] at h
    simp only [Txn.step]
    split <;> first | rfl | exact setProc_other _ this _
  | ingest p rows =>
    have : i ≠ p := by rintro rfl; simp [ofThread] at h
    simp only [Txn.step]
    split <;> first | rfl | exact setProc_other _ this _

/-- The threads of an operation are below `n`. -/
def below (n : Nat) : Txn.Op K R → Bool
  | .readVersion q | .openTxn q | .upsert q _ | .delete q _ | .abort q | .commit q | .ingest q _ | .advance q => q < n
  | .lsm _ => true

theorem below_of {n i : Nat} {o : Txn.Op K R} (h : below n o = true) (hi : n ≤ i) : ofThread i o = false := by
  cases o <;> simp [below, ofThread] at h ⊢ <;> omega

theorem finite_step {e : Env K R} {s : Sys K R} {n : Nat} (h : Finite s n) {o : Txn.Op K R} (ho : below n o = true) :
    Finite (Txn.step e s o) n := by
  intro p hp
  rw [step_other e s o p (below_of ho hp)]
  exact h p hp

/-- A check that can be run: snapshots are opened at quiet moments. -/
def quietAlong (e : Env K R) (n : Nat) : Sys K R → List (Txn.Op K R) → Bool
  | _, [] => true
  | s, o :: ops => below n o && (match o with
    | .openTxn _ => (List.range n).all (fun p => (inFlight (s.procs p)).isNone) && decide (0 < s.clock)
    | _ => true) && quietAlong e n (Txn.step e s o) ops

theorem quietAlong_along {e : Env K R} {n : Nat} : ∀ {ops : List (Txn.Op K R)} {s : Sys K R}, Finite s n →
    quietAlong e n s ops = true → Along e OpensQuietly s ops
  | [], _, _, _ => by
    intro a o b h
    cases a <;> cases h
  | o :: ops, s, hf, h => by
    simp only [quietAlong, Bool.and_eq_true] at h
    have ih := quietAlong_along (finite_step (e := e) hf h.1.1) h.2
    intro a o' b hb
    cases a with
    | cons a0 a =>
      simp only [List.cons_append, List.cons.injEq] at hb
      obtain ⟨rfl, hb⟩ := hb
      exact ih a o' b hb
    | nil =>
      simp only [List.nil_append, List.cons.injEq] at hb
      obtain ⟨rfl, rfl⟩ := hb
      cases o with
      | openTxn p =>
        have h2 := h.1.2
        simp only [Bool.and_eq_true, List.all_eq_true, decide_eq_true_eq] at h2
        refine ⟨fun q => ?_, h2.2⟩
        by_cases hq : q < n
        · exact Option.isNone_iff_eq_none.1 (h2.1 q (List.mem_range.2 hq))
        · show inFlight (s.procs q) = none
          rw [hf q (by omega)]; rfl
      | _ => trivial

/-- The same state without thread `p`. -/
def hide (p : Nat) (s : Sys K R) : Sys K R := setProc (release s p) p .idle

theorem hide_setProc (p : Nat) (s : Sys K R) (q : Proc K R) : hide p (setProc s p q) = hide p s := by
  unfold hide setProc release
  congr 1
  funext i
  dsimp only
  by_cases hi : i = p <;> simp [hi]

theorem hide_setProc_other {p q : Nat} (h : q ≠ p) (s : Sys K R) (r : Proc K R) :
    hide p (setProc s q r) = setProc (hide p s) q r := by
  unfold hide setProc release
  congr 1
  funext i
  dsimp only
  by_cases h1 : i = p
  · rw [if_pos h1, if_neg (by omega), if_pos h1]
  · rw [if_neg h1]
    split <;> rfl

theorem hide_release {p q : Nat} (s : Sys K R) : hide p (release s q) = release (hide p s) q := by
  unfold hide release setProc
  congr 1
  funext k
  dsimp only
  by_cases h1 : s.locks k = some q
  · by_cases h2 : s.locks k = some p
    · simp [h1]
    · simp [h1]
  · by_cases h2 : s.locks k = some p
    · simp [h1, h2]
    · simp [h1, h2]

theorem hide_release_same {p : Nat} (s : Sys K R) : hide p (release s p) = hide p s := by
  unfold hide release setProc
  congr 1
  funext k
  dsimp only
  by_cases h2 : s.locks k = some p <;> simp [h2]

theorem hide_procs {p q : Nat} (h : q ≠ p) (s : Sys K R) : (hide p s).procs q = s.procs q :=
  setProc_other _ h _

theorem hide_applyCall (e : Env K R) {p q : Nat} (h : q ≠ p) (s : Sys K R) (op : Mem.Op K R)
    (next : Sys K R → Sys K R) (hn : ∀ s, hide p (next s) = next (hide p s)) :
    hide p (applyCall e s q op next) = applyCall e (hide p s) q op next := by
  unfold applyCall
  dsimp only
  have h1 : (hide p s).db = s.db := rfl
  rw [h1]
  split
  · rw [hn]; rfl
  · rw [hide_setProc_other h, hide_release]; rfl

theorem hide_advance (e : Env K R) {p q : Nat} (h : q ≠ p) (s : Sys K R) :
    hide p (advance e s q) = advance e (hide p s) q ∨ hide p (advance e s q) = hide p s := by
  unfold advance
  rw [hide_procs h]
  cases hq : s.procs q with
  | idle => exact .inr rfl
  | opening v => exact .inr rfl
  | opened t => exact .inr rfl
  | locking t todo =>
    cases todo with
    | nil => exact .inl (hide_setProc_other h _ _)
    | cons k ks =>
      simp only
      by_cases hl : s.locks k = none
      · have hl' : (hide p s).locks k = none := by simp [hide, release, setProc, hl]
        rw [if_pos hl, if_pos hl', hide_setProc_other h]
        refine .inl (congrArg (fun z => setProc z q _) ?_)
        unfold hide release setProc
        congr 1
        funext i
        dsimp only
        by_cases hi : i = k
        · simp [hi, h]
        · simp [hi]
      · rw [if_neg hl]
        exact .inr rfl
  | checking t todo =>
    cases todo with
    | nil =>
      refine .inl ?_
      simp only
      rw [hide_setProc_other h]; rfl
    | cons k ks =>
      simp only
      have hcf : conflict (hide p s) k t.snap.rts = conflict s k t.snap.rts := rfl
      rw [hcf]
      split
      · exact .inl (by rw [hide_setProc_other h, hide_release])
      · exact .inl (hide_setProc_other h _ _)
  | stamped w =>
    simp only
    split
    · refine .inl ?_
      rw [hide_setProc_other h]; rfl
    · exact .inl (hide_setProc_other h _ _)
  | logging w todo =>
    cases todo with
    | nil => exact .inl (hide_setProc_other h _ _)
    | cons r rs =>
      refine .inl ?_
      simp only
      rw [hide_setProc_other h]; rfl
  | upserts w =>
    simp only
    cases w.ups with
    | none => exact .inl (hide_setProc_other h _ _)
    | some rows => exact .inl (hide_applyCall e h s _ _ (fun s => hide_setProc_other h s _))
  | deletes w =>
    simp only
    have hf : ∀ s : Sys K R, hide p (finishWork s q w) = finishWork (hide p s) q w := by
      intro s
      unfold finishWork
      rw [hide_setProc_other h, hide_release]; rfl
    cases w.dels with
    | none => exact .inl (hf s)
    | some keys => exact .inl (hide_applyCall e h s _ _ hf)

/-- The operations of others: with or without thread `p` they do the same, or thread `p` holds the lock
they wait for. -/
theorem hide_step_other (e : Env K R) {p : Nat} (s : Sys K R) (o : Txn.Op K R) (h : ofThread p o = false) :
    hide p (Txn.step e s o) = Txn.step e (hide p s) o ∨ hide p (Txn.step e s o) = hide p s := by
  cases o with
  | lsm o =>
    simp only [Txn.step]
    split
    · exact .inl rfl
    · exact .inl rfl
  | advance q =>
    have : q ≠ p := by rintro rfl; simp [ofThread] at h
    exact hide_advance e this s
  | readVersion q =>
    have hq : q ≠ p := by rintro rfl; simp [ofThread] at h
    have hdb : (hide p s).db = s.db := rfl
    simp only [Txn.step, hide_procs hq, hdb]
    split
    · split
      · exact .inl rfl
      · exact .inl (hide_setProc_other hq _ _)
    · exact .inl rfl
  | openTxn q =>
    have hq : q ≠ p := by rintro rfl; simp [ofThread] at h
    simp only [Txn.step, hide_procs hq]
    split
    · exact .inl (hide_setProc_other hq _ _)
    · exact .inl rfl
  | abort q =>
    have hq : q ≠ p := by rintro rfl; simp [ofThread] at h
    simp only [Txn.step, hide_procs hq]
    split
    · exact .inl (hide_setProc_other hq _ _)
    · exact .inl rfl
  | commit q =>
    have hq : q ≠ p := by rintro rfl; simp [ofThread] at h
    simp only [Txn.step, hide_procs hq]
    split
    · split
      · exact .inl (hide_setProc_other hq _ _)
      · exact .inl (hide_setProc_other hq _ _)
    · exact .inl rfl
  | upsert q r =>
    have hq : q ≠ p := by rintro rfl; simp [ofThread] at h
    simp only [Txn.step, hide_procs hq]
    split
    · split
      · exact .inl rfl
      · exact .inl (hide_setProc_other hq _ _)
    · exact .inl rfl
  | delete q k =>
    have hq : q ≠ p := by rintro rfl; simp [ofThread] at h
    simp only [Txn.step, hide_procs hq]
    split
    · exact .inl (hide_setProc_other hq _ _)
    · exact .inl rfl
  | ingest q rows =>
    have hq : q ≠ p := by rintro rfl; simp [ofThread] at h
    simp only [Txn.step, hide_procs hq]
    split
    · refine .inl ?_
      rw [hide_setProc_other hq]; rfl
    · exact .inl rfl

/-- The operations of thread `p` up to the moment it takes a timestamp. -/
theorem hide_step_self (e : Env K R) {p : Nat} (s : Sys K R) (o : Txn.Op K R) (h : ofThread p o = true)
    (h0 : inFlight (s.procs p) = none) (h1 : inFlight ((Txn.step e s o).procs p) = none) :
    hide p (Txn.step e s o) = hide p s := by
  cases o with
  | lsm o => cases h
  | readVersion q =>
    obtain rfl : q = p := by simpa [ofThread] using h
    simp only [Txn.step]
    split
    · split
      · rfl
      · exact hide_setProc _ _ _
    · rfl
  | openTxn q =>
    obtain rfl : q = p := by simpa [ofThread] using h
    simp only [Txn.step]
    split
    · exact hide_setProc _ _ _
    · rfl
  | abort q =>
    obtain rfl : q = p := by simpa [ofThread] using h
    simp only [Txn.step]
    split
    · exact hide_setProc _ _ _
    · rfl
  | commit q =>
    obtain rfl : q = p := by simpa [ofThread] using h
    simp only [Txn.step]
    split
    · split
      · exact hide_setProc _ _ _
      · exact hide_setProc _ _ _
    · rfl
  | upsert q r =>
    obtain rfl : q = p := by simpa [ofThread] using h
    simp only [Txn.step]
    split
    · split
      · rfl
      · exact hide_setProc _ _ _
    · rfl
  | delete q k =>
    obtain rfl : q = p := by simpa [ofThread] using h
    simp only [Txn.step]
    split
    · exact hide_setProc _ _ _
    · rfl
  | ingest q rows =>
    obtain rfl : q = p := by simpa [ofThread] using h
    simp only [Txn.step] at h1 ⊢
    split at h1
    · simp [inFlight] at h1
    · rfl
  | advance q =>
    obtain rfl : q = p := by simpa [ofThread] using h
    simp only [Txn.step] at h1 ⊢
    unfold advance at h1 ⊢
    cases hq : s.procs q with
    | idle => rfl
    | opening v => rfl
    | opened t => rfl
    | locking t todo =>
      cases todo with
      | nil => exact hide_setProc _ _ _
      | cons k ks =>
        simp only
        split
        · rename_i hl
          rw [hide_setProc]
          unfold hide release setProc
          congr 1
          funext i
          dsimp only
          by_cases hi : i = k
          · simp [hi, hl]
          · simp [hi]
        · rfl
    | checking t todo =>
      rw [hq] at h1
      cases todo with
      | nil => simp [inFlight] at h1
      | cons k ks =>
        simp only
        split
        · rw [hide_setProc, hide_release_same]
        · exact hide_setProc _ _ _
    | stamped w => rw [hq] at h0; simp [inFlight] at h0
    | logging w todo => rw [hq] at h0; simp [inFlight] at h0
    | upserts w => rw [hq] at h0; simp [inFlight] at h0
    | deletes w => rw [hq] at h0; simp [inFlight] at h0

/-- The state without thread `p` is reached by the operations of the others, or by some of them. -/
theorem hide_run (e : Env K R) (p : Nat) : ∀ (ops : List (Txn.Op K R)) (s : Sys K R),
    (∀ pre, pre <+: ops → inFlight ((Txn.run e s pre).procs p) = none) →
    ∃ ops', ops'.Sublist (ops.filter (fun o => !ofThread p o)) ∧ Txn.run e (hide p s) ops' = hide p (Txn.run e s ops)
  | [], s, _ => ⟨[], List.nil_sublist _, rfl⟩
  | o :: ops, s, h => by
    obtain ⟨ops', h1, h2⟩ := hide_run e p ops (Txn.step e s o) (fun pre hpre => h (o :: pre) (by simpa using hpre))
    cases ho : ofThread p o with
    | true =>
      refine ⟨ops', by simpa [ho] using h1, ?_⟩
      rw [hide_step_self e s o ho (h [] (List.nil_prefix)) (h [o] (by simp))] at h2
      exact h2
    | false =>
      rcases hide_step_other e s o ho with hs | hs
      · refine ⟨o :: ops', by simpa [ho] using h1, ?_⟩
        rw [hs] at h2
        exact h2
      · refine ⟨ops', by simp only [ho, Bool.not_false, List.filter_cons_of_pos]; exact h1.trans (List.sublist_cons_self _ _), ?_⟩
        rw [hs] at h2
        exact h2

/-- A thread that has nothing to hide. -/
theorem hide_idle {e : Env K R} {p : Nat} {s : Sys K R} (hl : LockInv e s) (h : s.procs p = .idle) : hide p s = s := by
  unfold hide release setProc
  have h1 : (fun k => if s.locks k = some p then none else s.locks k) = s.locks := by
    funext k
    split
    · rename_i hk
      have := (hl.locks k p).1 hk
      rw [h] at this
      exact this.elim
    · rfl
  have h2 : (fun i => if i = p then Proc.idle else s.procs i) = s.procs := by
    funext i
    split
    · rename_i hi; rw [hi, h]
    · rfl
  simp only [h1, h2]

end Tonbo.Lemmas.Txn
