import Verif.Lemmas.TxnInv

/-!
# Memory between flushes, and what the conflict check sees of it
-/

set_option linter.unusedSectionVars false

namespace Tonbo.Lemmas.Txn
open Tonbo.Model Tonbo.Model.Txn Tonbo.Model.Lsm Tonbo.Spec
open Tonbo.Lemmas.Lsm (stepWrites logOf_cons isFinish isReopen)
open Tonbo.Lemmas.Mem (Rep Imm.Rep call_last rep_new mem_conflict_iff imm_conflict_iff)
open Tonbo.Lemmas.Plan (forall₂_getElem? forall₂_mem_right)

variable {K R : Type} [LinearOrder K]

/-- The step takes nothing out of memory. -/
def keepsMem : Lsm.Op K R → Bool
  | .flushDrain => false
  | .reopen _ => false
  | _ => true

theorem execute_runs (x : Exec K R) (s : Db K R) (level : Nat) (inputs) (skip : Nat) :
    (Lsm.execute x s level inputs skip).1.runs = s.runs := by
  unfold Lsm.execute
  split
  · rfl
  · split
    · rfl
    · split <;> rfl

theorem start_runs (x : Exec K R) (table : Nat) (s : Db K R) (t) (head) (skip : Nat) :
    (Lsm.start x table s t head skip).1.runs = s.runs := by
  unfold Lsm.start
  split
  · rfl
  · rfl
  · split
    · rfl
    · split
      · rfl
      · rename_i inputs _
        have := execute_runs x s t.target inputs skip
        split
        · rename_i h; rw [h] at this; exact this
        · rename_i h
          rw [h] at this
          split
          · exact this
          · split
            · exact this
            · split <;> exact this

theorem flushWrite_runs (ext : R → Option K) (x : Exec K R) (s : Db K R) (count : Nat) (refs) :
    (flushWrite ext x s count refs).runs = s.runs := by
  unfold flushWrite
  split
  · split
    · rfl
    · split
      · rfl
      · split <;> rfl
  · rfl

theorem step_runs (ext : R → Option K) (x : Exec K R) (table : Nat) (s : Db K R) (o : Lsm.Op K R)
    (hk : keepsMem o = true) (hw : ∀ op, o ≠ .write op) : (Lsm.step ext x table s o).2.runs = s.runs := by
  cases o with
  | write op => exact absurd rfl (hw op)
  | flushWrite refs => exact flushWrite_runs ext x s _ refs
  | flushSome count refs => exact flushWrite_runs ext x s count refs
  | setWal refs =>
    simp only [Lsm.step]
    unfold setWal
    split <;> rfl
  | flushPublish =>
    simp only [Lsm.step]
    unfold flushPublish
    split
    · split <;> rfl
    · rfl
  | flushDrain => cases hk
  | start t head skip =>
    have := start_runs x table s t head skip
    simp only [Lsm.step]
    split
    · rename_i h; rw [h] at this; exact this
    · rename_i h; rw [h] at this; exact this
  | finish i =>
    simp only [Lsm.step]
    split
    · rfl
    · unfold Lsm.finish
      dsimp only
      split <;> rfl
  | reopen cap => cases hk

/-- What memory holds, run by run, against a list of writes. -/
def MemLog (ext : R → Option K) (s : Db K R) (logs : List (List (Ver K R))) (cur : List (Ver K R)) : Prop :=
  List.Forall₂ (Imm.Rep ext) s.runs.runs logs ∧ Rep ext s.runs.mem cur

theorem memLog_step {ext : R → Option K} {x : Exec K R} {table : Nat} {s : Db K R} {logs : List (List (Ver K R))}
    {cur : List (Ver K R)} (h : MemLog ext s logs cur) (o : Lsm.Op K R) (hk : keepsMem o = true)
    (hok : (Lsm.step ext x table s o).1 = true) :
    ∃ logs' cur', MemLog ext (Lsm.step ext x table s o).2 logs' cur' ∧
      logs'.flatten ++ cur' = logs.flatten ++ cur ++ stepWrites ext o := by
  by_cases hw : ∃ op, o = .write op
  · obtain ⟨op, rfl⟩ := hw
    have hcall : s.runs.call ext op = (true, (s.runs.call ext op).2) := Prod.ext hok rfl
    rcases call_last h.2 hcall with ⟨h1, h2⟩ | ⟨m, h1, h2, h3⟩
    · refine ⟨logs, cur ++ batchWrites ext op, ⟨?_, h2⟩, by simp [stepWrites]⟩
      change List.Forall₂ _ (s.runs.call ext op).2.runs _
      rw [h1]; exact h.1
    · refine ⟨logs ++ [cur], batchWrites ext op, ⟨?_, h3⟩, by simp [stepWrites]⟩
      change List.Forall₂ _ (s.runs.call ext op).2.runs _
      rw [h1]
      exact List.rel_append h.1 (.cons h2 .nil)
  · have hw' : ∀ op, o ≠ .write op := fun op ho => hw ⟨op, ho⟩
    refine ⟨logs, cur, ?_, ?_⟩
    · unfold MemLog
      rw [step_runs ext x table s o hk hw']
      exact h
    · cases o <;> first | exact absurd rfl (hw' _) | simp [stepWrites]

theorem memLog_run {ext : R → Option K} {x : Exec K R} {table : Nat} :
    ∀ (tr : List (Lsm.Op K R)) {s : Db K R} {logs : List (List (Ver K R))} {cur : List (Ver K R)},
    MemLog ext s logs cur → (∀ o ∈ tr, keepsMem o = true) → (Lsm.run ext x table s tr).1 = true →
    ∃ logs' cur', MemLog ext (Lsm.run ext x table s tr).2 logs' cur' ∧
      logs'.flatten ++ cur' = logs.flatten ++ cur ++ logOf ext tr
  | [], s, logs, cur, h, _, _ => ⟨logs, cur, h, by simp [logOf]⟩
  | o :: tr, s, logs, cur, h, hk, hok => by
    unfold Lsm.run at hok
    simp only [Bool.and_eq_true] at hok
    obtain ⟨l1, c1, h1, e1⟩ := memLog_step h o (hk o List.mem_cons_self) hok.1
    obtain ⟨l2, c2, h2, e2⟩ := memLog_run tr h1 (fun o' ho' => hk o' (List.mem_cons_of_mem _ ho')) hok.2
    exact ⟨l2, c2, h2, by rw [e2, e1, logOf_cons, List.append_assoc, List.append_assoc]⟩

theorem memLog_new (ext : R → Option K) (cap table sv : Nat) : MemLog ext (Db.new cap table sv : Db K R) [] [] :=
  ⟨.nil, rep_new ext cap⟩

/-- The conflict check finds the writes in memory that are newer than the snapshot. -/
theorem conflict_iff {ext : R → Option K} {s : Sys K R} {logs : List (List (Ver K R))} {cur : List (Ver K R)}
    (h : MemLog ext s.db logs cur) (hts : ∀ v ∈ logs.flatten ++ cur, v.ts ≤ Mem.tsMax) (k : K) (rts : Nat) :
    conflict s k rts = true ↔ ∃ v ∈ logs.flatten ++ cur, v.key = k ∧ rts < v.ts := by
  unfold conflict
  rw [Bool.or_eq_true, mem_conflict_iff h.2 (fun w hw => hts w (List.mem_append_right _ hw)), List.any_eq_true]
  have hl : ∀ l ∈ logs, ∀ w ∈ l, w.ts ≤ Mem.tsMax := fun l hl w hw =>
    hts w (List.mem_append_left _ (List.mem_flatten.2 ⟨l, hl, hw⟩))
  constructor
  · rintro (⟨v, hv, h1⟩ | ⟨m, hm, hc⟩)
    · exact ⟨v, List.mem_append_right _ hv, h1⟩
    · obtain ⟨i, hi⟩ := List.mem_iff_getElem?.1 hm
      obtain ⟨l, hl', hrep⟩ := forall₂_getElem? h.1 hi
      obtain ⟨v, hv, h1⟩ := (imm_conflict_iff hrep (hl l (List.mem_of_getElem? hl')) k rts).1 hc
      exact ⟨v, List.mem_append_left _ (List.mem_flatten.2 ⟨l, List.mem_of_getElem? hl', hv⟩), h1⟩
  · rintro ⟨v, hv, h1⟩
    rcases List.mem_append.1 hv with hv | hv
    · obtain ⟨l, hl', hv⟩ := List.mem_flatten.1 hv
      obtain ⟨m, hm, hrep⟩ := forall₂_mem_right h.1 hl'
      exact .inr ⟨m, hm, (imm_conflict_iff hrep (hl l hl') k rts).2 ⟨v, hv, h1⟩⟩
    · exact .inl ⟨v, hv, h1⟩

/-- Between two flushes memory holds the whole log. -/
theorem memory {e : Env K R} {Q : Sys K R → Txn.Op K R → Prop} {cap sv : Nat} {s : Sys K R}
    (hQ : ∀ s' o, Q s' (.lsm o) → background o = true → keepsMem o = true) (h : TraceInv e Q cap sv s) (hok : s.ok = true) :
    ∃ logs cur, MemLog e.ext s.db logs cur ∧ logs.flatten ++ cur = logOf e.ext s.trace := by
  have hr := h.run
  obtain ⟨l, c, h1, h2⟩ := memLog_run (x := e.x) (table := e.table) s.trace (memLog_new e.ext cap e.table sv)
    (fun o ho => by
      rcases h.ops o ho with ⟨hb, s', hq⟩ | ⟨op, rfl⟩
      · exact hQ s' o hq hb
      · rfl)
    (by rw [hr]; exact hok)
  rw [hr] at h1
  exact ⟨l, c, h1, by simpa using h2⟩

/-- Two writes of the log with one key and one timestamp are the same mutation. -/
theorem functional_log {e : Env K R} {Q : Sys K R → Txn.Op K R → Prop} {I : List R → Prop} {cap sv : Nat} {s : Sys K R}
    (hs : StampInv e I s) (h : TraceInv e Q cap sv s) (hok : s.ok = true) :
    Functional (· ∈ logOf e.ext s.trace) := by
  have fn : ∀ w, WorkOk e I w → Functional (· ∈ writesOf e.ext w) := by
    intro w hw
    cases hsn : w.snap with
    | some r => exact hw.txn (by rw [hsn]; rfl)
    | none =>
      obtain ⟨rows, hr, he⟩ := hw.batch hsn
      rw [he]
      have := Mem.lastOnly_functional (putWrites e.ext (rows.map (fun r => (r, w.ts))))
      simpa [writesOf, upsOf, delsOf, ingestOf, delWrites, lastOnly, batchWrites, opWrites] using this
  -- every write belongs to a finished write or to one in flight
  have src : ∀ v ∈ logOf e.ext s.trace, (∃ w ∈ s.done, v ∈ writesOf e.ext w) ∨
      ∃ p w, inFlight (s.procs p) = some w ∧ v ∈ writesOf e.ext w := by
    intro v hv
    rcases h.sound hok v hv with h1 | ⟨p, w, hp, hv⟩
    · exact .inl h1
    · exact .inr ⟨p, w, by rw [hp]; rfl, List.mem_append_left _ hv⟩
  have pw : ∀ a ∈ s.done, ∀ b ∈ s.done, a.ts = b.ts → a = b := by
    intro a ha b hb hab
    obtain ⟨i, hi, rfl⟩ := List.getElem_of_mem ha
    obtain ⟨j, hj, rfl⟩ := List.getElem_of_mem hb
    rcases Nat.lt_trichotomy i j with hij | hij | hij
    · exact absurd hab (List.pairwise_iff_getElem.1 hs.nodup i j hi hj hij)
    · subst hij; rfl
    · exact absurd hab.symm (List.pairwise_iff_getElem.1 hs.nodup j i hj hi hij)
  intro a b ha hb hk hts
  rcases src a ha with ⟨w, hw, ha⟩ | ⟨p, w, hw, ha⟩ <;> rcases src b hb with ⟨w', hw', hb⟩ | ⟨p', w', hw', hb⟩
  · have e1 := writesOf_ts ha
    have e2 := writesOf_ts hb
    have := pw w hw w' hw' (by rw [← e1, ← e2, hts])
    subst this
    exact fn w (hs.done w hw).2 a b ha hb hk hts
  · have e1 := writesOf_ts ha
    have e2 := writesOf_ts hb
    exact absurd (by rw [← e1, ← e2, hts]) (hs.flydone p' w' w hw' hw)
  · have e1 := writesOf_ts ha
    have e2 := writesOf_ts hb
    exact absurd (by rw [← e1, ← e2, hts]) (hs.flydone p w w' hw hw')
  · have e1 := writesOf_ts ha
    have e2 := writesOf_ts hb
    have := hs.flyfly p p' w w' hw hw' (by rw [← e1, ← e2, hts])
    subst this
    rw [hw] at hw'
    cases hw'
    exact fn w (hs.fly p w hw).2 a b ha hb hk hts

/-! ## First committer wins -/

/-- No finished transaction that writes a key under check, or under a lock after the check, is newer than
the snapshot. -/
structure FirstInv (e : Env K R) (s : Sys K R) : Prop where
  chk : ∀ p t todo, s.procs p = .checking t todo → ∀ k ∈ t.keys, k ∉ todo → ∀ w ∈ s.done, w.snap.isSome = true →
    Writes e.ext w k → w.ts ≤ t.snap.rts
  fly : ∀ p w r, inFlight (s.procs p) = some w → w.snap = some r → ∀ k, Writes e.ext w k → ∀ w' ∈ s.done,
    w'.snap.isSome = true → Writes e.ext w' k → w'.ts ≤ r
  done : s.done.Pairwise (fun a b => a.snap.isSome = true → ∀ r, b.snap = some r → ∀ k, Writes e.ext a k →
    Writes e.ext b k → a.ts ≤ r)

theorem checking_set {s s' : Sys K R} {p : Nat} {q : Proc K R} (hs : s'.procs = (setProc s p q).procs)
    {P : Txn K R → List K → Prop} (h : ∀ i t todo, s.procs i = .checking t todo → P t todo)
    (hq : ∀ t todo, q = .checking t todo → P t todo) : ∀ i t todo, s'.procs i = .checking t todo → P t todo := by
  intro i t todo hi
  rw [hs] at hi
  by_cases hip : i = p
  · rw [hip, setProc_same] at hi; exact hq t todo hi
  · rw [setProc_other s hip] at hi; exact h i t todo hi

theorem ts_le_of_clock {s : Sys K R} {e : Env K R} {Q : Sys K R → Txn.Op K R → Prop} {I : List R → Prop} {cap sv : Nat}
    (hs : StampInv e I s) (h : TraceInv e Q cap sv s) (hok : s.ok = true) (hc : s.clock ≤ Mem.tsMax + 1) :
    ∀ v ∈ logOf e.ext s.trace, v.ts ≤ Mem.tsMax := by
  intro v hv
  rcases h.sound hok v hv with ⟨w, hw, hv⟩ | ⟨p, w, hp, hv⟩
  · have := (hs.done w hw).1
    have := writesOf_ts hv
    omega
  · have := (hs.fly p w (by rw [hp]; rfl)).1
    have := writesOf_ts (List.mem_append_left _ hv : v ∈ writesOf e.ext w)
    omega

theorem flyHeld {q : Proc K R} {w : Work K R} (hw : inFlight q = some w) {k : K} (hk : k ∈ w.held) : Held q k := by
  cases q <;> simp only [inFlight, reduceCtorEq, Option.some.injEq] at hw <;> subst hw <;> exact hk

theorem firstInv_tr {e : Env K R} {Q : Sys K R → Txn.Op K R → Prop} {I : List R → Prop} {cap sv : Nat}
    (hQ : ∀ s' o, Q s' (.lsm o) → background o = true → keepsMem o = true) {s s' : Sys K R} (hl : LockInv e s)
    (hs : StampInv e I s) (htr : TraceInv e Q cap sv s) (h : FirstInv e s) (ht : Tr e Q s s')
    (hok : s.ok = true) (hclk : s.clock ≤ Mem.tsMax + 1) : FirstInv e s' := by
  -- a finished write and the thread that checks or writes the same key hold the same lock
  have other : ∀ p w, inFlight (s.procs p) = some w → w.snap.isSome = true → ∀ k, Writes e.ext w k →
      ∀ q, Held (s.procs q) k → q = p := by
    intro p w hw hsn k hk q hq
    have h1 : Held (s.procs p) k := flyHeld hw (((hs.fly p w hw).2.held k).2 ⟨hsn, hk⟩)
    have a := (hl.locks k p).2 h1
    have b := (hl.locks k q).2 hq
    rw [a] at b
    exact (Option.some.inj b).symm
  have chk : ∀ p t todo, s'.procs p = .checking t todo → ∀ k ∈ t.keys, k ∉ todo → ∀ w ∈ s.done,
      w.snap.isSome = true → Writes e.ext w k → w.ts ≤ t.snap.rts := by
    cases ht with
    | stay => exact h.chk
    | bg o hb hq => exact h.chk
    | read p hd v hp hv hq => exact checking_set rfl h.chk (by simp)
    | «open» p v hp hq => exact checking_set rfl h.chk (by simp)
    | stageUp p t r k hp hk => exact checking_set rfl h.chk (by simp)
    | stageDel p t k hp => exact checking_set rfl h.chk (by simp)
    | quit p t hp => exact checking_set rfl h.chk (by simp)
    | call p t hp hne => exact checking_set rfl h.chk (by simp)
    | ingest p rows hp hq => exact checking_set rfl h.chk (by simp)
    | locked p t hp =>
      refine checking_set rfl h.chk ?_
      intro t' todo' heq k hk hn
      cases heq
      exact absurd hk hn
    | lock p t k ks hp hlk => exact checking_set (s := s) (p := p) (q := .locking t ks) rfl h.chk (by simp)
    | clash p t k ks hp hc => exact checking_set (s := s) (p := p) (q := .idle) rfl h.chk (by simp)
    | clear p t k ks hp hc =>
      refine checking_set rfl h.chk ?_
      intro t' todo' heq k' hk' hn w hw hsn hwr
      cases heq
      by_cases hkk : k' = k
      · subst hkk
        obtain ⟨logs, cur, hm, hlog⟩ := memory hQ htr hok
        have hno : ¬ ∃ v ∈ logs.flatten ++ cur, v.key = k' ∧ t.snap.rts < v.ts := by
          rw [← conflict_iff hm (by rw [hlog]; exact ts_le_of_clock hs htr hok hclk), hc]
          simp
        obtain ⟨v, hv, hvk⟩ := hwr
        by_contra hlt
        refine hno ⟨v, ?_, hvk, ?_⟩
        · rw [hlog]; exact htr.done w hw v hv
        · rw [writesOf_ts hv]; omega
      · exact h.chk p t (k :: ks) hp k' hk' (by simp [hkk, hn]) w hw hsn hwr
    | stamp p t hp => exact checking_set rfl h.chk (by simp)
    | ident p w hp hw => exact checking_set (s := s) (p := p) (q := .logging w _) rfl h.chk (by simp)
    | nowal p w hp hw => exact checking_set rfl h.chk (by simp)
    | logged p w hp => exact checking_set rfl h.chk (by simp)
    | log p w r rs hp => exact checking_set (s := s) (p := p) (q := .logging w rs) rfl h.chk (by simp)
    | upNone p w hp hu => exact checking_set rfl h.chk (by simp)
    | up p w rows hp hu hok => exact checking_set (s := s) (p := p) (q := .deletes w) rfl h.chk (by simp)
    | fail p w op hp hok => exact checking_set (s := s) (p := p) (q := .idle) rfl h.chk (by simp)
    | delNone p w hp hd => exact checking_set (s := s) (p := p) (q := .idle) rfl h.chk (by simp)
    | del p w keys hp hd hok => exact checking_set (s := s) (p := p) (q := .idle) rfl h.chk (by simp)
  cases tr_eff ht with
  | same hc hd hf =>
    refine ⟨by rw [hd]; exact chk, ?_, by rw [hd]; exact h.done⟩
    simp only [hf, hd]
    exact h.fly
  | stamp p w hc hd hw h0 h1 hf hk =>
    refine ⟨by rw [hd]; exact chk, ?_, by rw [hd]; exact h.done⟩
    rw [hd]
    intro i w' r hi hr k hkw
    by_cases hip : i = p
    · rw [hip, h1] at hi
      obtain rfl := Option.some.inj hi
      rcases hk with ⟨t, hp, rfl⟩ | ⟨rows, hq, rfl⟩
      · have ht := hl.procs p
        rw [hp] at ht
        have hk' := ((workOk_txn (I := I) ht.1 s.clock).held k).2 ⟨rfl, hkw⟩
        have : r = t.snap.rts := by cases hr; rfl
        rw [this]
        exact h.chk p t [] hp k hk' (by simp)
      · cases hr
    · rw [hf i hip] at hi
      exact h.fly i w' r hi hr k hkw
  | lost p w hc hd h0 h1 hf hok =>
    refine ⟨by rw [hd]; exact chk, ?_, by rw [hd]; exact h.done⟩
    rw [hd]
    intro i w' r hi
    by_cases hip : i = p
    · rw [hip, h1] at hi; cases hi
    · rw [hf i hip] at hi; exact h.fly i w' r hi
  | finish p w hc hd h0 h1 hf hp =>
    have old : ∀ i, i ≠ p → s'.procs i = s.procs i := fun i hi => by rw [hp, setProc_other s hi]
    refine ⟨?_, ?_, ?_⟩
    · intro i t todo hi k hk hn w' hw' hsn hwr
      rw [hd] at hw'
      rcases List.mem_append.1 hw' with hw' | hw'
      · exact chk i t todo hi k hk hn w' hw' hsn hwr
      · rw [List.mem_singleton.1 hw'] at hsn hwr
        have hip : i ≠ p := by
          rintro rfl
          rw [hp, setProc_same] at hi
          cases hi
        rw [old i hip] at hi
        exact absurd (other p w h0 hsn k hwr i (by rw [hi]; exact hk)) hip
    · intro i w'' r hi hr k hkw w' hw' hsn hwr
      rw [hd] at hw'
      have hip : i ≠ p := by
        rintro rfl
        rw [h1] at hi
        cases hi
      rw [hf i hip] at hi
      rcases List.mem_append.1 hw' with hw' | hw'
      · exact h.fly i w'' r hi hr k hkw w' hw' hsn hwr
      · rw [List.mem_singleton.1 hw'] at hsn hwr
        refine absurd (other p w h0 hsn k hwr i ?_) hip
        exact flyHeld hi (((hs.fly i w'' hi).2.held k).2 ⟨by rw [hr]; rfl, hkw⟩)
    · rw [hd, List.pairwise_append]
      refine ⟨h.done, by simp, fun a ha b hb => ?_⟩
      rw [List.mem_singleton.1 hb]
      intro hsn r hr k hka hkb
      exact h.fly p w r h0 hr k hkb a ha hsn hka

theorem firstInv_new (e : Env K R) (cap sv : Nat) : FirstInv e (Sys.new e cap sv) := by
  refine ⟨?_, ?_, ?_⟩ <;> simp [Sys.new, inFlight]

end Tonbo.Lemmas.Txn
