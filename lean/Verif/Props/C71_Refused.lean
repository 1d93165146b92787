import Verif.Props.C71_Answers
import Verif.Props.C04_Failures

/-!
# C71: writes the memory table refuses

A null key, or a table wedged by empty batches, makes the memory table refuse a batch after the log has it
(`C71.a_refused_batch_stops_recovery`). Readers see nothing of such a write, and everything else, unless the
slots of the table were used up: then the rows of the table go with it.
-/

set_option linter.unusedSectionVars false

namespace Tonbo.Props.C71
open Tonbo.Model Tonbo.Model.Mem Tonbo.Model.Wal Tonbo.Model.WriteCall Tonbo.Spec Tonbo.Spec.Wal
open Tonbo.Lemmas.WriteCall Tonbo.Lemmas.Mem
open Tonbo.Props.C28 (Holds)
open Tonbo.Props.C04 (Room)

variable {A K R : Type} [LinearOrder K]

/-! ## Which memory call of a write can fail -/

/-- The memory calls of one write: rows, deletions, or rows and then deletions. -/
def Shape (ops : List (Mem.Op K R)) : Prop :=
  ops = [] ∨ (∃ rows, ops = [.put rows]) ∨ (∃ keys, ops = [.del keys]) ∨
    ∃ rows keys, rows ≠ [] ∧ ops = [.put rows, .del keys]

theorem put_fills {ext : R → Option K} {t t' : Runs K R} {log : List (Ver K R)} (h : Rep ext t.mem log)
    {rows : List (R × Nat)} (hne : rows ≠ []) (hc : t.call ext (.put rows) = (true, t')) :
    t'.mem.index ≠ [] ∧ 0 < t'.mem.cap := by
  have htry : ∀ s s' : Inner K R, tryInsertBatch ext s (rows.map (·.1)) (rows.map (·.2)) = .ok s' →
      s'.index ≠ [] ∧ 0 < s'.cap := by
    intro s s' ho
    unfold tryInsertBatch at ho
    split at ho
    · cases ho
    · rename_i hcap
      split at ho
      · cases ho
      · rename_i ks hk
        cases ho
        refine ⟨?_, by simp only; omega⟩
        simp only
        have hl := (mapM_some_length hk).1
        have : ∀ (mk : Nat → Loc) (l : List (K × Nat)) (i : Nat) (ix : List (KT K × Loc)), (l ≠ [] ∨ ix ≠ []) →
            indexRows mk i l ix ≠ [] := by
          intro mk l
          induction l with
          | nil => intro i ix h; simpa [indexRows] using h
          | cons p l ih =>
            intro i ix _
            simp only [indexRows]
            refine ih _ _ (.inr ?_)
            cases ix with
            | nil => simp [SMap.insert]
            | cons a l => simp only [SMap.insert]; split <;> [simp; (split <;> simp)]
        refine this _ _ _ _ (.inl ?_)
        cases rows with
        | nil => exact absurd rfl hne
        | cons p rows =>
          cases ks with
          | nil => simp at hl
          | cons k ks => simp
  simp only [Runs.call, memCall, insertBatchMvcc, mapM_id_some] at hc
  rw [if_neg (by simp)] at hc
  cases h1 : tryInsertBatch ext t.mem (rows.map (·.1)) (rows.map (·.2)) with
  | ok s' => rw [h1] at hc; cases hc; exact htry _ _ h1
  | err e s' => rw [h1] at hc; cases hc
  | full =>
    rw [h1] at hc
    rcases seal_rep h with ⟨h2, _, _⟩ | ⟨m, h2, _, _⟩
    · rw [h2] at hc
      simp only [h1] at hc
      cases hc
    · rw [h2] at hc
      cases h3 : tryInsertBatch ext (Inner.new t.mem.cap) (rows.map (·.1)) (rows.map (·.2)) with
      | ok s' => simp only [h3] at hc; cases hc; exact htry _ _ h3
      | err e s' => simp only [h3] at hc; cases hc
      | full => simp only [h3] at hc; cases hc

theorem del_succeeds {ext : R → Option K} {t : Runs K R} {log : List (Ver K R)} (h : Rep ext t.mem log)
    (hi : t.mem.index ≠ []) (hcap : 0 < t.mem.cap) (keys : List (K × Nat)) :
    (t.call ext (.del keys)).1 = true := by
  have htry : ∀ s : Inner K R, s.dels.length < s.cap →
      ∃ s', tryInsertDelete s (keys.map (fun p => (some p.1, some p.2))) = .ok s' := by
    intro s hs
    unfold tryInsertDelete
    split
    · exact ⟨_, rfl⟩
    · have h1 : ∀ l : List (K × Nat), (l.map (fun p => (some p.1, some p.2))).mapM
          (fun q : Option K × Option Nat => q.2) = some (l.map (·.2)) := by
        intro l
        induction l with
        | nil => rfl
        | cons a l ih => simp only [List.map_cons, List.mapM_cons, ih]; rfl
      have h2 : ∀ l : List (K × Nat), (l.map (fun p => (some p.1, some p.2))).mapM
          (fun q : Option K × Option Nat => q.1) = some (l.map (·.1)) := by
        intro l
        induction l with
        | nil => rfl
        | cons a l ih => simp only [List.map_cons, List.mapM_cons, ih]; rfl
      rw [h1, h2]
      simp only
      rw [if_neg (by omega)]
      exact ⟨_, rfl⟩
  by_contra hf
  simp only [Bool.not_eq_true] at hf
  have hc : t.call ext (.del keys) = (false, (t.call ext (.del keys)).2) := by rw [← hf]
  obtain ⟨_, ⟨_, h2⟩ | ⟨h2, _, _⟩⟩ := call_fails h hc
  · have hroom : t.mem.dels.length < t.mem.cap := by
      by_contra hn
      exact hi (h2 (Nat.not_lt.1 hn))
    obtain ⟨s', h3⟩ := htry _ hroom
    simp only [Runs.call, memCall, insertDeleteBatch, h3] at hf
    cases hf
  · rcases seal_rep h with ⟨_, _, h5⟩ | ⟨m, h5, _, _⟩
    · exact hi h5
    · obtain ⟨s', h6⟩ := htry (Inner.new t.mem.cap) (by simpa [Inner.new] using hcap)
      simp only [Runs.call, memCall, insertDeleteBatch, h5, h6] at hf
      cases h7 : tryInsertDelete t.mem (keys.map (fun p => (some p.1, some p.2))) with
      | ok s' => rw [h7] at hf; cases hf
      | full => rw [h7] at hf; cases hf
      | err e s' =>
        unfold tryInsertDelete at h7
        have h1 : ∀ l : List (K × Nat), (l.map (fun p => (some p.1, some p.2))).mapM
            (fun q : Option K × Option Nat => q.2) = some (l.map (·.2)) := by
          intro l
          induction l with
          | nil => rfl
          | cons a l ih => simp only [List.map_cons, List.mapM_cons, ih]; rfl
        split at h7
        · cases h7
        · rw [h1] at h7
          simp only at h7
          rw [if_pos (show t.mem.cap ≤ t.mem.dels.length from h2)] at h7
          cases h7

/-- If the memory refuses a write, it refuses the first batch of it. -/
theorem first_call_fails {ext : R → Option K} {ops : List (Mem.Op K R)} (hs : Shape ops) {t t' : Runs K R}
    {log : List (Ver K R)} (h : Rep ext t.mem log) (hf : applyOps ext ops t = (false, t')) :
    ∃ op rest, ops = op :: rest ∧ t.call ext op = (false, t') := by
  have one : ∀ op, applyOps ext [op] t = (false, t') → t.call ext op = (false, t') := by
    intro op ho
    rcases hc : t.call ext op with ⟨b, t1⟩
    simp only [applyOps, hc] at ho
    cases b with
    | true => cases ho
    | false => cases ho; rfl
  rcases hs with rfl | ⟨rows, rfl⟩ | ⟨keys, rfl⟩ | ⟨rows, keys, hne, rfl⟩
  · cases hf
  · exact ⟨_, _, rfl, one _ hf⟩
  · exact ⟨_, _, rfl, one _ hf⟩
  · refine ⟨_, _, rfl, ?_⟩
    rcases hc : t.call ext (.put rows) with ⟨b, t1⟩
    cases b with
    | false =>
      rw [applyOps, hc] at hf
      cases hf; rfl
    | true =>
      exfalso
      obtain ⟨h1, h2⟩ := put_fills h hne hc
      have hrep : ∃ l, Rep ext t1.mem l := by
        rcases call_ok h hc with ⟨_, h3⟩ | ⟨_, _, _, h3⟩ <;> exact ⟨_, h3⟩
      obtain ⟨l, hrep⟩ := hrep
      have h4 := del_succeeds hrep h1 h2 keys
      rw [applyOps, hc] at hf
      simp only [if_true] at hf
      rw [applyOps, if_pos h4] at hf
      cases hf

theorem shape_ingestT {ext : R → Option K} {ts : Nat} {rows : List R} {flags : List Bool} {ops : List (Mem.Op K R)}
    (h : IngestT.calls ext rows flags ts = .ok ops) : Shape ops := by
  unfold IngestT.calls at h
  split at h
  · cases h
  split at h
  · cases h; exact .inl rfl
  split at h
  · cases h; exact .inr (.inl ⟨_, rfl⟩)
  split at h
  · cases h
  · split at h
    · cases h; exact .inr (.inr (.inl ⟨_, rfl⟩))
    · rename_i hne
      cases h; exact .inr (.inr (.inr ⟨_, _, by simpa using hne, rfl⟩))

theorem shape_commit (ts : Nat) (rows : List R) (keys : List K) : Shape (commitOps ts rows keys) := by
  unfold commitOps
  by_cases hr : rows = [] <;> by_cases hk : keys = []
  · rw [if_pos hr, if_pos hk]; exact .inl rfl
  · rw [if_pos hr, if_neg hk]; exact .inr (.inr (.inl ⟨_, rfl⟩))
  · rw [if_neg hr, if_pos hk]; exact .inr (.inl ⟨_, rfl⟩)
  · rw [if_neg hr, if_neg hk]; exact .inr (.inr (.inr ⟨_, _, by simpa using hr, rfl⟩))

/-- The batch a write hands to the memory table first. -/
def First (ext : R → Option K) (ts : Nat) : Call K R → Mem.Op K R → Prop
  | .ingest _ rows, op => op = .put (rows.map (fun r => (r, ts)))
  | .ingestT _ rows flags, op => ∃ rest, IngestT.calls ext rows flags ts = .ok (op :: rest)
  | .commit _ _ _ rows keys, op => ∃ rest, commitOps ts rows keys = op :: rest

theorem memory_answer {c : Ctx A K R} {call : Call K R} {e : Env} {s s' : St A K R} {log : List (Ver K R)}
    (h : Rep c.ext s.mem.mem log) (hx : exec c s call e = (.memory, s')) :
    ∃ op, First c.ext s.clock call op ∧ s.mem.call c.ext op = (false, s'.mem) := by
  have hdirect : ∀ ops, Shape ops → direct c s.clock ops e { s with clock := s.clock + 1 } = (.memory, s') →
      ∃ op rest, ops = op :: rest ∧ s.mem.call c.ext op = (false, s'.mem) := by
    intro ops hs hx
    unfold direct at hx
    rcases ht : toLog c false s.clock ops e { s with clock := s.clock + 1 } with ⟨la, s1⟩
    have hm : s1.mem = s.mem := (toLog_mem ht).trans rfl
    rw [ht] at hx
    cases la with
    | encode => cases hx
    | fails => cases hx
    | ok =>
      simp only at hx
      rcases ha : applyOps c.ext ops s1.mem with ⟨b, t⟩
      rw [ha] at hx
      cases b with
      | false =>
        cases hx
        rw [hm] at ha
        exact first_call_fails hs h ha
      | true =>
        exfalso
        simp only at hx
        have hrep : ∃ l, Rep c.ext t.mem l := by
          have h1 := applyOps_ok ha
          obtain ⟨cur', h2⟩ := calls_rep_mem (ext := c.ext) ops s1.mem log (by rw [hm]; exact h)
          rw [h1] at h2
          exact ⟨_, h2⟩
        obtain ⟨l, hrep⟩ := hrep
        unfold settle at hx
        have hfr : (t.call c.ext .freeze).1 = true := by
          simp only [Runs.call, memCall]
          rcases seal_rep hrep with ⟨h2, _, _⟩ | ⟨m, h2, _, _⟩ <;> rw [h2]
        cases hf : e.freeze with
        | false =>
          rw [hf] at hx
          simp only [Bool.false_eq_true, if_false] at hx
          cases hfl : e.flush <;> rw [hfl] at hx <;> cases hx
        | true =>
          rw [hf] at hx
          simp only [if_true] at hx
          rcases hc : t.call c.ext .freeze with ⟨b, t1⟩
          rw [hc] at hfr hx
          simp only at hfr
          subst hfr
          simp only at hx
          cases hfl : e.flush <;> rw [hfl] at hx <;> cases hx
  cases call with
  | ingest b rows =>
    simp only [exec, ingest] at hx
    split at hx
    · cases hx
    split at hx
    · cases hx
    obtain ⟨op, rest, h1, h2⟩ := hdirect _ (.inr (.inl ⟨_, rfl⟩)) hx
    cases h1
    exact ⟨_, rfl, h2⟩
  | ingestT b rows flags =>
    simp only [exec, ingestT] at hx
    split at hx
    · cases hx
    split at hx
    · cases hx
    · cases hx
    · cases hx
    · rename_i hc
      obtain ⟨op, rest, h1, h2⟩ := hdirect _ (shape_ingestT hc) hx
      subst h1
      exact ⟨op, ⟨rest, hc⟩, h2⟩
  | commit f x n rows keys =>
    simp only [exec, WriteCall.commit] at hx
    split at hx
    · cases hx
    split at hx
    · cases hx
    split at hx
    · cases hx
    rcases ht : toLog c true s.clock (commitOps s.clock rows keys) e { s with clock := s.clock + 1 } with ⟨la, s1⟩
    have hm : s1.mem = s.mem := (toLog_mem ht).trans rfl
    rw [ht] at hx
    have hap : apply c f (commitOps s.clock rows keys) e s1 = (.memory, s') →
        ∃ op, First c.ext s.clock (.commit f x n rows keys) op ∧ s.mem.call c.ext op = (false, s'.mem) := by
      intro ha
      unfold apply at ha
      rcases hap : applyOps c.ext (commitOps s.clock rows keys) s1.mem with ⟨b, t⟩
      rw [hap] at ha
      cases b with
      | true =>
        simp only at ha
        split at ha <;> cases ha
      | false =>
        cases ha
        rw [hm] at hap
        obtain ⟨op, rest, h1, h2⟩ := first_call_fails (shape_commit _ _ _) h hap
        exact ⟨op, ⟨rest, h1⟩, h2⟩
    cases la with
    | encode => cases hx
    | fails =>
      simp only at hx
      split at hx
      · exact hap hx
      · cases hx
    | ok => exact hap hx

/-- Every write the memory refuses finds a free slot for its first batch, or a table without rows. -/
def RefusedWithRoom (c : Ctx A K R) (s : St A K R) (h : List (Call K R × Env)) : Prop :=
  ∀ h1 call e h2, h = h1 ++ (call, e) :: h2 → (exec c (run c s h1).2 call e).1 = .memory →
    ∀ op, First c.ext (run c s h1).2.clock call op → Room (run c s h1).2.mem op

/-- **C71, readers (partial).** After any sequence of calls, with any failures of the log, the flush and the
manifest, and with writes refused by the memory table while it has a free slot or no rows, readers see exactly
the writes whose answer was a success or an error behind the memory. A refused write has no effect on them,
not even in part. Missing: writes refused by a memory table whose slots are used up
(`a_refused_write_takes_others_with_it`). -/
theorem answers_and_reads_with_refusals_partial (c : Ctx A K R) (hd : Decodes c) (cap : Nat) (withLog : Bool)
    (h : List (Call K R × Env)) (hn : h.length < 2 ^ 64) (hr : RefusedWithRoom c (start cap withLog) h) :
    Holds (run c (start cap withLog) h).2.mem (seen c.ext (run c (start cap withLog) h).1) := by
  suffices H : ∃ logs cur, List.Forall₂ (Imm.Rep c.ext) (run c (start cap withLog) h).2.mem.runs logs ∧
      Rep c.ext (run c (start cap withLog) h).2.mem.mem cur ∧
      logs.flatten ++ cur = seen c.ext (run c (start cap withLog) h).1 by
    obtain ⟨logs, cur, h1, h2, h3⟩ := H
    exact ⟨logs, cur, h3, h1.imp (fun m l hml rts => imm_rep_scan_all hml rts), fun rts => rep_scan_all h2 rts⟩
  induction h using List.reverseRecOn with
  | nil => exact ⟨[], [], .nil, rep_new c.ext cap, rfl⟩
  | append_singleton h p ih =>
    obtain ⟨call, e⟩ := p
    rw [run_snoc]
    simp only [List.length_append, List.length_cons, List.length_nil] at hn
    obtain ⟨logs, cur, h1, h2, h3⟩ := ih (by omega) (by
      intro a call' e' b hab ha
      exact hr a call' e' (b ++ [(call, e)]) (by rw [hab]; simp) ha)
    have hnum := nums_run hd (nums_start cap withLog) h (by omega)
    have hs := step_exec hd (call := call) (e := e) (by have := hnum.clock; omega) (ids_fresh hnum (by omega))
    by_cases hm : (exec c (run c (start cap withLog) h).2 call e).1 = .memory
    · rcases hx : exec c (run c (start cap withLog) h).2 call e with ⟨a, s'⟩
      rw [hx] at hm
      simp only at hm
      subst hm
      obtain ⟨op, hop, hc⟩ := memory_answer h2 hx
      have hroom := hr h call e [] rfl (by rw [hx]) op hop
      obtain ⟨e1, ⟨e2, _⟩ | ⟨e3, e4, _⟩⟩ := call_fails h2 hc
      · refine ⟨logs, cur, by simp only [e1]; exact h1, e2, ?_⟩
        rw [h3]
        simp [seen, Seen]
      · exact absurd (hroom e3) e4
    · rcases hs.mem hm with ⟨g1, ops, g2, g3⟩ | ⟨g1, g2⟩
      · obtain ⟨logs', cur', k1, k2, k3⟩ := calls_ok ops _ _ logs cur h1 h2 g2
        refine ⟨logs', cur', k1, k2, ?_⟩
        rw [k3, h3, g3]
        simp [seen, g1]
      · refine ⟨logs, cur, by simp only [g2]; exact h1, by simp only [g2]; exact h2, ?_⟩
        rw [h3]
        simp [seen, g1]

/-- **C71 fails**: a refused write on a table whose slots are used up takes the rows of the table with it,
here the row 1 written before with a success. -/
theorem a_refused_write_takes_others_with_it :
    (run exCtx (start 1 false) [(.ingest true [1], exFine), (.ingest true [2, 99], exFine)]).1.map (·.ans) =
      [.ok, .memory] ∧
    Mem.scan (run exCtx (start 1 false) [(.ingest true [1], exFine)]).2.mem.mem none 9 = some [.row ⟨1, 0⟩ 1] ∧
    (run exCtx (start 1 false) [(.ingest true [1], exFine), (.ingest true [2, 99], exFine)]).2.mem.runs.length = 0 ∧
    Mem.scan (run exCtx (start 1 false) [(.ingest true [1], exFine), (.ingest true [2, 99], exFine)]).2.mem.mem none 9 =
      some [] := by
  refine ⟨?_, ?_, ?_, ?_⟩ <;> decide +kernel

/-- With a free slot: the hypothesis of `answers_and_reads_with_refusals_partial` holds, one write is refused,
and readers see the rows 1 and 3. -/
example : RefusedWithRoom exCtx (start 4 false)
      [(.ingest true [1], exFine), (.ingest true [2, 99], exFine), (.ingest true [3], exFine)] ∧
    (run exCtx (start 4 false)
      [(.ingest true [1], exFine), (.ingest true [2, 99], exFine), (.ingest true [3], exFine)]).1.map (·.ans) =
      [.ok, .memory, .ok] ∧
    Mem.scan (run exCtx (start 4 false)
      [(.ingest true [1], exFine), (.ingest true [2, 99], exFine), (.ingest true [3], exFine)]).2.mem.mem none 9 =
      some [.row ⟨1, 0⟩ 1, .row ⟨3, 2⟩ 3] := by
  refine ⟨?_, by decide +kernel, by decide +kernel⟩
  intro h1 call e h2 hh hm op hop hfull
  rcases h1 with _ | ⟨a, _ | ⟨b, _ | ⟨d, _ | ⟨x, h1⟩⟩⟩⟩ <;> simp at hh
  · obtain ⟨⟨rfl, rfl⟩, _⟩ := hh; revert hm; decide +kernel
  · obtain ⟨rfl, ⟨rfl, rfl⟩, _⟩ := hh
    have : op = .put ([2, 99].map (fun r => (r, 1))) := hop
    subst this
    revert hfull
    simp only [Full]
    decide +kernel
  · obtain ⟨rfl, rfl, ⟨rfl, rfl⟩, _⟩ := hh; revert hm; decide +kernel

end Tonbo.Props.C71
