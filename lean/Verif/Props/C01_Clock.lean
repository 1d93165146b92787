import Verif.Model.Clock

/-! # C01: commit timestamps are unique and only move forward -/

namespace Tonbo.Props.C01
open Tonbo.Model.Clock

/-- How a later observation relates to an earlier one. -/
def LaterOk : Ev → Ev → Prop
  | .alloc t, .alloc u => u < t
  | .alloc t, .advanced c => c ≤ t
  | .advanced _, _ => True

/-- Everything the log promises is below `next`, and every in-progress call has loaded a value not
above `next`. -/
private structure Inv (start : Nat) (s : St) : Prop where
  start_le : start ≤ s.next
  above : ∀ e ∈ s.log, match e with
    | .alloc t => start ≤ t ∧ t < s.next
    | .advanced c => c ≤ s.next
  cur_le : ∀ i a, s.thr i = some a → a.current ≤ s.next
  order : s.log.Pairwise LaterOk

private theorem setThr_some {f i v j a} (h : setThr f i v j = some a) :
    (j = i ∧ v = some a) ∨ f j = some a := by
  unfold setThr at h
  split at h
  · exact .inl ⟨by assumption, h⟩
  · exact .inr h

private theorem inv_step {start s} (h : Inv start s) (a : Act) : Inv start (step s a) := by
  cases a with
  | alloc =>
    refine ⟨by have := h.start_le; simp only [step]; omega, ?_, ?_, ?_⟩
    · intro e he
      simp only [step, List.mem_cons] at he
      rcases he with rfl | he
      · exact ⟨h.start_le, by simp [step]⟩
      · have := h.above e he
        cases e <;> simp only [step] at * <;> omega
    · intro i a ha
      have := h.cur_le i a ha
      simp only [step]; omega
    · simp only [step, List.pairwise_cons]
      refine ⟨?_, h.order⟩
      intro e he
      have := h.above e he
      cases e <;> simp only [LaterOk] at * <;> omega
  | call i c =>
    simp only [step]
    split
    · refine ⟨h.start_le, h.above, ?_, h.order⟩
      intro j a ha
      rcases setThr_some ha with ⟨_, h1⟩ | h1
      · cases h1; exact Nat.le_refl _
      · exact h.cur_le j a h1
    · exact h
  | loop i =>
    simp only [step]
    split
    · exact h
    · rename_i a ha
      have hc := h.cur_le i a ha
      split
      · split
        · rename_i hlt heq
          refine ⟨by have := h.start_le; simp only; omega, ?_, ?_, ?_⟩
          · intro e he
            simp only [List.mem_cons] at he
            rcases he with rfl | he
            · exact Nat.le_refl _
            · have := h.above e he
              cases e <;> simp only at * <;> omega
          · intro j b hb
            rcases setThr_some hb with ⟨_, h1⟩ | h1
            · cases h1
            · have := h.cur_le j b h1
              simp only; omega
          · simp only [List.pairwise_cons]
            exact ⟨fun e _ => trivial, h.order⟩
        · refine ⟨h.start_le, h.above, ?_, h.order⟩
          intro j b hb
          rcases setThr_some hb with ⟨_, h1⟩ | h1
          · cases h1; exact Nat.le_refl _
          · exact h.cur_le j b h1
      · rename_i hge
        refine ⟨h.start_le, ?_, ?_, ?_⟩
        · intro e he
          simp only [List.mem_cons] at he
          rcases he with rfl | he
          · simp only; omega
          · exact h.above e he
        · intro j b hb
          rcases setThr_some hb with ⟨_, h1⟩ | h1
          · cases h1
          · exact h.cur_le j b h1
        · simp only [List.pairwise_cons]
          exact ⟨fun e _ => trivial, h.order⟩

private theorem inv_run {start s} (h : Inv start s) (as : List Act) : Inv start (run s as) := by
  induction as generalizing s with
  | nil => exact h
  | cons a as ih => exact ih (inv_step h a)

private theorem inv_init (start : Nat) : Inv start (init start) :=
  ⟨Nat.le_refl _, by intro e he; simp [init] at he, by intro i a ha; simp [init] at ha,
   by simp [init]⟩

/-- For every start value and every schedule of any number of threads: each allocated timestamp is
larger than every previously allocated one and at least as large as every value the clock had
already been advanced to. -/
theorem commit_ts_strictly_increase (start : Nat) (as : List Act) :
    (run (init start) as).log.Pairwise LaterOk :=
  (inv_run (inv_init start) as).order

/-- The timestamps handed out, oldest first. -/
def allocated (s : St) : List Nat :=
  s.log.reverse.filterMap fun | .alloc t => some t | .advanced _ => none

/-- No timestamp is handed out twice. -/
theorem commit_ts_unique (start : Nat) (as : List Act) :
    (allocated (run (init start) as)).Nodup := by
  have h := commit_ts_strictly_increase start as
  have h2 : (allocated (run (init start) as)).Pairwise (· < ·) := by
    unfold allocated
    rw [List.pairwise_filterMap]
    rw [List.pairwise_reverse]
    refine h.imp ?_
    intro a b hab x hx y hy
    cases a <;> cases b <;> simp_all [LaterOk]
  exact h2.imp (fun h => Nat.ne_of_lt h)

/-- Every timestamp handed out so far is below what the next allocation will return, so a later
allocation is larger than all earlier ones. -/
theorem next_above_allocated (start : Nat) (as : List Act) :
    ∀ t ∈ allocated (run (init start) as), start ≤ t ∧ t < peek (run (init start) as) := by
  intro t ht
  unfold allocated at ht
  rw [List.mem_filterMap] at ht
  obtain ⟨e, he, h⟩ := ht
  cases e with
  | alloc u =>
    simp only [Option.some.injEq] at h
    subst h
    exact (inv_run (inv_init start) as).above _ (by simpa using he)
  | advanced c => simp at h

/-- When a call `advance_to_at_least(c)` has returned, the next timestamp is at least `c`. -/
theorem advance_effective (start : Nat) (as : List Act) (c : Nat)
    (h : Ev.advanced c ∈ (run (init start) as).log) : c ≤ peek (run (init start) as) :=
  (inv_run (inv_init start) as).above _ h

/-- The clock never moves backwards. -/
theorem clock_monotone (start : Nat) (as bs : List Act) :
    peek (run (init start) as) ≤ peek (run (init start) (as ++ bs)) := by
  have h := inv_run (inv_init start) as
  unfold run at *
  rw [List.foldl_append]
  generalize List.foldl step (init start) as = s at h
  have key : ∀ (bs : List Act) (s : St), (∀ i a, s.thr i = some a → a.current ≤ s.next) →
      s.next ≤ (List.foldl step s bs).next := by
    intro bs
    induction bs with
    | nil => intro s _; exact Nat.le_refl _
    | cons b bs ih =>
      intro s hs
      have h1 : Inv 0 { s with log := [] } := ⟨Nat.zero_le _, by simp, hs, by simp⟩
      have h2 := (inv_step h1 b).cur_le
      have e1 : (step s b).next = (step { s with log := [] } b).next ∧
          (step s b).thr = (step { s with log := [] } b).thr := by
        cases b <;> simp only [step] <;> (try split) <;> (try split) <;> (try split) <;> simp
      have h3 : ∀ i a, (step s b).thr i = some a → a.current ≤ (step s b).next := by
        intro i a ha
        rw [e1.2] at ha; rw [e1.1]; exact h2 i a ha
      refine Nat.le_trans ?_ (ih (step s b) h3)
      cases b with
      | alloc => simp [step]
      | call i c => simp only [step]; split <;> simp
      | loop i =>
        simp only [step]
        split
        · simp
        · split
          · split
            · rename_i hlt heq; simp only; omega
            · simp
          · simp
  exact key bs s h.cur_le

private theorem log_grows : ∀ (bs : List Act) (s : St), (∀ i a, s.thr i = some a → a.current ≤ s.next) →
    ∃ new, (run s bs).log = new ++ s.log ∧ ∀ t, Ev.alloc t ∈ new → s.next ≤ t
  | [], s, _ => ⟨[], rfl, by simp⟩
  | b :: bs, s, hs => by
    have h1 : Inv 0 { s with log := [] } := ⟨Nat.zero_le _, by simp, hs, by simp⟩
    have h2 := (inv_step h1 b).cur_le
    have e1 : (step s b).next = (step { s with log := [] } b).next ∧
        (step s b).thr = (step { s with log := [] } b).thr := by
      cases b <;> simp only [step] <;> (try split) <;> (try split) <;> (try split) <;> simp
    obtain ⟨new, n1, n2⟩ := log_grows bs (step s b) (by
      intro i a ha
      rw [e1.2] at ha; rw [e1.1]; exact h2 i a ha)
    have hb : ∃ one, (step s b).log = one ++ s.log ∧ s.next ≤ (step s b).next ∧ ∀ t, Ev.alloc t ∈ one → s.next ≤ t := by
      cases b with
      | alloc => exact ⟨[.alloc s.next], rfl, by simp [step], by simp⟩
      | call i c =>
        refine ⟨[], ?_, ?_, by simp⟩ <;> simp only [step] <;> split <;> simp
      | loop i =>
        cases hi : s.thr i with
        | none => exact ⟨[], by simp [step, hi], by simp [step, hi], by simp⟩
        | some a =>
          have hle := hs i a hi
          by_cases hlt : a.current < a.cand
          · by_cases heq : s.next = a.current
            · exact ⟨[.advanced a.cand], by simp [step, hi, hlt, heq], by simp [step, hi, hlt, heq]; omega, by simp⟩
            · exact ⟨[], by simp [step, hi, hlt, heq], by simp [step, hi, hlt, heq], by simp⟩
          · exact ⟨[.advanced a.cand], by simp [step, hi, hlt], by simp [step, hi, hlt], by simp⟩
    obtain ⟨one, o1, o2, o3⟩ := hb
    refine ⟨new ++ one, ?_, ?_⟩
    · change (run (step s b) bs).log = _
      rw [n1, o1, List.append_assoc]
    · intro t ht
      rcases List.mem_append.1 ht with ht | ht
      · exact Nat.le_trans o2 (n2 t ht)
      · exact o3 t ht

/-- A snapshot taken at any moment divides the timestamps: those handed out before it are not above its read
timestamp, and those handed out after it, in whatever schedule, are above it. (Of a clock that stands at 0 the read
timestamp is 0, as is the next timestamp.) -/
theorem a_snapshot_divides_the_timestamps (start : Nat) (as bs : List Act) (h0 : 0 < peek (run (init start) as)) :
    ∃ later, allocated (run (init start) (as ++ bs)) = allocated (run (init start) as) ++ later ∧
      (∀ t ∈ allocated (run (init start) as), t ≤ snapshotTs (run (init start) as)) ∧
      ∀ t ∈ later, snapshotTs (run (init start) as) < t := by
  obtain ⟨new, n1, n2⟩ := log_grows bs (run (init start) as) (inv_run (inv_init start) as).cur_le
  have happ : run (init start) (as ++ bs) = run (run (init start) as) bs := by
    unfold run
    exact List.foldl_append
  refine ⟨new.reverse.filterMap fun | .alloc t => some t | .advanced _ => none, ?_, ?_, ?_⟩
  · rw [happ]
    unfold allocated
    rw [n1, List.reverse_append, List.filterMap_append]
  · intro t ht
    have := (next_above_allocated start as t ht).2
    unfold peek at this
    unfold snapshotTs
    omega
  · intro t ht
    obtain ⟨e, he, h⟩ := List.mem_filterMap.1 ht
    cases e with
    | alloc u =>
      simp only [Option.some.injEq] at h
      subst h
      have := n2 u (List.mem_reverse.1 he)
      unfold peek at h0
      unfold snapshotTs
      omega
    | advanced c => cases h

/-- A snapshot in between. A clock that stands at 0 is different: the first write has the timestamp of the snapshot. -/
example : snapshotTs (run (init 0) [.call 1 5, .alloc, .alloc]) = 1 ∧
    allocated (run (init 0) ([.call 1 5, .alloc, .alloc] ++ [.loop 1, .alloc, .loop 1, .loop 1, .alloc])) = [0, 1, 2, 5] ∧
    snapshotTs (init 0) = 0 ∧ allocated (run (init 0) [.alloc]) = [0] := by decide

/-- Hypotheses are met by a racing schedule: thread 1 wants to advance to 5, loads 0, two
allocations intervene, its CAS fails, retries with the fresh value and succeeds. -/
example :
    (run (init 0) [.call 1 5, .alloc, .alloc, .loop 1, .loop 1, .alloc]).log =
      [.alloc 5, .advanced 5, .alloc 1, .alloc 0] := by decide

end Tonbo.Props.C01
