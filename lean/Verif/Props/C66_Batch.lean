import Verif.Lemmas.WalQueue

/-!
# C66, how many calls a failure of the storage reaches

Commands that are handled together are answered together, so one failure is reported to all of them.
-/

namespace Tonbo.Props.C66
open Tonbo.Model
open Tonbo.Model.WalW hiding Op run step
open Tonbo.Model.WalQ

variable {F : Type}

/-- The turns of a history take no more than so many commands at once. -/
def TurnsOf (limit : Nat) (os : List (WalQ.Op F)) : Prop := ∀ l f, WalQ.Op.turn l f ∈ os → l ≤ limit

/-- The number of calls that were told of a failure. -/
def told (as : List (Nat × Ans)) : Nat := as.countP (fun p => decide (p.2 = .failed))

theorem gather_bound {limit l : Nat} (hl : l ≤ limit) : ∀ (q : List (Nat × Msg F)) (n : Nat), n < limit →
    n + (gather l n q).1.length ≤ limit
  | [], n, h => by simp [gather]; omega
  | (i, .cmd c) :: q, n, h => by
    rw [gather]
    split
    · simp; omega
    · have := gather_bound hl q (n + 1) (by omega)
      simp only [List.length_cons]
      omega
  | (i, .rotate) :: q, n, h => by simp [gather]; omega
  | (i, .snapshot) :: q, n, h => by simp [gather]; omega

theorem told_append (a b : List (Nat × Ans)) : told (a ++ b) = told a + told b := by
  unfold told
  exact List.countP_append

theorem told_failed (l : List Nat) : told (l.map (·, Ans.failed)) = l.length := by
  induction l with
  | nil => rfl
  | cons a l ih => simp [told] at ih ⊢

theorem told_dropped (l : List Nat) : told (l.map (·, Ans.dropped)) = 0 := by
  unfold told
  rw [List.countP_eq_zero]
  intro p hp
  obtain ⟨i, _, rfl⟩ := List.mem_map.1 hp
  simp

theorem told_acks (ids : List Nat) (as : List (Nat × Nat)) : told (acks ids as) = 0 := by
  induction ids generalizing as with
  | nil => rfl
  | cons i ids ih =>
    cases as with
    | nil => rfl
    | cons a as => simpa [told, acks] using ih as

/-- While the task lives nobody was told of a failure, and at the end at most a batch. -/
def Few (limit : Nat) (q : Q F) : Prop := (q.over = none → told q.answers = 0) ∧ told q.answers ≤ limit

theorem few_fail {limit : Nat} {q : Q F} (h0 : told q.answers = 0) (w : W F) (failed dropped : List Nat)
    (hf : failed.length ≤ limit) : Few limit (WalQ.fail q w failed dropped) := by
  refine ⟨fun e => (by cases e), ?_⟩
  show told (q.answers ++ failed.map (·, .failed) ++ dropped.map (·, .dropped)) ≤ limit
  rw [told_append, told_append, h0, told_failed, told_dropped]
  omega

theorem few_other {limit : Nat} (h1 : 1 ≤ limit) (cfg : Cfg) {q : Q F} (h0 : told q.answers = 0) (fault : Bool) (i : Nat)
    (rest : List (Nat × Msg F)) (m : Msg F) : Few limit (other cfg q fault i rest m) := by
  have hz : Few limit q := ⟨fun _ => h0, by omega⟩
  have hd : told (q.answers ++ [(i, .done)]) = 0 := by
    rw [told_append, h0]
    rfl
  cases m with
  | cmd c => exact hz
  | snapshot => exact ⟨fun _ => hd, by show told (q.answers ++ [(i, .done)]) ≤ limit; omega⟩
  | rotate =>
    unfold other
    dsimp only
    split
    · exact few_fail h0 _ _ _ h1
    · exact ⟨fun _ => hd, by show told (q.answers ++ [(i, .done)]) ≤ limit; omega⟩

theorem few_handled {limit : Nat} (h1 : 1 ≤ limit) (cfg : Cfg) (size : F → Nat) {q : Q F} (h0 : told q.answers = 0)
    (fault : Bool) (cs : List (Nat × Cmd F)) (hc : cs.length ≤ limit) (deferred : Option (Nat × Msg F))
    (rest : List (Nat × Msg F)) : Few limit (handled cfg size q fault cs deferred rest) := by
  unfold handled
  split
  · exact few_fail h0 _ _ _ (by simpa using hc)
  · rename_i w as e
    have ha : told (q.answers ++ acks (cs.map (·.1)) as) = 0 := by rw [told_append, h0, told_acks]
    split
    · exact ⟨fun _ => ha, by show told (q.answers ++ acks (cs.map (·.1)) as) ≤ limit; omega⟩
    · exact few_other h1 cfg (q := { q with w := w, answers := q.answers ++ acks (cs.map (·.1)) as }) ha fault _ rest _

theorem few_step {limit : Nat} (h2 : 2 ≤ limit) (cfg : Cfg) (size : F → Nat) {q : Q F} (h : Few limit q) (o : WalQ.Op F)
    (ho : ∀ l f, o = .turn l f → l ≤ limit) : Few limit (WalQ.step cfg size q o) := by
  cases o with
  | submit m =>
    show Few limit (submit q m)
    unfold submit
    split
    · have : told (q.answers ++ [(q.calls, .refused)]) = told q.answers := by
        rw [told_append]
        rfl
      exact ⟨fun e => this.trans (h.1 e), this.trans_le h.2⟩
    · exact h
  | close => exact h
  | turn l f =>
    have hl := ho l f rfl
    show Few limit (turn cfg size q l f)
    unfold turn
    split
    · exact h
    · rename_i hov
      have h0 : told q.answers = 0 := h.1 (by simpa using hov)
      split
      · split
        · unfold finish
          split
          · exact ⟨fun e => (by cases e), h.2⟩
          · exact ⟨fun e => (by cases e), h.2⟩
        · exact h
      · rename_i i c rest _
        have hc : ((i, c) :: (gather l 1 rest).1).length ≤ limit := by
          have := gather_bound hl rest 1 (by omega)
          simp only [List.length_cons]
          omega
        unfold batch
        split
        · split
          · exact few_fail h0 _ _ _ (by simpa using hc)
          · exact few_handled (by omega) cfg size h0 true _ hc _ _
        · exact few_handled (by omega) cfg size h0 false _ hc _ _
      · exact few_other (by omega) cfg h0 _ _ _ _
  | timer r y f =>
    show Few limit (timer cfg q r y f)
    unfold timer
    split
    · exact h
    · rename_i hov
      have h0 : told q.answers = 0 := h.1 (by simpa using hov)
      split
      · exact few_fail h0 _ _ _ (Nat.zero_le _)
      · exact h
  | drain => exact h
  | writeback => exact h
  | shutdown => exact h

/-- **C66, the reach of a failure.** In every history of the writer task whose turns take at most `limit` commands at once
(64 in the code), at most `limit` calls are ever told that their write failed, and none while the task lives. All others were
written, refused, dropped, or still wait. -/
theorem a_failure_reaches_one_batch (limit : Nat) (h2 : 2 ≤ limit) (cfg : Cfg) (size : F → Nat) (os : List (WalQ.Op F))
    (hl : TurnsOf limit os) :
    (((WalQ.run cfg size Q.new os).over = none → told (WalQ.run cfg size Q.new os).answers = 0) ∧
      told (WalQ.run cfg size Q.new os).answers ≤ limit) := by
  have key : ∀ (os : List (WalQ.Op F)) (q : Q F), Few limit q → TurnsOf limit os → Few limit (WalQ.run cfg size q os) := by
    intro os
    induction os with
    | nil => intro q h _; exact h
    | cons o os ih =>
      intro q h hl
      exact ih _ (few_step h2 cfg size h o (fun l f e => hl l f (e ▸ List.mem_cons_self ..)))
        (fun l f hm => hl l f (List.mem_cons_of_mem _ hm))
  exact key os Q.new ⟨fun _ => rfl, Nat.zero_le _⟩ hl

/-- A command. -/
def reachCmd : Msg Nat := .cmd ⟨[7], none, true⟩

/-- **The bound is reached**: five calls, batches of three, and a failure. Three calls are told of it, two are dropped. -/
example : TurnsOf 3 ([.submit reachCmd, .submit reachCmd, .submit reachCmd, .submit reachCmd, .submit reachCmd,
      .turn 3 (some (0, 0))] : List (WalQ.Op Nat)) ∧
    (WalQ.run ⟨0, true, .always, none, true⟩ (fun _ => 1) Q.new [.submit reachCmd, .submit reachCmd, .submit reachCmd,
      .submit reachCmd, .submit reachCmd, .turn 3 (some (0, 0))]).answers =
      [(0, .failed), (1, .failed), (2, .failed), (3, .dropped), (4, .dropped)] := by
  refine ⟨fun l f h => ?_, by decide +kernel⟩
  simp at h
  omega

end Tonbo.Props.C66
