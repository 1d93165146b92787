import Verif.Lemmas.WalQueue

/-!
# What the queue of the log keeps, from any start

`Rules`: what the steps of the writer do to a property `G` of a living writer with the frames promised so far, and to a
property `D` of one whose task ended by an error. `keeps`: every run keeps them.
-/

namespace Tonbo.Lemmas.WalRules
open Tonbo.Model
open Tonbo.Model.WalW hiding Op run step
open Tonbo.Model.WalQ Tonbo.Spec.WalQ Tonbo.Lemmas.WalQ Tonbo.Lemmas.WalW

variable {F : Type}

structure Rules (cfg : Cfg) (size : F → Nat) (C : Cmd F → Prop) (G : W F → List F → Prop) (D : W F → List F → List F → Prop) : Prop where
  tick : ∀ {w fs} r y, G w fs → (tick cfg w r y).dead = false ∧ G (tick cfg w r y) fs
  rotate : ∀ {w fs}, G w fs → (rotationRequest cfg w).dead = false ∧ G (rotationRequest cfg w) fs
  finish : ∀ {w fs}, G w fs → G (finishSeg cfg w) fs
  drain : ∀ {w fs}, G w fs → G { w with active := w.active.flush } fs
  writeback : ∀ {w fs}, G w fs → G { w with active := w.active.fsync } fs
  drain' : ∀ {w fs more}, D w fs more → D { w with active := w.active.flush } fs more
  writeback' : ∀ {w fs more}, D w fs more → D { w with active := w.active.fsync } fs more
  dead : ∀ {w fs more}, D w fs more → D { w with dead := true } fs more
  fail : ∀ {w fs}, G w fs → D w fs []
  enqueue : ∀ {w fs} (cs : List (Cmd F)), G w fs → (∀ c ∈ cs, C c) →
    ∃ w' as, enqueueAll cfg size w cs = (w', some as) ∧ G w' (fs ++ cs.flatMap (·.frames))
  partly : ∀ {w fs} (cs : List (Cmd F)) n k, G w fs → (∀ c ∈ cs, C c) →
    ∃ more, more <+: cs.flatMap (·.frames) ∧ D (partly cfg size w cs n k) fs more

/-- The state of the log after the answers `ans`. -/
def Stands (ask : List (Msg F)) (G : W F → List F → Prop) (D : W F → List F → List F → Prop) (w : W F) (over : Option Bool)
    (ans : List (Nat × Ans)) : Prop :=
  (over ≠ some false ∧ inDoubt ask ans = [] ∧ G w (promised ask ans)) ∨
    (over = some false ∧ ∃ more, more <+: inDoubt ask ans ∧ D w (promised ask ans) more)

/-- The requests in the channel are those of the calls. -/
def Waits (ask : List (Msg F)) (l : List (Nat × Msg F)) : Prop := ∀ p ∈ l, ask[p.1]? = some p.2

structure Kept (ask : List (Msg F)) (G : W F → List F → Prop) (D : W F → List F → List F → Prop) (q : Q F) : Prop where
  waits : Waits ask q.queue
  stands : Stands ask G D q.w q.over q.answers

theorem acks_promised {ask : List (Msg F)} : ∀ (cs : List (Nat × Cmd F)) (as : List (Nat × Nat)), as.length = cs.length →
    (∀ p ∈ cs, ask[p.1]? = some (.cmd p.2)) →
    promised ask (acks (cs.map (·.1)) as) = (cs.map (·.2)).flatMap (·.frames)
  | [], _, _, _ => rfl
  | _ :: _, [], h, _ => by cases h
  | c :: cs, a :: as, h, hc => by
    have ih := acks_promised cs as (by simpa using h) (fun p hp => hc p (List.mem_cons_of_mem _ hp))
    have e : promised ask (acks ((c :: cs).map (·.1)) (a :: as)) =
        promised ask [(c.1, .written a.1 a.2)] ++ promised ask (acks (cs.map (·.1)) as) := by
      rw [← promised_append]
      rfl
    rw [e, ih]
    simp [promised, hc c (by simp), framesOf]

theorem acks_doubt {ask : List (Msg F)} (ids : List Nat) (as : List (Nat × Nat)) : inDoubt ask (acks ids as) = [] :=
  inDoubt_none (fun p hp => by
    obtain ⟨a, b, e⟩ := acks_written ids as p hp
    rw [e]
    intro h
    cases h)

theorem doubt_dropped {ask : List (Msg F)} (ids : List Nat) : inDoubt ask (ids.map (·, .dropped)) = [] :=
  inDoubt_none (fun p hp => by
    obtain ⟨i, _, rfl⟩ := List.mem_map.1 hp
    intro h
    cases h)

theorem promised_failed {ask : List (Msg F)} (ids ids' : List Nat) :
    promised ask (ids.map (·, .failed) ++ ids'.map (·, .dropped)) = [] :=
  promised_none (fun p hp a b => by
    rcases List.mem_append.1 hp with hp | hp <;> (obtain ⟨i, _, rfl⟩ := List.mem_map.1 hp; intro h; cases h))

variable {cfg : Cfg} {size : F → Nat} {C : Cmd F → Prop} {G : W F → List F → Prop} {D : W F → List F → List F → Prop}
variable {ask : List (Msg F)}

/-- The task ends by an error. -/
theorem kept_fail (R : Rules cfg size C G D) {q : Q F} {w : W F} {ids ids' : List Nat} {more : List F}
    (hd : inDoubt ask q.answers = []) (hm : more <+: inDoubt ask (ids.map (·, .failed)))
    (h : D w (promised ask q.answers) more) : Kept ask G D (fail q w ids ids') := by
  refine ⟨(fun p hp => by cases hp), .inr ⟨rfl, more, ?_, ?_⟩⟩
  · simp only [fail]
    rw [inDoubt_append, inDoubt_append, hd, doubt_dropped]
    simpa using hm
  · simp only [fail]
    rw [List.append_assoc, promised_append, promised_failed, List.append_nil]
    exact R.dead h

theorem kept_done {q : Q F} {w : W F} {rest : List (Nat × Msg F)} (i : Nat) (hw : Waits ask rest) (h0 : q.over = none)
    (hd : inDoubt ask q.answers = []) (h : G w (promised ask q.answers)) :
    Kept ask G D { q with w := w, queue := rest, answers := q.answers ++ [(i, .done)] } := by
  refine ⟨hw, .inl ⟨by simp [h0], ?_, ?_⟩⟩
  · simp only
    rw [inDoubt_append, hd]
    rfl
  · simp only
    rw [promised_append]
    simpa [promised] using h

theorem kept_other (R : Rules cfg size C G D) {q : Q F} (h0 : q.over = none) (fault : Bool) (i : Nat)
    {rest : List (Nat × Msg F)} {m : Msg F} (hm : ∀ c, m ≠ .cmd c) (hw : Waits ask rest)
    (hd : inDoubt ask q.answers = []) (h : G q.w (promised ask q.answers)) :
    Kept ask G D (other cfg q fault i rest m) := by
  cases m with
  | cmd c => exact absurd rfl (hm c)
  | snapshot =>
    simp only [other]
    exact kept_done (w := q.w) i hw h0 hd h
  | rotate =>
    simp only [other]
    obtain ⟨h1, h2⟩ := R.rotate h
    rw [h1, Bool.or_false]
    cases fault with
    | true => exact kept_fail R hd List.nil_prefix (R.fail h)
    | false => exact kept_done i hw h0 hd h2

theorem kept_batch (R : Rules cfg size C G D) (hC : ∀ c, Msg.cmd c ∈ ask → C c) {q : Q F} (h0 : q.over = none) (fault : Option (Nat × Nat))
    {cs : List (Nat × Cmd F)} {deferred : Option (Nat × Msg F)} {rest : List (Nat × Msg F)}
    (hdef : ∀ p ∈ deferred, ∀ c, p.2 ≠ .cmd c)
    (hcs : ∀ p ∈ cs, ask[p.1]? = some (.cmd p.2)) (hw : Waits ask rest)
    (hd : inDoubt ask q.answers = []) (h : G q.w (promised ask q.answers)) :
    Kept ask G D (batch cfg size q fault cs deferred rest) := by
  have hc : ∀ c ∈ cs.map (·.2), C c := by
    intro c hc
    obtain ⟨p, hp, rfl⟩ := List.mem_map.1 hc
    exact hC _ (List.mem_of_getElem? (hcs p hp))
  have hfine : ∀ fault, Kept ask G D (handled cfg size q fault cs deferred rest) := by
    intro fault
    obtain ⟨w', as, h1, h2⟩ := R.enqueue (cs.map (·.2)) h hc
    have hl : as.length = cs.length := by
      simpa using enqueueAll_length (cfg := cfg) (size := size) (cs := cs.map (·.2)) (s := q.w) (as := as) (by rw [h1])
    have hp := acks_promised cs as hl hcs
    have hd' : inDoubt ask (q.answers ++ acks (cs.map (·.1)) as) = [] := by rw [inDoubt_append, hd, acks_doubt]; rfl
    have hp' : promised ask (q.answers ++ acks (cs.map (·.1)) as) =
        promised ask q.answers ++ (cs.map (·.2)).flatMap (·.frames) := by rw [promised_append, hp]
    unfold handled
    rw [h1]
    cases deferred with
    | none => exact ⟨hw, .inl ⟨by simp [h0], hd', by simp only; rw [hp']; exact h2⟩⟩
    | some d =>
      obtain ⟨i, m⟩ := d
      simp only
      exact kept_other R (q := { q with w := w', answers := q.answers ++ acks (cs.map (·.1)) as }) h0 fault i
        (hdef _ rfl) hw hd' (by simp only; rw [hp']; exact h2)
  unfold batch
  cases fault with
  | none => exact hfine false
  | some nk =>
    obtain ⟨n, k⟩ := nk
    simp only
    split_ifs with hn
    · obtain ⟨more, h1, h2⟩ := R.partly (cs.map (·.2)) n k h hc
      refine kept_fail R hd ?_ h2
      have := inDoubt_failed (ask := ask) cs hcs
      rw [show (cs.map (·.1)).map (fun i => (i, Ans.failed)) = cs.map (fun p => (p.1, .failed)) by simp, this]
      exact h1
    · exact hfine true

theorem kept_turn (R : Rules cfg size C G D) (hC : ∀ c, Msg.cmd c ∈ ask → C c) {q : Q F} (h : Kept ask G D q) (limit : Nat)
    (fault : Option (Nat × Nat)) : Kept ask G D (turn cfg size q limit fault) := by
  unfold turn
  by_cases ho : q.over.isSome = true
  · rw [if_pos ho]; exact h
  · rw [if_neg ho]
    have h0 : q.over = none := by simpa using ho
    rcases h.stands with ⟨_, hd, hg⟩ | ⟨h1, _⟩
    · cases hq : q.queue with
      | nil =>
        simp only
        split_ifs with hcl
        · unfold finish
          cases fault with
          | some _ => exact ⟨h.waits, .inr ⟨rfl, [], List.nil_prefix, R.dead (R.fail hg)⟩⟩
          | none => exact ⟨h.waits, .inl ⟨by simp, hd, R.finish hg⟩⟩
        · exact h
      | cons p rest =>
        obtain ⟨i, m⟩ := p
        have hw : Waits ask ((i, m) :: rest) := by rw [← hq]; exact h.waits
        cases m with
        | cmd c =>
          simp only
          have hgq := gather_queue limit 1 rest
          refine kept_batch R hC h0 fault (gather_deferred limit 1 rest) ?_ ?_ hd hg
          · intro p hp
            rcases List.mem_cons.1 hp with rfl | hp
            · exact hw (i, .cmd c) (by simp)
            · refine hw (p.1, .cmd p.2) (List.mem_cons_of_mem _ ?_)
              rw [hgq]
              exact List.mem_append_left _ (List.mem_append_left _ (List.mem_map.2 ⟨p, hp, rfl⟩))
          · intro p hp
            refine hw p (List.mem_cons_of_mem _ ?_)
            rw [hgq]
            exact List.mem_append_right _ hp
        | rotate => exact kept_other R h0 _ i (fun c => by simp) (fun p hp => hw p (List.mem_cons_of_mem _ hp)) hd hg
        | snapshot => exact kept_other R h0 _ i (fun c => by simp) (fun p hp => hw p (List.mem_cons_of_mem _ hp)) hd hg
    · rw [h0] at h1
      cases h1

theorem kept_timer (R : Rules cfg size C G D) {q : Q F} (h : Kept ask G D q) (r y fault : Bool) :
    Kept ask G D (timer cfg q r y fault) := by
  unfold timer
  by_cases ho : q.over.isSome = true
  · rw [if_pos ho]; exact h
  · rw [if_neg ho]
    rcases h.stands with ⟨h1, hd, hg⟩ | ⟨h1, _⟩
    · obtain ⟨h2, h3⟩ := R.tick r y hg
      rw [h2, Bool.or_false]
      cases fault with
      | true => exact kept_fail R hd List.nil_prefix (R.fail hg)
      | false => exact ⟨h.waits, .inl ⟨h1, hd, h3⟩⟩
    · simp [h1] at ho

theorem kept_submit {q : Q F} (h : Kept ask G D q) {m : Msg F} (hm : ask[q.calls]? = some m) : Kept ask G D (submit q m) := by
  unfold submit
  split_ifs
  · refine ⟨h.waits, ?_⟩
    have e1 : inDoubt ask (q.answers ++ [(q.calls, .refused)]) = inDoubt ask q.answers := by
      rw [inDoubt_append]; simp [inDoubt]
    have e2 : promised ask (q.answers ++ [(q.calls, .refused)]) = promised ask q.answers := by
      rw [promised_append]; simp [promised]
    unfold Stands
    simp only
    rw [e1, e2]
    exact h.stands
  · refine ⟨?_, h.stands⟩
    intro p hp
    rcases List.mem_append.1 hp with hp | hp
    · exact h.waits p hp
    · rw [List.mem_singleton] at hp
      subst hp
      exact hm

theorem kept_step (R : Rules cfg size C G D) (hC : ∀ c, Msg.cmd c ∈ ask → C c) {q : Q F} (h : Kept ask G D q) (o : Op F)
    (hm : ∀ m, o = .submit m → ask[q.calls]? = some m) : Kept ask G D (step cfg size q o) := by
  cases o with
  | submit m => exact kept_submit h (hm m rfl)
  | close => exact ⟨h.waits, h.stands⟩
  | shutdown => exact ⟨h.waits, h.stands⟩
  | turn l f => exact kept_turn R hC h l f
  | timer r y f => exact kept_timer R h r y f
  | drain =>
    refine ⟨h.waits, ?_⟩
    rcases h.stands with ⟨a, b, c⟩ | ⟨a, more, b, c⟩
    · exact .inl ⟨a, b, R.drain c⟩
    · exact .inr ⟨a, more, b, R.drain' c⟩
  | writeback =>
    refine ⟨h.waits, ?_⟩
    rcases h.stands with ⟨a, b, c⟩ | ⟨a, more, b, c⟩
    · exact .inl ⟨a, b, R.writeback c⟩
    · exact .inr ⟨a, more, b, R.writeback' c⟩

theorem kept_run (R : Rules cfg size C G D) (hC : ∀ c, Msg.cmd c ∈ ask → C c) : ∀ (os : List (Op F)) (q : Q F) (pre : List (Msg F)),
    ask = pre ++ asked os → q.calls = pre.length → Kept ask G D q → Kept ask G D (run cfg size q os)
  | [], _, _, _, _, h => h
  | o :: os, q, pre, hp, hc, h => by
    have e : asked (o :: os) = asked [o] ++ asked os := asked_append [o] os
    refine kept_run R hC os (step cfg size q o) (pre ++ asked [o]) ?_ ?_ (kept_step R hC h o ?_)
    · rw [hp, e, List.append_assoc]
    · rw [step_calls, hc, List.length_append]
    · rintro m rfl
      rw [hp, hc]
      simp [asked]

/-- Every run from a writer that satisfies `G` with nothing promised keeps the rules. -/
theorem keeps (R : Rules cfg size C G D) {w : W F} (hg : G w []) (os : List (Op F)) (hC : ∀ c, Msg.cmd c ∈ asked os → C c) :
    Stands (asked os) G D (run cfg size { Q.new with w := w } os).w (run cfg size { Q.new with w := w } os).over
      (run cfg size { Q.new with w := w } os).answers :=
  (kept_run R hC os { Q.new with w := w } [] rfl rfl
    ⟨(fun p hp => by cases hp), .inl ⟨by simp [Q.new], rfl, hg⟩⟩).stands

end Tonbo.Lemmas.WalRules
