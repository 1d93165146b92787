import Verif.Spec.CountView
import Verif.Lemmas.WalRules

/-! # Lemmas about the counters of the log -/

namespace Tonbo.Lemmas.WalS
open Tonbo.Model
open Tonbo.Model.WalW hiding Op run step
open Tonbo.Model.WalQ hiding Op run step turn timer
open Tonbo.Model.WalS Tonbo.Spec.WalS
open Tonbo.Spec.WalQ (promised inDoubt framesOf asked)
open Tonbo.Lemmas.WalQ Tonbo.Lemmas.WalRules

variable {F : Type} {cfg : Cfg} {size : F → Nat}

/-! ## The channel is that of the model without counters -/

/-- The step of the channel. -/
def plain : Op F → Option (WalQ.Op F)
  | .arrive => none
  | .send m => some (.submit m)
  | .leave => none
  | .close => some .close
  | .turn l f _ => some (.turn l f)
  | .timer r y f => some (.timer r y f)
  | .drain => some .drain
  | .writeback => some .writeback
  | .shutdown => some .shutdown
  | .report => none

theorem turn_q (s : S F) (l : Nat) (f : Option (Nat × Nat)) (late : Bool) :
    (turn cfg size s l f late).q = WalQ.turn cfg size s.q l f := by
  unfold turn
  by_cases ho : s.q.over.isSome = true
  · rw [if_pos ho, turn_over ho]
  · rw [if_neg ho]
    cases hq : s.q.queue with
    | nil =>
      simp only
      by_cases hc : s.q.closed = true
      · rw [if_pos hc]
      · rw [if_neg hc]
        unfold WalQ.turn
        rw [if_neg ho, hq]
        simp only
        rw [if_neg hc]
    | cons p rest =>
      obtain ⟨i, m⟩ := p
      cases m <;> rfl

theorem timer_q (s : S F) (r y f : Bool) : (timer cfg s r y f).q = WalQ.timer cfg s.q r y f := by
  unfold timer
  by_cases ho : s.q.over.isSome = true
  · rw [if_pos ho, timer_over ho]
  · rw [if_neg ho]

theorem step_q (s : S F) (o : Op F) : (step cfg size s o).q = ((plain o).map (WalQ.step cfg size s.q)).getD s.q := by
  cases o with
  | arrive => rfl
  | send m => cases m <;> rfl
  | leave => rfl
  | close => rfl
  | turn l f late => exact turn_q s l f late
  | timer r y f => exact timer_q s r y f
  | drain => rfl
  | writeback => rfl
  | shutdown => rfl
  | report =>
    simp only [step]
    split_ifs <;> rfl

theorem run_q : ∀ (os : List (Op F)) (s : S F), (run cfg size s os).q = WalQ.run cfg size s.q (os.filterMap plain)
  | [], _ => rfl
  | o :: os, s => by
    rw [run, run_q os, step_q]
    cases h : plain o with
    | none => simp [h]
    | some p => simp [h, WalQ.run]

theorem asked_plain : ∀ os : List (Op F), asked (os.filterMap plain) = sent os
  | [] => rfl
  | o :: os => by
    have ih := asked_plain os
    cases o <;> simp [List.filterMap_cons, plain, sent, asked, ih]

theorem run_append (s : S F) (a b : List (Op F)) : run cfg size s (a ++ b) = run cfg size (run cfg size s a) b := by
  induction a generalizing s with
  | nil => rfl
  | cons o a ih => exact ih _

/-! ## Bytes -/

theorem upTo_sat (a b : Nat) : satAdd (upTo a) b = upTo (a + b) := by
  unfold satAdd upTo
  omega

theorem upTo_mono {a b : Nat} (h : a ≤ b) : upTo a ≤ upTo b := by
  unfold upTo
  omega

theorem wrote_bytes {t : Tally} {P : Nat} (h : t.bytes = upTo P) (n : Nat) : (t.wrote n).bytes = upTo (P + n) := by
  unfold Tally.wrote
  split_ifs with hn
  · simp only
    rw [h, upTo_sat]
  · have : n = 0 := by omega
    rw [this, h]
    rfl

theorem synced_bytes (t : Tally) (b : Bool) : (t.synced b).bytes = t.bytes := by
  unfold Tally.synced
  split_ifs <;> rfl

theorem disk_bytes (t : Tally) (n : Nat) : (t.disk n).bytes = t.bytes := rfl

theorem bytesOf_append (a b : List F) : bytesOf size (a ++ b) = bytesOf size a + bytesOf size b := by
  simp [bytesOf]

theorem batchWrote_bytes : ∀ (cs : List (Cmd F)) (w : W F) (t : Tally) (P : Nat), t.bytes = upTo P →
    ∃ done, done <+: cs ∧ (batchWrote cfg size t w cs).bytes = upTo (P + bytesOf size (done.flatMap (·.frames))) ∧
      ((enqueueAll cfg size w cs).2.isSome = true → done = cs)
  | [], _, _, _, h => ⟨[], List.nil_prefix, by simpa [batchWrote, bytesOf] using h, fun _ => rfl⟩
  | c :: cs, w, t, P, h => by
    unfold batchWrote enqueueAll
    generalize enqueue cfg size w c = r
    obtain ⟨w', a⟩ := r
    cases a with
    | none => exact ⟨[], List.nil_prefix, by simpa [bytesOf] using h, fun h => by simp at h⟩
    | some a =>
      obtain ⟨done, h1, h2, h3⟩ := batchWrote_bytes cs w' _ _ (wrote_bytes h (total size c.frames))
      refine ⟨c :: done, List.cons_prefix_cons.2 ⟨rfl, h1⟩, ?_, ?_⟩
      · simp only
        rw [h2, List.flatMap_cons, bytesOf_append, ← Nat.add_assoc]
        rfl
      · intro hs
        rw [h3 (by simpa using hs)]

theorem otherTally_bytes (t : Tally) (w : W F) (f : Bool) (m : Msg F) : (otherTally cfg t w f m).bytes = t.bytes := by
  cases m with
  | rotate =>
    simp only [otherTally]
    split_ifs
    · rfl
    · rfl
    · rw [disk_bytes, synced_bytes]
  | _ => rfl

theorem finishTally_bytes (t : Tally) (f : Bool) : (finishTally cfg t f).bytes = t.bytes := by
  unfold finishTally
  split_ifs
  · rfl
  · rw [disk_bytes, synced_bytes]

theorem timerTally_bytes (t : Tally) (w : W F) (r y f : Bool) : (timerTally cfg t w r y f).bytes = t.bytes := by
  unfold timerTally
  split_ifs
  · rfl
  · rfl
  · rw [disk_bytes, synced_bytes]

/-- The counter of the bytes against the answers. -/
def Says (size : F → Nat) (ask : List (Msg F)) (over : Option Bool) (ans : List (Nat × Ans)) (bytes : Nat) : Prop :=
  (over ≠ some false ∧ inDoubt ask ans = [] ∧ bytes = upTo (bytesOf size (promised ask ans))) ∨
    (over = some false ∧ upTo (bytesOf size (promised ask ans)) ≤ bytes ∧
      bytes ≤ upTo (bytesOf size (promised ask ans) + bytesOf size (inDoubt ask ans)))

theorem says_fail {ask : List (Msg F)} {q : Q F} {w : W F} {ids ids' : List Nat} {b n : Nat} (hd : inDoubt ask q.answers = [])
    (hb : b = upTo (bytesOf size (promised ask q.answers) + n)) (hn : n ≤ bytesOf size (inDoubt ask (ids.map (·, .failed)))) :
    Says size ask (fail q w ids ids').over (fail q w ids ids').answers b := by
  have e1 : promised ask (fail q w ids ids').answers = promised ask q.answers := by
    simp only [fail]
    rw [List.append_assoc, promised_append, promised_failed, List.append_nil]
  have e2 : inDoubt ask (fail q w ids ids').answers = inDoubt ask (ids.map (·, .failed)) := by
    simp only [fail]
    rw [inDoubt_append, inDoubt_append, hd, doubt_dropped]
    simp
  refine .inr ⟨rfl, ?_, ?_⟩
  · rw [e1, hb]
    exact upTo_mono (by omega)
  · rw [e1, e2, hb]
    exact upTo_mono (by omega)

theorem says_other {ask : List (Msg F)} {q : Q F} {t : Tally} (h0 : q.over = none) (fault : Bool) (i : Nat)
    {rest : List (Nat × Msg F)} {m : Msg F} (hm : ∀ c, m ≠ .cmd c) (hd : inDoubt ask q.answers = [])
    (hb : t.bytes = upTo (bytesOf size (promised ask q.answers))) :
    Says size ask (other cfg q fault i rest m).over (other cfg q fault i rest m).answers (otherTally cfg t q.w fault m).bytes := by
  rw [otherTally_bytes]
  have hdone : ∀ q' : Q F, q'.over = none → q'.answers = q.answers ++ [(i, .done)] → Says size ask q'.over q'.answers t.bytes := by
    intro q' h1 h2
    refine .inl ⟨by simp [h1], ?_, ?_⟩
    · rw [h2, inDoubt_append, hd]
      rfl
    · rw [h2, promised_append, hb]
      simp [promised]
  cases m with
  | cmd c => exact absurd rfl (hm c)
  | snapshot => exact hdone _ h0 rfl
  | rotate =>
    simp only [other]
    split_ifs
    all_goals first
      | exact says_fail hd (n := 0) hb (by omega)
      | exact hdone _ h0 rfl

theorem flatMap_prefix {a b : List (Cmd F)} (h : a <+: b) :
    bytesOf size (a.flatMap (·.frames)) ≤ bytesOf size (b.flatMap (·.frames)) := by
  obtain ⟨c, rfl⟩ := h
  rw [List.flatMap_append, bytesOf_append]
  omega

theorem says_batch {ask : List (Msg F)} {q : Q F} {t : Tally} (h0 : q.over = none) (fault : Option (Nat × Nat)) (late : Bool)
    {cs : List (Nat × Cmd F)} {deferred : Option (Nat × Msg F)} {rest : List (Nat × Msg F)}
    (hdef : ∀ p ∈ deferred, ∀ c, p.2 ≠ .cmd c) (hcs : ∀ p ∈ cs, ask[p.1]? = some (.cmd p.2))
    (hd : inDoubt ask q.answers = []) (hb : t.bytes = upTo (bytesOf size (promised ask q.answers))) :
    Says size ask (batch cfg size q fault cs deferred rest).over (batch cfg size q fault cs deferred rest).answers
      (batchTally cfg size t q.w fault late (cs.map (·.2)) deferred).bytes := by
  have hf : inDoubt ask ((cs.map (·.1)).map (·, Ans.failed)) = (cs.map (·.2)).flatMap (·.frames) := by
    rw [show (cs.map (·.1)).map (fun i => (i, Ans.failed)) = cs.map (fun p => (p.1, .failed)) by simp, inDoubt_failed cs hcs]
  have hfine : ∀ fault, Says size ask (handled cfg size q fault cs deferred rest).over
      (handled cfg size q fault cs deferred rest).answers
      (handledTally cfg size t q.w fault (cs.map (·.2)) deferred).bytes := by
    intro fault
    obtain ⟨done, hp, h1, h2⟩ := batchWrote_bytes (cfg := cfg) (size := size) (cs.map (·.2)) q.w t _ hb
    have hlen := fun as => enqueueAll_length (cfg := cfg) (size := size) (cs := cs.map (·.2)) (s := q.w) (as := as)
    unfold handled handledTally
    generalize enqueueAll cfg size q.w (cs.map (·.2)) = r at *
    obtain ⟨w', o⟩ := r
    cases o with
    | none =>
      simp only
      refine says_fail hd (n := bytesOf size (done.flatMap (·.frames))) (by rw [disk_bytes, h1]) ?_
      rw [hf]
      exact flatMap_prefix hp
    | some as =>
      have hl : as.length = cs.length := by simpa using hlen as rfl
      rw [h2 rfl] at h1
      have hd' : inDoubt ask (q.answers ++ acks (cs.map (·.1)) as) = [] := by rw [inDoubt_append, hd, acks_doubt]; rfl
      have hb' : ((((batchWrote cfg size t q.w (cs.map (·.2))).synced (batchSynced cfg size q.w (cs.map (·.2)))).disk
          (batchFsyncs cfg size q.w (cs.map (·.2)))).bytes) =
          upTo (bytesOf size (promised ask (q.answers ++ acks (cs.map (·.1)) as))) := by
        rw [disk_bytes, synced_bytes, h1, promised_append, acks_promised cs as hl hcs, bytesOf_append]
      simp only
      cases deferred with
      | none => exact .inl ⟨by simp [h0], hd', hb'⟩
      | some d =>
        obtain ⟨i, m⟩ := d
        exact says_other (q := { q with w := w', answers := q.answers ++ acks (cs.map (·.1)) as }) h0 fault i (hdef _ rfl) hd' hb'
  unfold batch batchTally
  cases fault with
  | none => exact hfine false
  | some nk =>
    obtain ⟨n, k⟩ := nk
    simp only [List.length_map]
    by_cases hn : n < cs.length
    · rw [if_pos hn, if_pos hn]
      obtain ⟨done, hp, h1, _⟩ := batchWrote_bytes (cfg := cfg) (size := size) ((cs.map (·.2)).take (if late then n + 1 else n)) q.w t _ hb
      refine says_fail hd (n := bytesOf size (done.flatMap (·.frames))) (by rw [disk_bytes, h1]) ?_
      rw [hf]
      exact flatMap_prefix (hp.trans (List.take_prefix _ _))
    · rw [if_neg hn, if_neg hn]
      exact hfine true

/-- What is kept. -/
structure Told (size : F → Nat) (ask : List (Msg F)) (s : S F) : Prop where
  waits : Waits ask s.q.queue
  count : Says size ask s.q.over s.q.answers s.t.bytes

theorem told_turn {ask : List (Msg F)} {s : S F} (h : Told size ask s) (l : Nat) (f : Option (Nat × Nat)) (late : Bool) :
    Says size ask (turn cfg size s l f late).q.over (turn cfg size s l f late).q.answers (turn cfg size s l f late).t.bytes := by
  by_cases ho : s.q.over.isSome = true
  · unfold turn
    rw [if_pos ho]
    exact h.count
  · have h0 : s.q.over = none := by simpa using ho
    rw [turn_q]
    rcases h.count with ⟨_, hd, hb⟩ | ⟨h1, _⟩
    · unfold turn WalQ.turn
      rw [if_neg ho, if_neg ho]
      cases hq : s.q.queue with
      | nil =>
        simp only
        by_cases hc : s.q.closed = true
        · rw [if_pos hc, if_pos hc]
          simp only
          rw [finishTally_bytes]
          unfold finish
          cases f with
          | some _ =>
            simp only [Option.isSome_some, if_true]
            exact .inr ⟨rfl, hb.ge, by rw [hb]; exact upTo_mono (by omega)⟩
          | none => exact .inl ⟨by simp, hd, hb⟩
        · rw [if_neg hc, if_neg hc]
          exact h.count
      | cons p rest =>
        obtain ⟨i, m⟩ := p
        have hw : Waits ask ((i, m) :: rest) := by rw [← hq]; exact h.waits
        cases m with
        | cmd c =>
          simp only
          have hgq := gather_queue l 1 rest
          refine says_batch (cs := (i, c) :: (gather l 1 rest).1) h0 f late (gather_deferred l 1 rest) ?_ hd hb
          intro p hp
          rcases List.mem_cons.1 hp with rfl | hp
          · exact hw (i, .cmd c) (by simp)
          · refine hw (p.1, .cmd p.2) (List.mem_cons_of_mem _ ?_)
            rw [hgq]
            exact List.mem_append_left _ (List.mem_append_left _ (List.mem_map.2 ⟨p, hp, rfl⟩))
        | rotate => exact says_other h0 _ i (fun c => by simp) hd hb
        | snapshot => exact says_other h0 _ i (fun c => by simp) hd hb
    · rw [h0] at h1
      cases h1

/-- The requests in the channel. -/
theorem waits_step {ask : List (Msg F)} {q : Q F} (h : Waits ask q.queue) (o : WalQ.Op F)
    (hm : ∀ m, o = .submit m → ask[q.calls]? = some m) : Waits ask (WalQ.step cfg size q o).queue := by
  have key : ∀ q' : Q F, (∃ a, q.queue = a ++ q'.queue) ∨ q'.queue = [] → Waits ask q'.queue := by
    rintro q' (⟨a, e⟩ | e) p hp
    · exact h p (by rw [e]; exact List.mem_append_right _ hp)
    · rw [e] at hp
      cases hp
  have hother : ∀ (q1 : Q F) (i : Nat) (rest : List (Nat × Msg F)) (fault : Bool) (m : Msg F), (∀ c, m ≠ .cmd c) →
      (∃ a, q.queue = a ++ rest) → Waits ask (other cfg q1 fault i rest m).queue := by
    intro q1 i rest fault m hm he
    cases m with
    | cmd c => exact absurd rfl (hm c)
    | snapshot => exact key _ (.inl he)
    | rotate =>
      simp only [other]
      split_ifs
      all_goals first
        | exact key _ (.inl he)
        | exact key _ (.inr rfl)
  cases o with
  | submit m =>
    simp only [WalQ.step, submit]
    split_ifs
    · exact h
    · intro p hp
      rcases List.mem_append.1 hp with hp | hp
      · exact h p hp
      · rw [List.mem_singleton] at hp
        subst hp
        exact hm m rfl
  | close => exact h
  | shutdown => exact h
  | drain => exact h
  | writeback => exact h
  | timer r y f =>
    simp only [WalQ.step, WalQ.timer]
    split_ifs
    all_goals first
      | exact h
      | exact key _ (.inr rfl)
  | turn l f =>
    simp only [WalQ.step, WalQ.turn]
    by_cases ho : q.over.isSome = true
    · rw [if_pos ho]
      exact h
    · rw [if_neg ho]
      cases hq : q.queue with
      | nil =>
        simp only
        split_ifs
        · unfold finish
          split_ifs
          · exact h
          · exact h
        · exact h
      | cons p rest =>
        obtain ⟨i, m⟩ := p
        cases m with
        | rotate => exact hother q i rest _ _ (fun c => by simp) ⟨[(i, .rotate)], by rw [hq]; rfl⟩
        | snapshot => exact hother q i rest _ _ (fun c => by simp) ⟨[(i, .snapshot)], by rw [hq]; rfl⟩
        | cmd c =>
          simp only
          have hgq := gather_queue l 1 rest
          have hdef := gather_deferred l 1 rest
          generalize gather l 1 rest = g at *
          obtain ⟨cs, d, rest'⟩ := g
          have hrest : ∃ a, q.queue = a ++ rest' := ⟨(i, .cmd c) :: (cs.map (fun p => (p.1, Msg.cmd p.2)) ++ d.toList), by
            rw [hq, hgq]
            simp⟩
          have hh : ∀ fault, Waits ask (handled cfg size q fault ((i, c) :: cs) d rest').queue := by
            intro fault
            unfold handled
            generalize enqueueAll cfg size q.w _ = r
            obtain ⟨w', o⟩ := r
            cases o with
            | none => exact key _ (.inr rfl)
            | some as =>
              cases d with
              | none => exact key _ (.inl hrest)
              | some d => exact hother _ _ _ _ _ (hdef _ rfl) hrest
          unfold batch
          cases f with
          | none => exact hh false
          | some nk =>
            simp only
            split_ifs
            · exact key _ (.inr rfl)
            · exact hh true

theorem told_step {ask : List (Msg F)} {s : S F} (h : Told size ask s) (o : Op F)
    (hm : ∀ m, o = .send m → ask[s.q.calls]? = some m) : Told size ask (step cfg size s o) := by
  refine ⟨?_, ?_⟩
  · rw [step_q]
    cases hp : plain o with
    | none => exact h.waits
    | some p =>
      refine waits_step h.waits p ?_
      rintro m rfl
      cases o with
      | send m' =>
        simp only [plain, Option.some.injEq, WalQ.Op.submit.injEq] at hp
        exact hm m (by rw [hp])
      | _ => simp [plain] at hp
  · cases o with
    | arrive => exact h.count
    | leave => exact h.count
    | close => exact h.count
    | shutdown => exact h.count
    | drain => exact h.count
    | writeback => exact h.count
    | turn l f late => exact told_turn h l f late
    | timer r y f =>
      simp only [step, timer]
      by_cases ho : s.q.over.isSome = true
      · rw [if_pos ho]
        exact h.count
      · rw [if_neg ho]
        simp only
        rw [timerTally_bytes]
        rcases h.count with ⟨h1, hd, hb⟩ | ⟨h1, _⟩
        · unfold WalQ.timer
          rw [if_neg ho]
          split_ifs
          all_goals first
            | exact says_fail hd (n := 0) hb (by omega)
            | exact .inl ⟨h1, hd, hb⟩
        · simp [h1] at ho
    | report =>
      simp only [step]
      split_ifs
      · exact h.count
      · exact h.count
    | send m =>
      have key : Says size ask (submit s.q m).over (submit s.q m).answers s.t.bytes := by
        unfold submit
        split_ifs
        · have e1 : inDoubt ask (s.q.answers ++ [(s.q.calls, .refused)]) = inDoubt ask s.q.answers := by
            rw [inDoubt_append]; simp [inDoubt]
          have e2 : promised ask (s.q.answers ++ [(s.q.calls, .refused)]) = promised ask s.q.answers := by
            rw [promised_append]; simp [promised]
          unfold Says
          simp only
          rw [e1, e2]
          exact h.count
        · exact h.count
      cases m <;> exact key

theorem step_calls' (s : S F) (o : Op F) : (step cfg size s o).q.calls = s.q.calls + (sent [o]).length := by
  rw [step_q]
  cases hp : plain o with
  | none => cases o <;> simp [plain, sent] at hp ⊢
  | some p =>
    simp only [Option.map_some, Option.getD_some]
    rw [step_calls]
    cases o <;> simp [plain] at hp <;> subst hp <;> rfl

theorem sent_cons (o : Op F) (os : List (Op F)) : sent (o :: os) = sent [o] ++ sent os := by cases o <;> rfl

theorem told_run {ask : List (Msg F)} : ∀ (os : List (Op F)) (s : S F) (pre : List (Msg F)), ask = pre ++ sent os →
    s.q.calls = pre.length → Told size ask s → Told size ask (run cfg size s os)
  | [], _, _, _, _, h => h
  | o :: os, s, pre, hp, hc, h => by
    have e := sent_cons o os
    refine told_run os (step cfg size s o) (pre ++ sent [o]) ?_ ?_ (told_step h o ?_)
    · rw [hp, e, List.append_assoc]
    · rw [step_calls', hc, List.length_append]
    · rintro m rfl
      rw [hp, hc]
      simp [sent]

theorem told_new (cfg : Cfg) (size : F → Nat) (os : List (Op F)) : Told size (sent os) (run cfg size S.new os) :=
  told_run os S.new [] rfl rfl ⟨(fun p hp => by cases hp), .inl ⟨by simp [S.new, Q.new], rfl, rfl⟩⟩

/-! ## Syncs -/

theorem wrote_syncs (t : Tally) (n : Nat) : (t.wrote n).syncs = t.syncs ∧ (t.wrote n).fsyncs = t.fsyncs := by
  unfold Tally.wrote
  split_ifs <;> exact ⟨rfl, rfl⟩

theorem batchWrote_syncs : ∀ (cs : List (Cmd F)) (w : W F) (t : Tally),
    (batchWrote cfg size t w cs).syncs = t.syncs ∧ (batchWrote cfg size t w cs).fsyncs = t.fsyncs
  | [], _, _ => ⟨rfl, rfl⟩
  | c :: cs, w, t => by
    unfold batchWrote
    generalize enqueue cfg size w c = r
    obtain ⟨w', a⟩ := r
    cases a with
    | none => exact ⟨rfl, rfl⟩
    | some a =>
      obtain ⟨h1, h2⟩ := batchWrote_syncs cs w' (t.wrote (total size c.frames))
      obtain ⟨h3, h4⟩ := wrote_syncs t (total size c.frames)
      exact ⟨h1.trans h3, h2.trans h4⟩

/-- From `t` to `t'` the counter of the syncs grew by `k` (up to its limit), the disk saw `n` of them. -/
def Grew (t t' : Tally) (k n : Nat) : Prop :=
  t'.syncs = (if k = 0 then t.syncs else upTo (t.syncs + k)) ∧ t'.fsyncs = t.fsyncs + n

theorem Grew.refl (t : Tally) : Grew t t 0 0 := ⟨rfl, rfl⟩

theorem grew_add {t t' : Tally} {k n : Nat} (h : Grew t t' k n) (b : Bool) (m : Nat) :
    Grew t ((t'.synced b).disk m) (k + b.toNat) (n + m) := by
  obtain ⟨h1, h2⟩ := h
  cases b with
  | false => exact ⟨by simpa [Tally.synced, Tally.disk] using h1, by simp [Tally.synced, Tally.disk, h2, Nat.add_assoc]⟩
  | true =>
    refine ⟨?_, by simp [Tally.synced, Tally.disk, h2, Nat.add_assoc]⟩
    simp only [Tally.synced, Tally.disk, if_true, Bool.toNat_true]
    rw [h1, if_neg (show ¬ k + 1 = 0 by omega)]
    by_cases hk : k = 0
    · rw [if_pos hk, hk]
      rfl
    · rw [if_neg hk, upTo_sat, Nat.add_assoc]

theorem grew_disk {t t' : Tally} {k n : Nat} (h : Grew t t' k n) (m : Nat) : Grew t (t'.disk m) k (n + m) := by
  have := grew_add h false m
  simpa [Tally.synced] using this

theorem grew_wrote (cs : List (Cmd F)) (w : W F) (t : Tally) : Grew t (batchWrote cfg size t w cs) 0 0 :=
  batchWrote_syncs cs w t

theorem cmdFsyncs_iff {w w' : W F} {c : Cmd F} {a : Nat × Nat} (h : enqueue cfg size w c = (w', some a)) :
    (cmdSynced cfg size w c).toNat ≤ cmdFsyncs cfg size w c ∧
      (cmdSynced cfg size w c = false ↔ cmdFsyncs cfg size w c = 0) := by
  unfold enqueue at h
  by_cases h1 : c.frames = []
  · rw [if_pos h1] at h
    simp at h
  · rw [if_neg h1] at h
    by_cases h2 : (writeOut cfg size w c).dead = true
    · rw [if_pos h2] at h
      simp at h
    · unfold cmdFsyncs cmdSynced
      rw [if_neg h1, if_neg h2]
      generalize rotatesSyncing cfg size w c = x
      generalize syncDue cfg (writeOut cfg size w c) = y
      cases x <;> cases y <;> simp

theorem batchFsyncs_iff : ∀ (cs : List (Cmd F)) (w w' : W F) (as : List (Nat × Nat)),
    enqueueAll cfg size w cs = (w', some as) →
    (batchSynced cfg size w cs).toNat ≤ batchFsyncs cfg size w cs ∧
      (batchSynced cfg size w cs = false ↔ batchFsyncs cfg size w cs = 0)
  | [], _, _, _, _ => ⟨Nat.le_refl _, by simp [batchSynced, batchFsyncs]⟩
  | c :: cs, w, w', as, h => by
    unfold enqueueAll at h
    unfold batchSynced batchFsyncs
    cases he : enqueue cfg size w c with
    | mk v a =>
      rw [he] at h
      cases a with
      | none => simp at h
      | some a =>
        simp only at h ⊢
        obtain ⟨h1, h2⟩ := cmdFsyncs_iff he
        cases hr : enqueueAll cfg size v cs with
        | mk v' as' =>
          rw [hr] at h
          cases as' with
          | none => simp at h
          | some as' =>
            obtain ⟨h3, h4⟩ := batchFsyncs_iff cs v v' as' hr
            generalize cmdSynced cfg size w c = x at *
            generalize batchSynced cfg size v cs = y at *
            cases x <;> cases y <;> simp_all <;> omega

/-- What a step does to the counter: `k` more, if `fine` none if and only if the disk saw none. -/
def Step (fine : Prop) (t t' : Tally) : Prop := ∃ k n, Grew t t' k n ∧ k ≤ n ∧ (fine → (k = 0 ↔ n = 0))

theorem Step.same (fine : Prop) (t : Tally) : Step fine t t := ⟨0, 0, Grew.refl t, Nat.le_refl _, fun _ => Iff.rfl⟩

theorem step_other {t t1 : Tally} {k n : Nat} (h : Grew t t1 k n) (hkn : k ≤ n) (hiff : k = 0 ↔ n = 0) {q : Q F}
    (i : Nat) (rest : List (Nat × Msg F)) (fault : Bool) (m : Msg F) (h0 : q.over = none) :
    Step ((other cfg q fault i rest m).over ≠ some false) t (otherTally cfg t1 q.w fault m) := by
  cases m with
  | cmd c => exact ⟨k, n, h, hkn, fun _ => hiff⟩
  | snapshot => exact ⟨k, n, h, hkn, fun _ => hiff⟩
  | rotate =>
    simp only [otherTally, other]
    cases fault with
    | true => exact ⟨k, n, h, hkn, fun _ => hiff⟩
    | false =>
      simp only [Bool.false_or, if_false, Bool.false_eq_true]
      by_cases hd : (rotationRequest cfg q.w).dead = true
      · rw [if_pos hd, if_pos hd]
        exact ⟨k, _, grew_disk h _, by omega, fun hf => absurd rfl hf⟩
      · rw [if_neg hd, if_neg hd]
        refine ⟨_, _, grew_add h (requestSyncs cfg q.w) _, by omega, fun _ => ?_⟩
        omega

theorem step_batch {t : Tally} {q : Q F} (h0 : q.over = none) (fault : Option (Nat × Nat)) (late : Bool)
    (cs : List (Nat × Cmd F)) (deferred : Option (Nat × Msg F)) (rest : List (Nat × Msg F)) :
    Step ((batch cfg size q fault cs deferred rest).over ≠ some false) t
      (batchTally cfg size t q.w fault late (cs.map (·.2)) deferred) := by
  have hfine : ∀ fault, Step ((handled cfg size q fault cs deferred rest).over ≠ some false) t
      (handledTally cfg size t q.w fault (cs.map (·.2)) deferred) := by
    intro fault
    unfold handled handledTally
    cases he : enqueueAll cfg size q.w (cs.map (·.2)) with
    | mk w' o =>
      cases o with
      | none => exact ⟨_, _, grew_disk (grew_wrote _ _ t) _, by omega, fun hf => absurd rfl hf⟩
      | some as =>
        obtain ⟨h1, h2⟩ := batchFsyncs_iff _ _ _ _ he
        have hg := grew_add (grew_wrote (cfg := cfg) (size := size) (cs.map (·.2)) q.w t) (batchSynced cfg size q.w (cs.map (·.2)))
          (batchFsyncs cfg size q.w (cs.map (·.2)))
        have hi : (0 + (batchSynced cfg size q.w (cs.map (·.2))).toNat = 0 ↔ 0 + batchFsyncs cfg size q.w (cs.map (·.2)) = 0) := by
          rw [Nat.zero_add, Nat.zero_add, ← h2]
          cases batchSynced cfg size q.w (cs.map (·.2)) <;> simp
        cases deferred with
        | none => exact ⟨_, _, hg, by omega, fun _ => hi⟩
        | some d =>
          exact step_other (q := { q with w := w', answers := q.answers ++ acks (cs.map (·.1)) as }) hg (by omega) hi _ _ _ _ h0
  unfold batch batchTally
  cases fault with
  | none => exact hfine false
  | some nk =>
    obtain ⟨n, k⟩ := nk
    simp only [List.length_map]
    by_cases hn : n < cs.length
    · rw [if_pos hn, if_pos hn]
      exact ⟨_, _, grew_disk (grew_wrote _ _ t) _, by omega, fun hf => absurd rfl hf⟩
    · rw [if_neg hn, if_neg hn]
      exact hfine true

theorem step_depth {fine : Prop} {t t' : Tally} {d : Nat} (h : Step fine { t with depth := d } t') : Step fine t t' := h

theorem step_turn (s : S F) (l : Nat) (f : Option (Nat × Nat)) (late : Bool) :
    Step (s.q.over = none → (turn cfg size s l f late).q.over ≠ some false) s.t (turn cfg size s l f late).t := by
  by_cases ho : s.q.over.isSome = true
  · unfold turn
    rw [if_pos ho]
    exact Step.same _ _
  · have h0 : s.q.over = none := by simpa using ho
    rw [turn_q]
    unfold turn WalQ.turn
    rw [if_neg ho, if_neg ho]
    have relax : ∀ {fine : Prop} {t t' : Tally}, Step fine t t' → Step (s.q.over = none → fine) t t' := by
      rintro fine t t' ⟨k, n, h1, h2, h3⟩
      exact ⟨k, n, h1, h2, fun h => h3 (h h0)⟩
    cases hq : s.q.queue with
    | nil =>
      simp only
      by_cases hc : s.q.closed = true
      · rw [if_pos hc, if_pos hc]
        unfold finishTally
        cases f with
        | some _ => exact Step.same _ _
        | none => exact ⟨_, _, grew_add (Grew.refl s.t) (rotationSyncs cfg) _, Nat.le_refl _, fun _ => Iff.rfl⟩
      · rw [if_neg hc, if_neg hc]
        exact Step.same _ _
    | cons p rest =>
      obtain ⟨i, m⟩ := p
      cases m with
      | cmd c => exact relax (step_depth (step_batch (cs := (i, c) :: (gather l 1 rest).1) h0 f late _ _))
      | rotate => exact relax (step_other (Grew.refl s.t) (Nat.le_refl _) Iff.rfl i rest _ _ h0)
      | snapshot => exact relax (step_other (Grew.refl s.t) (Nat.le_refl _) Iff.rfl i rest _ _ h0)

theorem step_timer (s : S F) (r y f : Bool) :
    Step (s.q.over = none → (timer cfg s r y f).q.over ≠ some false) s.t (timer cfg s r y f).t := by
  unfold timer
  by_cases ho : s.q.over.isSome = true
  · rw [if_pos ho]
    exact Step.same _ _
  · have h0 : s.q.over = none := by simpa using ho
    rw [if_neg ho]
    simp only [timerTally, WalQ.timer]
    rw [if_neg ho]
    cases f with
    | true => exact Step.same _ _
    | false =>
      simp only [Bool.false_or, if_false, Bool.false_eq_true]
      by_cases hd : (tick cfg s.q.w r y).dead = true
      · rw [if_pos hd, if_pos hd]
        exact ⟨_, _, grew_disk (Grew.refl s.t) _, by omega, fun hf => absurd rfl (hf h0)⟩
      · rw [if_neg hd, if_neg hd]
        refine ⟨_, _, grew_add (Grew.refl s.t) _ _, ?_, fun _ => ?_⟩
        all_goals
          generalize (timerSyncs cfg s.q.w r y).1 = a
          generalize (timerSyncs cfg s.q.w r y).2 = b
          cases a <;> cases b <;> simp

theorem step_step (s : S F) (o : Op F) :
    Step (s.q.over = none → (step cfg size s o).q.over ≠ some false) s.t (step cfg size s o).t := by
  cases o with
  | turn l f late => exact step_turn s l f late
  | timer r y f => exact step_timer s r y f
  | send m => cases m <;> exact Step.same _ _
  | report =>
    simp only [step]
    split_ifs
    · exact Step.same _ _
    · exact Step.same _ _
  | _ => exact Step.same _ _

end Tonbo.Lemmas.WalS
