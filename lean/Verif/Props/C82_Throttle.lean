import Mathlib.Order.Monotone.Basic
import Verif.Lemmas.Throttle
import Verif.Props.C48_C49_Guards
import Verif.Model.WriteCall

/-!
# C82: back pressure with many writers at once
-/

namespace Tonbo.Props.C82
open Tonbo.Model.Policy Tonbo.Model.Throttle Tonbo.Spec Tonbo.Spec.Throttle Tonbo.Lemmas.Throttle
open Tonbo.Props.C48

section
variable (cfg : Config) (now : Nat) (listed : L0Stats) (sched : Nat → Op)

/-- The mark that somebody reads the manifest is set exactly while somebody does, whatever calls are dropped or fail,
and at most one call does. -/
theorem one_reader_at_a_time (n : Nat) :
    ((state cfg (Sys.new now listed) sched n).busy = true ↔
      ∃ i a, call cfg (Sys.new now listed) sched i n = some a ∧ a.holds = true) ∧
    ∀ i j a b, call cfg (Sys.new now listed) sched i n = some a → call cfg (Sys.new now listed) sched j n = some b →
      a.holds = true → b.holds = true → i = j := by
  have h := marked_state cfg now listed sched n
  exact ⟨⟨h.some_, fun ⟨i, a, hi, ha⟩ => h.busy i a hi ha⟩, h.one⟩

theorem refresh_ghost (i k n : Nat) (h : Refresh cfg (Sys.new now listed) sched i k n) :
    (ghost cfg (Sys.new now listed) sched (n + 1)).1 = k + 1 := by
  obtain ⟨hkn, hk, hn, ⟨q, t, hq⟩, hb⟩ := h
  have key : ∀ m, k < m → m ≤ n → (ghost cfg (Sys.new now listed) sched m).2 = k + 1 := by
    intro m
    induction m with
    | zero => intro h; omega
    | succ m ih =>
      intro h1 h2
      by_cases e : m = k
      · subst e; simp only [ghost, hk, hq]
      · have hkm : k < m := by omega
        rw [← ih hkm (by omega)]
        obtain ⟨q', t', r', hm⟩ := hb m hkm (by omega)
        obtain ⟨q2, t2, r2, hm2⟩ := hb (m + 1) h1 h2
        have one := (marked_state cfg now listed sched m).one
        cases hs : sched m with
        | go j =>
          cases hj : call cfg (Sys.new now listed) sched j m with
          | none => simp only [ghost, hs, hj]
          | some a =>
            cases a with
            | reading q3 t3 =>
              have e := one _ _ _ _ hj hm rfl rfl
              subst e
              rw [hj] at hm; exact nomatch hm
            | update q3 t3 r3 => simp only [ghost, hs, hj]
            | _ => simp only [ghost, hs, hj]
        | _ => simp only [ghost, hs]
  obtain ⟨q', t', r', hm⟩ := hb n hkn (Nat.le_refl n)
  simp only [ghost, hn, hm]
  exact key n hkn (Nat.le_refl n)

/-- What callers are told never goes back in time: each answer is what the manifest listed at a moment that is not
before that of any earlier answer. A call that read the manifest itself and noted it moves everybody to its moment. -/
theorem answers_do_not_go_back : ∃ f : Nat → Nat, Monotone f ∧ (∀ n, f n ≤ n) ∧
    (∀ n i q r, told cfg (state cfg (Sys.new now listed) sched n) (sched n) = some (i, q, r) →
      r = shown cfg (Sys.new now listed) sched (f (n + 1))) ∧
    ∀ i k n, Refresh cfg (Sys.new now listed) sched i k n → f (n + 1) = k + 1 := by
  refine ⟨fun n => (ghost cfg (Sys.new now listed) sched n).1, ?_, ?_, ?_, ?_⟩
  · refine monotone_nat_of_le_succ (fun n => ?_)
    have inv := inv_state cfg now listed sched n
    cases hs : sched n with
    | go j =>
      cases hj : call cfg (Sys.new now listed) sched j n with
      | none => simp only [ghost, hs, hj]; exact Nat.le_refl _
      | some a =>
        cases a with
        | update q t r =>
          simp only [ghost, hs, hj]
          exact (inv.calls _ _ hj).2.1
        | _ => simp only [ghost, hs, hj]; exact Nat.le_refl _
    | _ => simp only [ghost, hs]; exact Nat.le_refl _
  · exact fun n => (inv_state cfg now listed sched n).le
  · intro n i q r h
    have inv := inv_state cfg now listed sched n
    cases hs : sched n with
    | go j =>
      rw [hs] at h
      simp only [told] at h
      cases hj : call cfg (Sys.new now listed) sched j n with
      | none => simp only [call] at hj; rw [hj] at h; exact nomatch h
      | some a =>
        have hj' := hj
        simp only [call] at hj'
        rw [hj'] at h
        cases a with
        | look q' t =>
          simp only [ghost, hs, hj]
          rw [← inv.cache]
          simp only at h
          split at h
          · exact (congrArg (fun p => p.2.2) (Option.some.inj h)).symm
          · exact nomatch h
        | lost q' =>
          simp only [ghost, hs, hj]
          rw [← inv.cache]
          exact (congrArg (fun p => p.2.2) (Option.some.inj h)).symm
        | release q' t r' =>
          simp only [ghost, hs, hj]
          rw [← inv.cache, (inv.calls _ _ hj).1]
          exact (congrArg (fun p => p.2.2) (Option.some.inj h)).symm
        | _ => exact nomatch h
    | _ => rw [hs] at h; exact nomatch h
  · exact refresh_ghost cfg now listed sched

/-- An answer that was not given because another call was reading is at most the refresh interval older than the
question, and if a writer that was stopped asks again it is not older than the question at all. -/
theorem answers_are_recent_partial (n i : Nat) (q : Query) (r : L0Stats)
    (h : told cfg (state cfg (Sys.new now listed) sched n) (sched n) = some (i, q, r))
    (hmet : ¬ Met cfg (state cfg (Sys.new now listed) sched n) i) :
    ∃ a t k, call cfg (Sys.new now listed) sched i n = some a ∧ askedAt a = some t ∧ k ≤ n ∧
      r = (state cfg (Sys.new now listed) sched k).listed ∧
      t < (state cfg (Sys.new now listed) sched k).now + max cfg.stopDelay 1000000 ∧
      ∀ d, q = .again d → t ≤ (state cfg (Sys.new now listed) sched k).now := by
  have inv := inv_state cfg now listed sched n
  have pos : 0 < max cfg.stopDelay 1000000 := by omega
  cases hs : sched n with
  | go j =>
    rw [hs] at h
    simp only [told] at h
    cases hj : call cfg (Sys.new now listed) sched j n with
    | none => simp only [call] at hj; rw [hj] at h; exact nomatch h
    | some a =>
      have hj' := hj
      simp only [call] at hj'
      rw [hj'] at h
      cases a with
      | look q' t =>
        simp only at h
        split at h
        · have e := Option.some.inj h
          obtain rfl : j = i := congrArg Prod.fst e
          have er : _ = r := congrArg (fun p => p.2.2) e
          refine ⟨.look q' t, t, ?_⟩
          by_cases hf : (!q'.force && (state cfg (Sys.new now listed) sched n).cache.fresh t (interval cfg)) = true
          · have hf' := hf
            simp only [Cache.fresh, Bool.and_eq_true, decide_eq_true_eq] at hf'
            obtain ⟨k, h1, h2⟩ := inv.valid hf'.2.1
            refine ⟨k, hj, rfl, ?_, ?_, ?_, ?_⟩
            · have := inv.le; omega
            · rw [← er]
              have := inv.cache
              rw [h1] at this
              exact this
            · have := hf'.2.2
              simp only [interval] at this
              omega
            · intro d hd
              have eq : q' = q := congrArg (fun p => p.2.1) e
              rw [eq, hd] at hf'
              exact absurd hf'.1 (by simp [Query.force])
          · exact absurd (.inl ⟨q', t, hj', by simpa using hf⟩) hmet
        · exact nomatch h
      | lost q' =>
        have e := Option.some.inj h
        obtain rfl : j = i := congrArg Prod.fst e
        exact absurd (.inr ⟨q', hj'⟩) hmet
      | release q' t r' =>
        have e := Option.some.inj h
        obtain rfl : j = i := congrArg Prod.fst e
        have er : _ = r := congrArg (fun p => p.2.2) e
        obtain ⟨f1, k, f2, f3⟩ := inv.calls _ _ hj
        refine ⟨_, t, k, hj, rfl, ?_, ?_, ?_, fun _ _ => ?_⟩
        · have := inv.le; omega
        · rw [← er]
          show r' = _
          rw [← f1, inv.cache, f2]
          rfl
        · omega
        · omega
      | _ => exact nomatch h
  | _ => rw [hs] at h; exact nomatch h

/-- Once the manifest lists less than a stop limit for good and one call has read it since, nobody is told to stop any
more. -/
theorem writers_are_let_go (i k n : Nat) (hr : Refresh cfg (Sys.new now listed) sched i k n)
    (hl : ∀ m, k ≤ m → ¬ AtStop cfg (state cfg (Sys.new now listed) sched m).listed) :
    ∀ m, n ≤ m → ∀ j q r, told cfg (state cfg (Sys.new now listed) sched m) (sched m) = some (j, q, r) →
      ¬ AtStop cfg r := by
  intro m hm j q r ht
  obtain ⟨f, f1, f2, f3, f4⟩ := answers_do_not_go_back cfg now listed sched
  have e := f4 i k n hr
  have hle : k + 1 ≤ f (m + 1) := e ▸ f1 (by omega)
  rw [f3 m j q r ht]
  cases hx : f (m + 1) with
  | zero => omega
  | succ x => exact hl x (by omega)

theorem closer (n i : Nat) (a : At) (hi : call cfg (Sys.new now listed) sched i n = some a)
    (hq : askOf a ≠ none) :
    (sched n ≠ .go i ∧ call cfg (Sys.new now listed) sched i (n + 1) = some a) ∨
    (sched n = .go i ∧ ∃ a', call cfg (Sys.new now listed) sched i (n + 1) = some a' ∧ askOf a' = askOf a ∧
      left a' < left a) ∨
    (sched n = .go i ∧ ∃ q r, askOf a = some q ∧
      told cfg (state cfg (Sys.new now listed) sched n) (sched n) = some (i, q, r)) ∨
    (sched n = .fail i ∨ sched n = .drop i) := by
  have h := call_step cfg _ (sched n) (marked_state cfg now listed sched n) i a hi
  have e : call cfg (Sys.new now listed) sched i (n + 1) =
      (step cfg (state cfg (Sys.new now listed) sched n) (sched n)).calls[i]? := rfl
  rw [e]
  generalize (step cfg (state cfg (Sys.new now listed) sched n) (sched n)).calls[i]? = x at h
  cases h with
  | stay h1 h2 => exact .inl ⟨fun h => hq (h2 h).1, rfl⟩
  | ask h1 h2 h3 h4 h5 => exact .inr (.inl ⟨h2, _, rfl, by rw [h3, h4], h5⟩)
  | woken h1 h2 h3 h4 => rcases h4 with ⟨rfl, _⟩ | ⟨q, rfl, _⟩ <;> exact absurd rfl hq
  | gone h1 h2 => rcases h2 with ⟨_, h⟩ | ⟨_, h⟩ <;> simp [h]
  | answered h1 h2 h3 => exact .inr (.inr (.inl ⟨h2, _, _, h3, h1⟩))

theorem left_le (a : At) : left a ≤ 6 ∧ (askOf a ≠ none → 0 < left a) := by
  cases a <;> simp [left, askOf]

/-- Nobody waits for the others: a call that asks is told within six steps of its own, whatever the others do between
them, unless it is dropped or the manifest fails it. -/
theorem answered_within_six_steps (i n d : Nat) (a : At) (hi : call cfg (Sys.new now listed) sched i n = some a)
    (hq : askOf a ≠ none) (hd : 6 ≤ own sched i n d)
    (hx : ∀ m, n ≤ m → m < n + d → sched m ≠ .fail i ∧ sched m ≠ .drop i) :
    ∃ m, n ≤ m ∧ m < n + d ∧ ∃ q r, askOf a = some q ∧
      told cfg (state cfg (Sys.new now listed) sched m) (sched m) = some (i, q, r) := by
  have key : ∀ d, (∀ m, n ≤ m → m < n + d → sched m ≠ .fail i ∧ sched m ≠ .drop i) →
      (∃ m, n ≤ m ∧ m < n + d ∧ ∃ q r, askOf a = some q ∧
        told cfg (state cfg (Sys.new now listed) sched m) (sched m) = some (i, q, r)) ∨
      ∃ b, call cfg (Sys.new now listed) sched i (n + d) = some b ∧ askOf b = askOf a ∧
        left b + own sched i n d ≤ left a := by
    intro d
    induction d with
    | zero => intro _; exact .inr ⟨a, hi, rfl, by simp [own]⟩
    | succ d ih =>
      intro hx
      rcases ih (fun m h1 h2 => hx m h1 (by omega)) with ⟨m, h1, h2, h3⟩ | ⟨b, h1, h2, h3⟩
      · exact .inl ⟨m, h1, by omega, h3⟩
      · rcases closer cfg now listed sched (n + d) i b h1 (by rw [h2]; exact hq) with
          ⟨g1, g2⟩ | ⟨g1, b', g2, g3, g4⟩ | ⟨g1, q, r, g2, g3⟩ | g
        · refine .inr ⟨b, g2, h2, ?_⟩
          simp only [own, if_neg g1]; omega
        · refine .inr ⟨b', g2, by rw [g3, h2], ?_⟩
          simp only [own, if_pos g1]; omega
        · exact .inl ⟨n + d, by omega, by omega, q, r, by rw [← h2]; exact g2, g3⟩
        · have := hx (n + d) (by omega) (by omega)
          rcases g with g | g
          · exact absurd g this.1
          · exact absurd g this.2
  rcases key d hx with h | ⟨b, h1, h2, h3⟩
  · exact h
  · have := (left_le b).2 (by rw [h2]; exact hq)
    have := (left_le a).1
    omega

/-- A sleeping call goes on only when its time has come (or is dropped). -/
theorem sleeps_are_waited_for (n i till : Nat) (next : Option Query)
    (hi : call cfg (Sys.new now listed) sched i n = some (.sleep till next))
    (hn : (state cfg (Sys.new now listed) sched n).now < till) (hd : sched n ≠ .drop i) :
    call cfg (Sys.new now listed) sched i (n + 1) = some (.sleep till next) := by
  have h := call_step cfg _ (sched n) (marked_state cfg now listed sched n) i _ hi
  have e : call cfg (Sys.new now listed) sched i (n + 1) =
      (step cfg (state cfg (Sys.new now listed) sched n) (sched n)).calls[i]? := rfl
  have he : step cfg (state cfg (Sys.new now listed) sched n) (sched n) =
      state cfg (Sys.new now listed) sched (n + 1) := rfl
  rw [e]
  by_cases hf : sched n = .fail i
  · rw [hf]
    simp only [step]
    simp only [call] at hi
    rw [hi]
    exact hi
  generalize (step cfg (state cfg (Sys.new now listed) sched n) (sched n)).calls[i]? = x at h
  cases h with
  | stay h1 h2 => rfl
  | ask h1 h2 h3 h4 h5 => exact nomatch h3
  | woken h1 h2 h3 h4 =>
    rcases h4 with ⟨h, _⟩ | ⟨q, h, _⟩
    · obtain ⟨rfl, _⟩ := At.sleep.inj h; omega
    · obtain ⟨rfl, _⟩ := At.sleep.inj h; omega
  | gone h1 h2 =>
    rcases h2 with ⟨_, h⟩ | ⟨_, h⟩
    · exact absurd h hf
    · exact absurd h hd
  | answered h1 h2 h3 => exact nomatch h3

/-! ## What a writer does with its answers -/

/-- All answers so far were at a stop limit, and each was slept off. -/
def Waiting (H : List L0Stats) (S : List Nat) : Prop :=
  H ≠ [] ∧ (∀ r ∈ H, AtStop cfg r) ∧ S = List.replicate H.length cfg.stopDelay

/-- The last answer was below the stop limits, those before it were not. -/
def Through (H : List L0Stats) (S : List Nat) : Prop :=
  ∃ pre r, H = pre ++ [r] ∧ (∀ p ∈ pre, AtStop cfg p) ∧ ¬ AtStop cfg r ∧
    ((AtSlow cfg r ∧ S = List.replicate pre.length cfg.stopDelay ++ [cfg.slowDelay]) ∨
      (¬ AtSlow cfg r ∧ S = List.replicate pre.length cfg.stopDelay))

/-- Where a writer is, with what it was told and how it slept. -/
def Writes (H : List L0Stats) (S : List Nat) : At → Prop
  | .sleep _ (some q) => q = .again cfg.stopDelay ∧ Waiting cfg H S
  | .sleep _ none => Through cfg H S
  | .done b => b = true ∧ Through cfg H S
  | .failed => True
  | .dropped => True
  | a => (askOf a = some .first ∧ H = [] ∧ S = []) ∨ (askOf a = some (.again cfg.stopDelay) ∧ Waiting cfg H S)

theorem writes_ask {H : List L0Stats} {S : List Nat} {a : At} {q : Query} (ha : askOf a = some q)
    (h : Writes cfg H S a) : (q = .first ∧ H = [] ∧ S = []) ∨ (q = .again cfg.stopDelay ∧ Waiting cfg H S) := by
  have e : ∀ x, askOf a = some x → q = x := fun x h => Option.some.inj (ha.symm.trans h)
  cases a with
  | sleep t x => exact nomatch ha
  | done b => exact nomatch ha
  | failed => exact nomatch ha
  | dropped => exact nomatch ha
  | _ => exact h.imp (fun h => ⟨e _ h.1, h.2⟩) (fun h => ⟨e _ h.1, h.2⟩)

theorem ask_writes {H : List L0Stats} {S : List Nat} {a : At} {q : Query} (ha : askOf a = some q)
    (h : (q = .first ∧ H = [] ∧ S = []) ∨ (q = .again cfg.stopDelay ∧ Waiting cfg H S)) : Writes cfg H S a := by
  have e : ∀ x, q = x → askOf a = some x := fun x h => ha.trans (congrArg some h)
  cases a with
  | sleep t x => exact nomatch ha
  | done b => exact nomatch ha
  | failed => exact nomatch ha
  | dropped => exact nomatch ha
  | _ => exact h.imp (fun h => ⟨e _ h.1, h.2⟩) (fun h => ⟨e _ h.1, h.2⟩)

/-- The sleep that begins with an answer. -/
def nap (now : Nat) : At → List Nat
  | .sleep till _ => [till - now]
  | _ => []

theorem writes_answer {H : List L0Stats} {S : List Nat} {q : Query} {r : L0Stats}
    (h : (q = .first ∧ H = [] ∧ S = []) ∨ (q = .again cfg.stopDelay ∧ Waiting cfg H S)) :
    Writes cfg (H ++ [r]) (S ++ nap now (answer cfg now q r)) (answer cfg now q r) := by
  have nn : ∀ d, now + d - now = d := by omega
  have hall : ∀ p ∈ H, AtStop cfg p := by
    rcases h with ⟨_, rfl, _⟩ | ⟨_, _, h, _⟩
    · exact fun p hp => nomatch hp
    · exact h
  have hS : S = List.replicate H.length cfg.stopDelay := by
    rcases h with ⟨_, rfl, rfl⟩ | ⟨_, _, _, h⟩
    · rfl
    · exact h
  by_cases h1 : AtStop cfg r
  · have e : answer cfg now q r = .sleep (now + cfg.stopDelay) (some (.again cfg.stopDelay)) := by
      rcases h with ⟨rfl, _⟩ | ⟨rfl, _⟩ <;> simp only [answer, decision_stall cfg r h1]
    rw [e]
    refine ⟨rfl, by simp, ?_, ?_⟩
    · intro p hp
      rcases List.mem_append.mp hp with h | h
      · exact hall p h
      · rw [List.mem_singleton.mp h]; exact h1
    · simp only [nap, nn, hS, List.length_append, List.length_singleton, List.replicate_succ']
  · by_cases h2 : AtSlow cfg r
    · have e : answer cfg now q r = .sleep (now + cfg.slowDelay) none := by
        rcases h with ⟨rfl, _⟩ | ⟨rfl, _⟩ <;> simp only [answer, decision_slow cfg r h1 h2]
      rw [e]
      exact ⟨H, r, rfl, hall, h1, .inl ⟨h2, by simp only [nap, nn, hS]⟩⟩
    · have e : answer cfg now q r = .done true := by
        rcases h with ⟨rfl, _⟩ | ⟨rfl, _⟩ <;> simp only [answer, decision_proceed cfg r h1 h2]
      rw [e]
      exact ⟨rfl, H, r, rfl, hall, h1, .inr ⟨h2, by simp [nap, hS]⟩⟩

theorem calls_le (n : Nat) : (state cfg (Sys.new now listed) sched n).calls.length ≤
    (state cfg (Sys.new now listed) sched (n + 1)).calls.length := by
  have hx := effect cfg _ (sched n) (marked_state cfg now listed sched n).busy
  have e : state cfg (Sys.new now listed) sched (n + 1) =
    step cfg (state cfg (Sys.new now listed) sched n) (sched n) := rfl
  rw [← e] at hx
  generalize sched n = op at hx
  cases hx <;> simp_all

/-- Before a call exists it is told nothing and does not sleep. -/
theorem nothing_before (i n : Nat) (h : (state cfg (Sys.new now listed) sched n).calls.length ≤ i) :
    heard cfg (Sys.new now listed) sched i n = [] ∧ slept cfg (Sys.new now listed) sched i n = [] := by
  induction n with
  | zero => exact ⟨rfl, rfl⟩
  | succ n ih =>
    have hl := Nat.le_trans (calls_le cfg now listed sched n) h
    obtain ⟨h1, h2⟩ := ih hl
    have hn : call cfg (Sys.new now listed) sched i n = none := List.getElem?_eq_none hl
    have hn' : call cfg (Sys.new now listed) sched i (n + 1) = none := List.getElem?_eq_none h
    refine ⟨?_, ?_⟩
    · simp only [heard, h1, List.nil_append]
      cases ht : told cfg (state cfg (Sys.new now listed) sched n) (sched n) with
      | none => rfl
      | some p =>
        obtain ⟨j, q, r⟩ := p
        simp only
        rw [if_neg]
        rintro rfl
        cases hs : sched n with
        | go k =>
          rw [hs] at ht
          simp only [told] at ht
          by_cases e : k = j
          · subst e
            simp only [call] at hn
            rw [hn] at ht
            exact nomatch ht
          · split at ht
            · split at ht
              · exact e (congrArg Prod.fst (Option.some.inj ht))
              · exact nomatch ht
            · exact e (congrArg Prod.fst (Option.some.inj ht))
            · exact e (congrArg Prod.fst (Option.some.inj ht))
            · exact nomatch ht
        | _ => rw [hs] at ht; exact nomatch ht
    · simp only [slept, h2, hn, hn', List.nil_append]

theorem writes_state (m : Nat) (hm : sched m = .enter false) (i : Nat)
    (hi : i = (state cfg (Sys.new now listed) sched m).calls.length) : ∀ n, m < n →
    ∃ a, call cfg (Sys.new now listed) sched i n = some a ∧
      Writes cfg (heard cfg (Sys.new now listed) sched i n) (slept cfg (Sys.new now listed) sched i n) a := by
  intro n
  induction n with
  | zero => intro h; omega
  | succ n ih =>
    intro hn
    by_cases e : n = m
    · subst e
      have hc : call cfg (Sys.new now listed) sched i (n + 1) = some (.start .first) := by
        simp only [call, state, hm, step, hi]
        simp
      have h0 := nothing_before cfg now listed sched i n (by omega)
      have hc0 : call cfg (Sys.new now listed) sched i n = none := List.getElem?_eq_none (by omega)
      refine ⟨_, hc, .inl ⟨rfl, ?_, ?_⟩⟩
      · simp only [heard, h0.1, hm, told, List.nil_append]
      · simp only [slept, h0.2, hc, hc0, List.nil_append]
    · obtain ⟨a, ha, hw⟩ := ih (by omega)
      have hcs := call_step cfg _ (sched n) (marked_state cfg now listed sched n) i a ha
      have e1 : call cfg (Sys.new now listed) sched i (n + 1) =
          (step cfg (state cfg (Sys.new now listed) sched n) (sched n)).calls[i]? := rfl
      rw [← e1] at hcs
      -- nothing told
      have quiet : (∀ q r, told cfg (state cfg (Sys.new now listed) sched n) (sched n) ≠ some (i, q, r)) →
          heard cfg (Sys.new now listed) sched i (n + 1) = heard cfg (Sys.new now listed) sched i n := by
        intro h
        simp only [heard]
        cases ht : told cfg (state cfg (Sys.new now listed) sched n) (sched n) with
        | none => exact List.append_nil _
        | some p =>
          obtain ⟨j, q, r⟩ := p
          simp only
          rw [if_neg]
          · exact List.append_nil _
          · rintro rfl; exact h q r ht
      have nonap : ∀ a', call cfg (Sys.new now listed) sched i (n + 1) = some a' →
          ((∃ t x, a = .sleep t x) ∨ (∀ t x, a' ≠ .sleep t x)) →
          slept cfg (Sys.new now listed) sched i (n + 1) = slept cfg (Sys.new now listed) sched i n := by
        intro a' ha' h
        simp only [slept, ha, ha']
        rcases h with ⟨t, x, rfl⟩ | h
        · exact List.append_nil _
        · cases a' with
          | sleep t x => exact absurd rfl (h t x)
          | _ => cases a <;> exact List.append_nil _
      generalize hx : call cfg (Sys.new now listed) sched i (n + 1) = x at hcs
      cases hcs with
      | stay h1 h2 =>
        refine ⟨a, rfl, ?_⟩
        rw [quiet h1]
        have : slept cfg (Sys.new now listed) sched i (n + 1) = slept cfg (Sys.new now listed) sched i n := by
          refine nonap a hx ?_
          cases a with
          | sleep t x => exact .inl ⟨t, x, rfl⟩
          | _ => exact .inr (fun _ _ h => nomatch h)
        rw [this]
        exact hw
      | @ask a' q h1 h2 h3 h4 h5 =>
        refine ⟨a', rfl, ?_⟩
        rw [quiet h1, nonap a' hx (.inr (fun t x h => by rw [h] at h4; exact nomatch h4))]
        exact ask_writes cfg h4 (writes_ask cfg h3 hw)
      | @woken t a' h1 h2 h3 h4 =>
        refine ⟨a', rfl, ?_⟩
        rcases h4 with ⟨rfl, rfl⟩ | ⟨q, rfl, rfl⟩
        · rw [quiet h1, nonap _ hx (.inl ⟨_, _, rfl⟩)]
          exact ⟨rfl, hw⟩
        · rw [quiet h1, nonap _ hx (.inl ⟨_, _, rfl⟩)]
          exact .inr ⟨congrArg some hw.1, hw.2⟩
      | @gone a' h1 h2 =>
        refine ⟨a', rfl, ?_⟩
        rcases h2 with ⟨rfl, _⟩ | ⟨rfl, _⟩ <;> trivial
      | @answered q r h1 h2 h3 =>
        refine ⟨_, rfl, ?_⟩
        have hh : heard cfg (Sys.new now listed) sched i (n + 1) =
            heard cfg (Sys.new now listed) sched i n ++ [r] := by
          simp only [heard, h1, if_true]
        have hs : slept cfg (Sys.new now listed) sched i (n + 1) = slept cfg (Sys.new now listed) sched i n ++
            nap (state cfg (Sys.new now listed) sched n).now
              (answer cfg (state cfg (Sys.new now listed) sched n).now q r) := by
          simp only [slept, ha, hx]
          generalize answer cfg (state cfg (Sys.new now listed) sched n).now q r = b
          cases a with
          | sleep t x => exact nomatch h3
          | _ => cases b <;> rfl
        rw [hh, hs]
        exact writes_answer cfg _ (writes_ask cfg h3 hw)

/-- What each writer does with its answers among all the others: it goes on with its write exactly when an answer is
below the stop limits. It slept the stop delay once for every answer before, and the slowdown delay once if the last
answer was at a slowdown limit. -/
theorem each_writer_waits_as_told (m n : Nat) (hm : sched m = .enter false) (hn : m < n) :
    ∃ a, call cfg (Sys.new now listed) sched (state cfg (Sys.new now listed) sched m).calls.length n = some a ∧
      ∀ b, a = .done b → b = true ∧ ∃ pre r,
        heard cfg (Sys.new now listed) sched (state cfg (Sys.new now listed) sched m).calls.length n = pre ++ [r] ∧
        (∀ p ∈ pre, AtStop cfg p) ∧ ¬ AtStop cfg r ∧
        slept cfg (Sys.new now listed) sched (state cfg (Sys.new now listed) sched m).calls.length n =
          List.replicate pre.length cfg.stopDelay ++ (open Classical in if AtSlow cfg r then [cfg.slowDelay] else []) := by
  obtain ⟨a, h1, h2⟩ := writes_state cfg now listed sched m hm _ rfl n hn
  refine ⟨a, h1, ?_⟩
  rintro b rfl
  obtain ⟨hb, pre, r, h3, h4, h5, h6⟩ := h2
  refine ⟨hb, pre, r, h3, h4, h5, ?_⟩
  rcases h6 with ⟨h, h'⟩ | ⟨h, h'⟩
  · rw [if_pos h]; exact h'
  · rw [if_neg h, List.append_nil]; exact h'

/-! ## The counters -/

theorem hear_slow (s : Sys) (i : Nat) (q : Query) (r : L0Stats) :
    (CountsSlow cfg q r → (s.hear cfg i q r).slow = bump s.slow) ∧
    (¬ CountsSlow cfg q r → (s.hear cfg i q r).slow = s.slow) := by
  by_cases h1 : AtStop cfg r
  · refine ⟨fun h => absurd h1 h.2.1, fun _ => ?_⟩
    cases q <;> simp only [Sys.hear, decision_stall cfg r h1, Sys.stalled]
  · by_cases h2 : AtSlow cfg r
    · cases q with
      | flush =>
        exact ⟨fun h => absurd rfl h.1, fun _ => by simp only [Sys.hear, decision_slow cfg r h1 h2]⟩
      | first =>
        exact ⟨fun _ => by simp only [Sys.hear, decision_slow cfg r h1 h2, Sys.slowed],
          fun h => absurd ⟨fun h => (nomatch h), h1, h2⟩ h⟩
      | again d =>
        exact ⟨fun _ => by simp only [Sys.hear, decision_slow cfg r h1 h2, Sys.slowed],
          fun h => absurd ⟨fun h => (nomatch h), h1, h2⟩ h⟩
    · refine ⟨fun h => absurd h.2.2 h2, fun _ => ?_⟩
      cases q <;> simp only [Sys.hear, decision_proceed cfg r h1 h2]

theorem hear_stall (s : Sys) (i : Nat) (q : Query) (r : L0Stats) :
    (CountsStall cfg q r → (s.hear cfg i q r).stall = bump s.stall) ∧
    (¬ CountsStall cfg q r → (s.hear cfg i q r).stall = s.stall) := by
  by_cases h1 : AtStop cfg r
  · cases q with
    | flush =>
      exact ⟨fun h => absurd rfl h.1, fun _ => by simp only [Sys.hear, decision_stall cfg r h1]⟩
    | first =>
      exact ⟨fun _ => by simp only [Sys.hear, decision_stall cfg r h1, Sys.stalled],
        fun h => absurd ⟨fun h => (nomatch h), h1⟩ h⟩
    | again d =>
      exact ⟨fun _ => by simp only [Sys.hear, decision_stall cfg r h1, Sys.stalled],
        fun h => absurd ⟨fun h => (nomatch h), h1⟩ h⟩
  · refine ⟨fun h => absurd h.2 h1, fun _ => ?_⟩
    by_cases h2 : AtSlow cfg r
    · cases q <;> simp only [Sys.hear, decision_slow cfg r h1 h2, Sys.slowed]
    · cases q <;> simp only [Sys.hear, decision_proceed cfg r h1 h2]

theorem hear_kicks (s : Sys) (i : Nat) (q : Query) (r : L0Stats) :
    (CountsKick cfg q r → (s.hear cfg i q r).kicks = s.kicks + 1) ∧
    (¬ CountsKick cfg q r → (s.hear cfg i q r).kicks = s.kicks) := by
  by_cases h1 : AtStop cfg r
  · cases q with
    | flush =>
      exact ⟨fun _ => by simp only [Sys.hear, decision_stall cfg r h1], fun h => absurd (.inr ⟨rfl, h1⟩) h⟩
    | first =>
      exact ⟨fun _ => by simp only [Sys.hear, decision_stall cfg r h1, Sys.stalled],
        fun h => absurd (.inl ⟨rfl, .inl h1⟩) h⟩
    | again d =>
      refine ⟨fun h => ?_, fun _ => by simp only [Sys.hear, decision_stall cfg r h1, Sys.stalled]⟩
      rcases h with ⟨h, _⟩ | ⟨h, _⟩ <;> exact nomatch h
  · by_cases h2 : AtSlow cfg r
    · cases q with
      | flush =>
        refine ⟨fun h => ?_, fun _ => by simp only [Sys.hear, decision_slow cfg r h1 h2]⟩
        rcases h with ⟨h, _⟩ | ⟨_, h⟩
        · exact nomatch h
        · exact absurd h h1
      | first =>
        exact ⟨fun _ => by simp only [Sys.hear, decision_slow cfg r h1 h2, Sys.slowed],
          fun h => absurd (.inl ⟨rfl, .inr h2⟩) h⟩
      | again d =>
        refine ⟨fun h => ?_, fun _ => by simp only [Sys.hear, decision_slow cfg r h1 h2, Sys.slowed]⟩
        rcases h with ⟨h, _⟩ | ⟨h, _⟩ <;> exact nomatch h
    · refine ⟨fun h => ?_, fun _ => ?_⟩
      · rcases h with ⟨_, h | h⟩ | ⟨_, h⟩
        · exact absurd h h1
        · exact absurd h h2
        · exact absurd h h1
      · cases q <;> simp only [Sys.hear, decision_proceed cfg r h1 h2]

/-- What a step does to the counters. -/
theorem step_counts (s : Sys) (op : Op) :
    (told cfg s op = none ∧ (step cfg s op).slow = s.slow ∧ (step cfg s op).stall = s.stall ∧
      (step cfg s op).kicks = s.kicks) ∨
    ∃ (i : Nat) (q : Query) (r : L0Stats) (s' : Sys), told cfg s op = some (i, q, r) ∧ step cfg s op = s'.hear cfg i q r ∧ s'.slow = s.slow ∧
      s'.stall = s.stall ∧ s'.kicks = s.kicks := by
  cases op with
  | enter f => exact .inl ⟨rfl, rfl, rfl, rfl⟩
  | tick d => exact .inl ⟨rfl, rfl, rfl, rfl⟩
  | publish r => exact .inl ⟨rfl, rfl, rfl, rfl⟩
  | fail i => left; simp only [step]; split <;> exact ⟨rfl, rfl, rfl, rfl⟩
  | drop i => left; simp only [step]; split <;> exact ⟨rfl, rfl, rfl, rfl⟩
  | go i =>
    cases h : s.calls[i]? with
    | none => simp only [step, told, h]; exact .inl ⟨trivial, trivial, trivial, trivial⟩
    | some a =>
      cases a with
      | look q t =>
        simp only [step, told, h, Sys.go]
        by_cases h1 : (!q.force && s.cache.fresh t (interval cfg)) = true
        · rw [if_pos h1]
          exact .inr ⟨i, q, _, s, if_pos (by rw [h1]; rfl), rfl, rfl, rfl, rfl⟩
        · rw [if_neg h1]
          by_cases h2 : s.busy = true
          · rw [if_pos h2]
            exact .inr ⟨i, q, _, s, if_pos (by rw [h2]; exact Bool.or_true _), rfl, rfl, rfl, rfl⟩
          · rw [if_neg h2]
            refine .inl ⟨if_neg ?_, rfl, rfl, rfl⟩
            rw [Bool.or_eq_true]
            exact fun h => h.elim h1 h2
      | claim q t =>
        simp only [step, told, h, Sys.go]
        by_cases h2 : s.busy = true
        · rw [if_pos h2]; exact .inl ⟨trivial, rfl, rfl, rfl⟩
        · rw [if_neg h2]; exact .inl ⟨trivial, rfl, rfl, rfl⟩
      | lost q =>
        simp only [step, told, h, Sys.go]
        exact .inr ⟨i, q, _, s, rfl, rfl, rfl, rfl, rfl⟩
      | release q t r =>
        simp only [step, told, h, Sys.go]
        exact .inr ⟨i, q, r, { s with busy := false }, rfl, rfl, rfl, rfl, rfl⟩
      | sleep t x =>
        simp only [step, told, h, Sys.go]
        by_cases hl : t ≤ s.now
        · rw [if_pos hl]; cases x <;> exact .inl ⟨trivial, rfl, rfl, rfl⟩
        · rw [if_neg hl]; exact .inl ⟨trivial, rfl, rfl, rfl⟩
      | _ => simp only [step, told, h, Sys.go]; exact .inl ⟨trivial, trivial, trivial, trivial⟩

open Classical in
theorem bump_count (P : Query → L0Stats → Prop) (n : Nat) (i : Nat) (q : Query) (r : L0Stats) (x y : Nat)
    (ht : told cfg (state cfg (Sys.new now listed) sched n) (sched n) = some (i, q, r))
    (hx : x = min (count cfg (Sys.new now listed) sched P n) most)
    (h : (P q r → y = bump x) ∧ (¬ P q r → y = x)) : y = min (count cfg (Sys.new now listed) sched P (n + 1)) most := by
  simp only [count, ht]
  by_cases hp : P q r
  · rw [if_pos hp, h.1 hp, hx]; simp only [bump]; omega
  · rw [if_neg hp, h.2 hp, hx]; rfl

/-- The counters of back pressure say how many answers slowed a writer down and how many stopped one (each stop is
counted again for every delay slept); the worker is asked for a compaction once for every write that had to wait and
once for every flush that was put off. -/
theorem counters_are_exact (n : Nat) :
    (state cfg (Sys.new now listed) sched n).slow =
      min (count cfg (Sys.new now listed) sched (CountsSlow cfg) n) (2 ^ 64 - 1) ∧
    (state cfg (Sys.new now listed) sched n).stall =
      min (count cfg (Sys.new now listed) sched (CountsStall cfg) n) (2 ^ 64 - 1) ∧
    (state cfg (Sys.new now listed) sched n).kicks = count cfg (Sys.new now listed) sched (CountsKick cfg) n := by
  induction n with
  | zero => exact ⟨rfl, rfl, rfl⟩
  | succ n ih =>
    obtain ⟨h1, h2, h3⟩ := ih
    have e : state cfg (Sys.new now listed) sched (n + 1) =
      step cfg (state cfg (Sys.new now listed) sched n) (sched n) := rfl
    rw [e]
    rcases step_counts cfg (state cfg (Sys.new now listed) sched n) (sched n) with
      ⟨g, g1, g2, g3⟩ | ⟨i, q, r, s', g, g0, g1, g2, g3⟩
    · refine ⟨?_, ?_, ?_⟩
      · rw [g1, h1]; simp only [count, g]; rfl
      · rw [g2, h2]; simp only [count, g]; rfl
      · rw [g3, h3]; simp only [count, g]; rfl
    · rw [g0]
      refine ⟨bump_count cfg now listed sched _ n i q r _ _ g h1 ?_, bump_count cfg now listed sched _ n i q r _ _ g h2 ?_,
        ?_⟩
      · rw [← g1]; exact hear_slow cfg s' i q r
      · rw [← g2]; exact hear_stall cfg s' i q r
      · simp only [count, g]
        by_cases hp : CountsKick cfg q r
        · rw [(hear_kicks cfg s' i q r).1 hp, if_pos hp, g3, h3]
        · rw [(hear_kicks cfg s' i q r).2 hp, if_neg hp, g3, h3]; rfl

end

/-! ## What does not hold -/

/-- A schedule that goes on with nothing. -/
def then_ (ops : List Op) (n : Nat) : Op := ops.getD n (.tick 0)

theorem empty_level (c : Config) (h : LimitsOk c) : ¬ AtStop c ⟨0, some 0⟩ ∧ ¬ AtSlow c ⟨0, some 0⟩ := by
  obtain ⟨h1, h2, h3, h4, _⟩ := h
  refine ⟨?_, ?_⟩
  · rintro (h | ⟨l, t, h, h', h''⟩)
    · simp only at h; omega
    · have := h4 l h; obtain rfl := Option.some.inj h'; omega
  · rintro (h | ⟨l, t, h, h', h''⟩)
    · simp only at h; omega
    · have := h3 l h; obtain rfl := Option.some.inj h'; omega

/-- For every configuration the builder makes, and whatever the manifest lists, however far above the stop limits: of
two writers that come first after the database is opened, the second is told that level zero is empty and goes on at
once, while the first reads the manifest. -/
theorem a_second_writer_is_let_through (slow stop : Nat) (cs : List Call) (now : Nat) (listed : L0Stats) :
    let cfg := (Config.new slow stop).apply cs
    let sched := then_ [.enter false, .enter false, .go 0, .go 0, .go 0, .go 1, .go 1]
    call cfg (Sys.new now listed) sched 1 7 = some (.done true) ∧
      heard cfg (Sys.new now listed) sched 1 7 = [⟨0, some 0⟩] ∧ slept cfg (Sys.new now listed) sched 1 7 = [] ∧
      ∀ n, n ≤ 7 → (state cfg (Sys.new now listed) sched n).listed = listed := by
  intro cfg sched
  have hd : cfg.decision ⟨0, some 0⟩ = .proceed :=
    decision_proceed cfg _ (empty_level _ (stop_is_above_slowdown slow stop cs).1).1
      (empty_level _ (stop_is_above_slowdown slow stop cs).1).2
  have e5 : state cfg (Sys.new now listed) sched 5 =
      ⟨now, listed, Cache.new now, true, [.reading .first now, .start .first], 0, 0, 0⟩ := rfl
  have e6 : state cfg (Sys.new now listed) sched 6 =
      ⟨now, listed, Cache.new now, true, [.reading .first now, .look .first now], 0, 0, 0⟩ := rfl
  have e7 : state cfg (Sys.new now listed) sched 7 =
      ⟨now, listed, Cache.new now, true, [.reading .first now, .done true], 0, 0, 0⟩ := by
    have : state cfg (Sys.new now listed) sched 7 = step cfg (state cfg (Sys.new now listed) sched 6) (.go 1) := rfl
    rw [this, e6]
    have h : step cfg ⟨now, listed, Cache.new now, true, [.reading .first now, .look .first now], 0, 0, 0⟩ (.go 1) =
      (⟨now, listed, Cache.new now, true, [.reading .first now, .look .first now], 0, 0, 0⟩ : Sys).hear cfg 1 .first
        ⟨0, some 0⟩ := rfl
    rw [h]
    simp only [Sys.hear, hd]
    rfl
  refine ⟨?_, ?_, ?_, ?_⟩
  · simp only [call, e7]; rfl
  · rfl
  · have h6 : slept cfg (Sys.new now listed) sched 1 6 = [] := rfl
    simp only [slept] at h6 ⊢
    rw [h6]
    have c6 : call cfg (Sys.new now listed) sched 1 6 = some (.look .first now) := rfl
    have c7 : call cfg (Sys.new now listed) sched 1 7 = some (.done true) := by simp only [call, e7]; rfl
    rw [c6, c7]
    rfl
  · intro n hn
    match n, hn with
    | 0, _ => rfl
    | 1, _ => rfl
    | 2, _ => rfl
    | 3, _ => rfl
    | 4, _ => rfl
    | 5, _ => rfl
    | 6, _ => rfl
    | 7, _ => rw [e7]

/-- An answer given because another call was reading can be of any age: level zero has been above the stop limit for
`d`, as long as one likes, and the third writer is told what was listed before and goes on. -/
theorem old_answers_are_given (d : Nat) (hd : 200000000 ≤ d) :
    let sched := then_ [.enter false, .go 0, .go 0, .go 0, .go 0, .go 0, .go 0, .publish ⟨40, none⟩, .tick d,
      .enter false, .enter false, .go 1, .go 1, .go 1, .go 2, .go 2]
    told Config.default (state Config.default (Sys.new 0 ⟨1, some 1⟩) sched 15) (sched 15) =
        some (2, .first, ⟨1, some 1⟩) ∧
      call Config.default (Sys.new 0 ⟨1, some 1⟩) sched 2 16 = some (.done true) ∧
      (∀ n, 8 ≤ n → n ≤ 15 → (state Config.default (Sys.new 0 ⟨1, some 1⟩) sched n).listed = ⟨40, none⟩) ∧
      (state Config.default (Sys.new 0 ⟨1, some 1⟩) sched 8).now + d =
        (state Config.default (Sys.new 0 ⟨1, some 1⟩) sched 15).now := by
  intro sched
  have e4 : state Config.default (Sys.new 0 ⟨1, some 1⟩) sched 4 =
      ⟨0, ⟨1, some 1⟩, ⟨⟨0, some 0⟩, 0, false⟩, true, [.reading .first 0], 0, 0, 0⟩ := rfl
  have e8 : state Config.default (Sys.new 0 ⟨1, some 1⟩) sched 8 =
      ⟨0, ⟨40, none⟩, ⟨⟨1, some 1⟩, 0, true⟩, false, [.done true], 0, 0, 0⟩ := by
    have : state Config.default (Sys.new 0 ⟨1, some 1⟩) sched 8 =
        step Config.default (step Config.default (step Config.default (step Config.default
          (state Config.default (Sys.new 0 ⟨1, some 1⟩) sched 4) (.go 0)) (.go 0)) (.go 0)) (.publish ⟨40, none⟩) := rfl
    rw [this, e4]
    rfl
  have e9 : state Config.default (Sys.new 0 ⟨1, some 1⟩) sched 9 =
      ⟨0 + d, ⟨40, none⟩, ⟨⟨1, some 1⟩, 0, true⟩, false, [.done true], 0, 0, 0⟩ := by
    have : state Config.default (Sys.new 0 ⟨1, some 1⟩) sched 9 =
        step Config.default (state Config.default (Sys.new 0 ⟨1, some 1⟩) sched 8) (.tick d) := rfl
    rw [this, e8]
    rfl
  have e12 : state Config.default (Sys.new 0 ⟨1, some 1⟩) sched 12 =
      ⟨0 + d, ⟨40, none⟩, ⟨⟨1, some 1⟩, 0, true⟩, false, [.done true, .look .first (0 + d), .start .first], 0, 0, 0⟩ := by
    have : state Config.default (Sys.new 0 ⟨1, some 1⟩) sched 12 =
        step Config.default (step Config.default (step Config.default
          (state Config.default (Sys.new 0 ⟨1, some 1⟩) sched 9) (.enter false)) (.enter false)) (.go 1) := rfl
    rw [this, e9]
    rfl
  have stale : (!(Query.first).force && (⟨⟨1, some 1⟩, 0, true⟩ : Cache).fresh (0 + d) (interval Config.default)) =
      false := by
    have h : ¬ (0 + d - 0 < max Config.default.stopDelay 1000000) := by simp only [Config.default]; omega
    show (true && (true && decide (0 + d - 0 < max Config.default.stopDelay 1000000))) = false
    rw [decide_eq_false h]
    rfl
  have e13 : state Config.default (Sys.new 0 ⟨1, some 1⟩) sched 13 =
      ⟨0 + d, ⟨40, none⟩, ⟨⟨1, some 1⟩, 0, true⟩, false, [.done true, .claim .first (0 + d), .start .first], 0, 0, 0⟩ := by
    have : state Config.default (Sys.new 0 ⟨1, some 1⟩) sched 13 =
        step Config.default (state Config.default (Sys.new 0 ⟨1, some 1⟩) sched 12) (.go 1) := rfl
    rw [this, e12]
    simp only [step, List.getElem?_cons_succ, List.getElem?_cons_zero, Sys.go]
    rw [stale]
    rfl
  have e14 : state Config.default (Sys.new 0 ⟨1, some 1⟩) sched 14 =
      ⟨0 + d, ⟨40, none⟩, ⟨⟨1, some 1⟩, 0, true⟩, true, [.done true, .reading .first (0 + d), .start .first], 0, 0, 0⟩ := by
    have : state Config.default (Sys.new 0 ⟨1, some 1⟩) sched 14 =
        step Config.default (state Config.default (Sys.new 0 ⟨1, some 1⟩) sched 13) (.go 1) := rfl
    rw [this, e13]
    rfl
  have e15 : state Config.default (Sys.new 0 ⟨1, some 1⟩) sched 15 =
      ⟨0 + d, ⟨40, none⟩, ⟨⟨1, some 1⟩, 0, true⟩, true,
        [.done true, .reading .first (0 + d), .look .first (0 + d)], 0, 0, 0⟩ := by
    have : state Config.default (Sys.new 0 ⟨1, some 1⟩) sched 15 =
        step Config.default (state Config.default (Sys.new 0 ⟨1, some 1⟩) sched 14) (.go 2) := rfl
    rw [this, e14]
    rfl
  refine ⟨?_, ?_, ?_, ?_⟩
  · rw [e15]
    show told Config.default _ (.go 2) = _
    simp only [told, List.getElem?_cons_succ, List.getElem?_cons_zero]
    rw [stale]
    rfl
  · have : state Config.default (Sys.new 0 ⟨1, some 1⟩) sched 16 =
        step Config.default (state Config.default (Sys.new 0 ⟨1, some 1⟩) sched 15) (.go 2) := rfl
    simp only [call]
    rw [this, e15]
    simp only [step, List.getElem?_cons_succ, List.getElem?_cons_zero, Sys.go]
    rw [stale]
    rfl
  · intro n h1 h2
    match n, h1, h2 with
    | 8, _, _ => rw [e8]
    | 9, _, _ => rw [e9]
    | 10, _, _ => exact congrArg (fun s => (step Config.default s (.enter false)).listed) e9
    | 11, _, _ =>
      exact congrArg (fun s => (step Config.default (step Config.default s (.enter false)) (.enter false)).listed) e9
    | 12, _, _ => rw [e12]
    | 13, _, _ => rw [e13]
    | 14, _, _ => rw [e14]
    | 15, _, _ => rw [e15]
  · rw [e15, e8]

/-- Only plain ingests wait: ingests with deletions and commits of transactions do not ask for the statistics before
they write, so what back pressure answers makes no difference to them. -/
theorem deletions_and_transactions_do_not_wait {A K R : Type} [LinearOrder K] (c : Model.WriteCall.Ctx A K R)
    (s : Model.WriteCall.St A K R) (e : Model.WriteCall.Env) (b : Bool) :
    (∀ schema rows flags, Model.WriteCall.exec c s (.ingestT schema rows flags) { e with back := b } =
      Model.WriteCall.exec c s (.ingestT schema rows flags) e) ∧
    (∀ fast conflict encodes rows keys,
      Model.WriteCall.exec c s (.commit fast conflict encodes rows keys) { e with back := b } =
        Model.WriteCall.exec c s (.commit fast conflict encodes rows keys) e) ∧
    ∀ rows, (Model.WriteCall.exec c s (.ingest true rows) { e with back := false }).1 = .refused :=
  ⟨fun _ _ _ => rfl, fun _ _ _ _ _ => rfl, fun _ => rfl⟩

/-! ## A run -/

/-- One writer finds three files where two are the limit, sleeps, and is let go after level zero was emptied; a flush
comes in between and is put off. -/
def aRun : Nat → Op := then_ [.enter false, .go 0, .go 0, .go 0, .go 0, .go 0, .go 0, .enter true, .go 1, .go 1,
  .publish ⟨0, some 0⟩, .tick 200000000, .go 0, .go 0, .go 0, .go 0, .go 0, .go 0, .go 0]

/-- The limits of the run. -/
def two : Config := Config.new 1 2

theorem aRun_listed : ∀ m, 11 ≤ m → (state two (Sys.new 5 ⟨3, none⟩) aRun m).listed = ⟨0, some 0⟩ := by
  intro m
  induction m with
  | zero => intro h; omega
  | succ m ih =>
    intro h
    match m, h, ih with
    | 10, _, _ => rfl
    | 11, _, _ => rfl
    | 12, _, _ => rfl
    | 13, _, _ => rfl
    | 14, _, _ => rfl
    | 15, _, _ => rfl
    | 16, _, _ => rfl
    | 17, _, _ => rfl
    | 18, _, _ => rfl
    | m + 19, _, ih =>
      have e : state two (Sys.new 5 ⟨3, none⟩) aRun (m + 19 + 1) =
          step two (state two (Sys.new 5 ⟨3, none⟩) aRun (m + 19)) (.tick 0) := by
        have : aRun (m + 19) = .tick 0 := by
          simp [aRun, then_]
        simp only [state, this]
      rw [e]
      exact ih (by omega)

/-- The hypotheses of the theorems are met: the call reads the manifest in step 16, notes it in step 17 and is told in
step 18; from step 11 on the manifest lists nothing. -/
example : Refresh two (Sys.new 5 ⟨3, none⟩) aRun 0 16 17 ∧
    (∀ m, 16 ≤ m → ¬ AtStop two (state two (Sys.new 5 ⟨3, none⟩) aRun m).listed) ∧
    told two (state two (Sys.new 5 ⟨3, none⟩) aRun 18) (aRun 18) = some (0, .again 200000000, ⟨0, some 0⟩) ∧
    told two (state two (Sys.new 5 ⟨3, none⟩) aRun 9) (aRun 9) = some (1, .flush, ⟨3, none⟩) ∧
    ¬ Met two (state two (Sys.new 5 ⟨3, none⟩) aRun 9) 1 ∧
    call two (Sys.new 5 ⟨3, none⟩) aRun 1 10 = some (.done false) ∧
    call two (Sys.new 5 ⟨3, none⟩) aRun 0 19 = some (.done true) ∧
    heard two (Sys.new 5 ⟨3, none⟩) aRun 0 19 = [⟨3, none⟩, ⟨0, some 0⟩] ∧
    slept two (Sys.new 5 ⟨3, none⟩) aRun 0 19 = [200000000] ∧ own aRun 0 13 6 = 6 ∧
    (state two (Sys.new 5 ⟨3, none⟩) aRun 19).stall = 1 ∧ (state two (Sys.new 5 ⟨3, none⟩) aRun 19).slow = 0 ∧
    (state two (Sys.new 5 ⟨3, none⟩) aRun 19).kicks = 2 := by
  refine ⟨⟨by decide, rfl, rfl, ⟨_, _, rfl⟩, ?_⟩, ?_, rfl, rfl, ?_, rfl, rfl, rfl, rfl, rfl, rfl, rfl, rfl⟩
  · intro m h1 h2
    obtain rfl : m = 17 := by omega
    exact ⟨_, _, _, rfl⟩
  · intro m hm
    rw [aRun_listed m (by omega)]
    exact (empty_level two (stop_is_above_slowdown 1 2 []).1).1
  · rintro (⟨q, t, h, h'⟩ | ⟨q, h⟩)
    · cases h; revert h'; decide
    · cases h

/-- A call that is dropped while it reads the manifest leaves no mark behind. -/
example : (state two (Sys.new 5 ⟨3, none⟩) (then_ [.enter false, .go 0, .go 0, .go 0]) 4).busy = true ∧
    (state two (Sys.new 5 ⟨3, none⟩) (then_ [.enter false, .go 0, .go 0, .go 0, .drop 0]) 5).busy = false ∧
    (state two (Sys.new 5 ⟨3, none⟩) (then_ [.enter false, .go 0, .go 0, .go 0, .fail 0]) 5).busy = false := ⟨rfl, rfl, rfl⟩

/-- A writer in the slowdown band sleeps the slowdown delay once. -/
example : slept two (Sys.new 5 ⟨1, none⟩) (then_ [.enter false, .go 0, .go 0, .go 0, .go 0, .go 0, .go 0]) 0 7 =
      [25000000] ∧
    call two (Sys.new 5 ⟨1, none⟩) (then_ [.enter false, .go 0, .go 0, .go 0, .go 0, .go 0, .go 0, .go 0]) 0 8 =
      some (.sleep 25000005 none) ∧
    (state two (Sys.new 5 ⟨1, none⟩) (then_ [.enter false, .go 0, .go 0, .go 0, .go 0, .go 0, .go 0]) 7).slow = 1 := ⟨rfl, rfl, rfl⟩

end Tonbo.Props.C82
