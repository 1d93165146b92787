import Mathlib.Tactic.ByContra
import Verif.Spec.ThrottleView

/-!
# Steps of callers under back pressure
-/

namespace Tonbo.Lemmas.Throttle
open Tonbo.Model.Policy Tonbo.Model.Throttle Tonbo.Spec.Throttle

/-- What a call becomes with its answer. -/
def answer (cfg : Config) (now : Nat) : Query → L0Stats → At
  | .first, r =>
    match cfg.decision r with
    | .proceed => .done true
    | .slowdown d => .sleep (now + d) none
    | .stall d => .sleep (now + d) (some (.again d))
  | .again delay, r =>
    match cfg.decision r with
    | .stall _ => .sleep (now + delay) (some (.again delay))
    | .slowdown d => .sleep (now + d) none
    | .proceed => .done true
  | .flush, r =>
    match cfg.decision r with
    | .stall _ => .done false
    | _ => .done true

theorem answer_holds (cfg : Config) (now : Nat) (q : Query) (r : L0Stats) : (answer cfg now q r).holds = false := by
  cases q <;> simp only [answer] <;> cases cfg.decision r <;> rfl

theorem hear_eq (cfg : Config) (s : Sys) (i : Nat) (q : Query) (r : L0Stats) :
    (s.hear cfg i q r).now = s.now ∧ (s.hear cfg i q r).listed = s.listed ∧ (s.hear cfg i q r).cache = s.cache ∧
      (s.hear cfg i q r).busy = s.busy ∧ (s.hear cfg i q r).calls = s.calls.set i (answer cfg s.now q r) := by
  cases q <;> simp only [Sys.hear, answer, Sys.slowed, Sys.stalled] <;> cases cfg.decision r <;>
    exact ⟨rfl, rfl, rfl, rfl, rfl⟩

theorem get_set {l : List At} {i j : Nat} {a b : At} (h : (l.set i a)[j]? = some b) :
    (j = i ∧ b = a) ∨ (j ≠ i ∧ l[j]? = some b) := by
  by_cases e : i = j
  · subst e
    rw [List.getElem?_set_self'] at h
    cases h' : l[i]? with
    | none => rw [h'] at h; exact nomatch h
    | some c => rw [h'] at h; exact .inl ⟨rfl, (Option.some.inj h).symm⟩
  · rw [List.getElem?_set_ne e] at h
    exact .inr ⟨fun h => e h.symm, h⟩

theorem get_set_self {l : List At} {i : Nat} {a b : At} (h : l[i]? = some b) : (l.set i a)[i]? = some a := by
  rw [List.getElem?_set_self', h]; rfl

theorem get_set_ne {l : List At} {i j : Nat} {a : At} (h : j ≠ i) : (l.set i a)[j]? = l[j]? :=
  List.getElem?_set_ne (fun e => h e.symm)

/-- How a step changes the calls and what they share. -/
inductive Change (cfg : Config) (s : Sys) : Op → Sys → Prop
  | same {op s'} : s'.now = s.now → s'.listed = s.listed → s'.cache = s.cache → s'.busy = s.busy →
      s'.calls = s.calls → told cfg s op = none → Change cfg s op s'
  | enter {f} {s' : Sys} : s'.now = s.now → s'.listed = s.listed → s'.cache = s.cache → s'.busy = s.busy →
      s'.calls = s.calls ++ [.start (if f then .flush else .first)] → Change cfg s (.enter f) s'
  | tick {d} {s' : Sys} : s'.now = s.now + d → s'.listed = s.listed → s'.cache = s.cache → s'.busy = s.busy →
      s'.calls = s.calls → Change cfg s (.tick d) s'
  | publish {r} {s' : Sys} : s'.now = s.now → s'.cache = s.cache → s'.busy = s.busy →
      s'.calls = s.calls → Change cfg s (.publish r) s'
  /-- a step of a call that tells it nothing and leaves the mark and the cache -/
  | move {op s' i} {a a' : At} : s'.now = s.now → s'.listed = s.listed → s'.cache = s.cache → s'.busy = s.busy →
      s.calls[i]? = some a → s'.calls = s.calls.set i a' → a.holds = a'.holds →
      told cfg s op = none → (∀ j, op ≠ .go j ∨ j = i) →
      ((∃ q, a = .start q ∧ a' = .look q s.now) ∨ (∃ q t, a = .look q t ∧ a' = .claim q t ∧ s.busy = false) ∨
        (∃ q t, a = .claim q t ∧ a' = .lost q) ∨ (∃ q t, a = .reading q t ∧ a' = .update q t s.listed ∧ op = .go i) ∨
        (∃ t, a = .sleep t none ∧ a' = .done true ∧ t ≤ s.now) ∨
        (∃ t q, a = .sleep t (some q) ∧ a' = .start q ∧ t ≤ s.now) ∨ (a' = .dropped ∧ op = .drop i)) →
      Change cfg s op s'
  | claim {s' i q t} : s'.now = s.now → s'.listed = s.listed → s'.cache = s.cache → s.busy = false → s'.busy = true →
      s.calls[i]? = some (.claim q t) → s'.calls = s.calls.set i (.reading q t) → Change cfg s (.go i) s'
  | update {s' i q t r} : s'.now = s.now → s'.listed = s.listed → s'.cache = ⟨r, t, true⟩ → s'.busy = s.busy →
      s.calls[i]? = some (.update q t r) → s'.calls = s.calls.set i (.release q t r) → Change cfg s (.go i) s'
  /-- a holder ends without an answer -/
  | quit {op s' i} {a a' : At} : s'.now = s.now → s'.listed = s.listed → s'.cache = s.cache → s'.busy = false →
      s.calls[i]? = some a → a.holds = true → s'.calls = s.calls.set i a' →
      ((a' = .failed ∧ op = .fail i) ∨ (a' = .dropped ∧ op = .drop i)) → Change cfg s op s'
  /-- a call is told the cached statistics -/
  | cached {s' i a q} : s'.now = s.now → s'.listed = s.listed → s'.cache = s.cache → s'.busy = s.busy →
      s.calls[i]? = some a → s'.calls = s.calls.set i (answer cfg s.now q s.cache.stats) →
      ((∃ t, a = .look q t) ∨ a = .lost q) → told cfg s (.go i) = some (i, q, s.cache.stats) → Change cfg s (.go i) s'
  /-- a call is told what it read -/
  | fresh {s' i q t r} : s'.now = s.now → s'.listed = s.listed → s'.cache = s.cache → s'.busy = false →
      s.calls[i]? = some (.release q t r) → s'.calls = s.calls.set i (answer cfg s.now q r) →
      told cfg s (.go i) = some (i, q, r) → Change cfg s (.go i) s'

theorem effect (cfg : Config) (s : Sys) (op : Op) (hm : ∀ (i : Nat) (a : At), s.calls[i]? = some a → a.holds = true → s.busy = true) :
    Change cfg s op (step cfg s op) := by
  cases op with
  | enter f => exact .enter rfl rfl rfl rfl rfl
  | tick d => exact .tick rfl rfl rfl rfl rfl
  | publish r => exact .publish rfl rfl rfl rfl
  | fail i =>
    cases h : s.calls[i]? with
    | none => exact .same (by simp [step, h]) (by simp [step, h]) (by simp [step, h]) (by simp [step, h]) (by simp [step, h]) rfl
    | some a =>
      cases a with
      | reading q t =>
        have e : step cfg s (.fail i) = { s with busy := false, calls := s.calls.set i .failed } := by simp [step, h]
        rw [e]
        exact .quit rfl rfl rfl rfl h rfl rfl (.inl ⟨rfl, rfl⟩)
      | _ => exact .same (by simp [step, h]) (by simp [step, h]) (by simp [step, h]) (by simp [step, h]) (by simp [step, h]) rfl
  | drop i =>
    cases h : s.calls[i]? with
    | none => exact .same (by simp [step, h]) (by simp [step, h]) (by simp [step, h]) (by simp [step, h]) (by simp [step, h]) rfl
    | some a =>
      have e : step cfg s (.drop i) = { s with busy := s.busy && !a.holds, calls := s.calls.set i .dropped } := by
        simp [step, h]
      rw [e]
      cases ha : a.holds with
      | true => exact .quit rfl rfl rfl (by simp) h ha rfl (.inr ⟨rfl, rfl⟩)
      | false =>
        exact .move rfl rfl rfl (by simp) h rfl (by rw [ha]; rfl) rfl (fun j => .inl (fun h => nomatch h))
          (.inr (.inr (.inr (.inr (.inr (.inr ⟨rfl, rfl⟩))))))
  | go i =>
    have hj : ∀ j, (Op.go i) ≠ .go j ∨ j = i := by
      intro j
      by_cases e : j = i
      · exact .inr e
      · exact .inl (fun h => e (Op.go.inj h).symm)
    cases h : s.calls[i]? with
    | none =>
      exact .same (by simp [step, h]) (by simp [step, h]) (by simp [step, h]) (by simp [step, h]) (by simp [step, h])
        (by simp [told, h])
    | some a =>
      have e : step cfg s (.go i) = s.go cfg i a := by simp [step, h]
      rw [e]
      cases a with
      | start q =>
        exact .move rfl rfl rfl rfl h rfl rfl (by simp [told, h]) hj (.inl ⟨q, rfl, rfl⟩)
      | look q t =>
        by_cases h1 : (!q.force && s.cache.fresh t (interval cfg)) = true
        · have e : s.go cfg i (.look q t) = s.hear cfg i q s.cache.stats := by simp only [Sys.go, h1, if_true]
          rw [e]
          obtain ⟨a1, a2, a3, a4, a5⟩ := hear_eq cfg s i q s.cache.stats
          exact .cached a1 a2 a3 a4 h a5 (.inl ⟨t, rfl⟩) (by simp only [told, h]; rw [if_pos]; rw [Bool.or_eq_true]; exact .inl h1)
        · by_cases h2 : s.busy = true
          · have e : s.go cfg i (.look q t) = s.hear cfg i q s.cache.stats := by
              simp only [Sys.go, h2, if_true, ite_self]
            rw [e]
            obtain ⟨a1, a2, a3, a4, a5⟩ := hear_eq cfg s i q s.cache.stats
            exact .cached a1 a2 a3 a4 h a5 (.inl ⟨t, rfl⟩) (by simp only [told, h]; rw [if_pos]; rw [Bool.or_eq_true]; exact .inr h2)
          · have e : s.go cfg i (.look q t) = { s with calls := s.calls.set i (.claim q t) } := by
              simp only [Sys.go]; rw [if_neg h1, if_neg h2]
            rw [e]
            have ht : told cfg s (.go i) = none := by
              simp only [told, h]
              rw [if_neg]
              rw [Bool.or_eq_true]
              exact fun h => h.elim h1 h2
            exact .move rfl rfl rfl rfl h rfl rfl ht hj
              (.inr (.inl ⟨q, t, rfl, rfl, by simpa using h2⟩))
      | claim q t =>
        by_cases h2 : s.busy = true
        · have e : s.go cfg i (.claim q t) = { s with calls := s.calls.set i (.lost q) } := by
            simp only [Sys.go, h2, if_true]
          rw [e]
          exact .move rfl rfl rfl rfl h rfl rfl (by simp [told, h]) hj (.inr (.inr (.inl ⟨q, t, rfl, rfl⟩)))
        · have e : s.go cfg i (.claim q t) = { s with busy := true, calls := s.calls.set i (.reading q t) } := by
            simp only [Sys.go]; rw [if_neg h2]
          rw [e]
          exact .claim rfl rfl rfl (by simpa using h2) rfl h rfl
      | lost q =>
        obtain ⟨a1, a2, a3, a4, a5⟩ := hear_eq cfg s i q s.cache.stats
        exact .cached a1 a2 a3 a4 h a5 (.inr rfl) (by simp [told, h])
      | reading q t =>
        exact .move rfl rfl rfl rfl h rfl rfl (by simp [told, h]) hj
          (.inr (.inr (.inr (.inl ⟨q, t, rfl, rfl, rfl⟩))))
      | update q t r => exact .update rfl rfl rfl rfl h rfl
      | release q t r =>
        obtain ⟨a1, a2, a3, a4, a5⟩ := hear_eq cfg { s with busy := false } i q r
        exact .fresh a1 a2 a3 a4 h a5 (by simp [told, h])
      | sleep till next =>
        by_cases h1 : till ≤ s.now
        · cases next with
          | none =>
            have e : s.go cfg i (.sleep till none) = { s with calls := s.calls.set i (.done true) } := by
              simp only [Sys.go]; rw [if_pos h1]
            rw [e]
            exact .move rfl rfl rfl rfl h rfl rfl (by simp [told, h]) hj
              (.inr (.inr (.inr (.inr (.inl ⟨till, rfl, rfl, h1⟩)))))
          | some q =>
            have e : s.go cfg i (.sleep till (some q)) = { s with calls := s.calls.set i (.start q) } := by
              simp only [Sys.go]; rw [if_pos h1]
            rw [e]
            exact .move rfl rfl rfl rfl h rfl rfl (by simp [told, h]) hj
              (.inr (.inr (.inr (.inr (.inr (.inl ⟨till, q, rfl, rfl, h1⟩))))))
        · have e : s.go cfg i (.sleep till next) = s := by simp only [Sys.go]; rw [if_neg h1]
          rw [e]
          exact .same rfl rfl rfl rfl rfl (by simp [told, h])
      | done b => exact .same rfl rfl rfl rfl rfl (by simp [told, h])
      | failed => exact .same rfl rfl rfl rfl rfl (by simp [told, h])
      | dropped => exact .same rfl rfl rfl rfl rfl (by simp [told, h])

/-- The mark is set exactly while one call holds it. -/
structure Marked (s : Sys) : Prop where
  some_ : s.busy = true → ∃ (i : Nat) (a : At), s.calls[i]? = some a ∧ a.holds = true
  busy : ∀ (i : Nat) (a : At), s.calls[i]? = some a → a.holds = true → s.busy = true
  one : ∀ (i j : Nat) (a b : At), s.calls[i]? = some a → s.calls[j]? = some b → a.holds = true → b.holds = true → i = j

theorem Marked.of_calls {s s' : Sys} (h : Marked s) (hb : s'.busy = s.busy) (hc : s'.calls = s.calls) : Marked s' :=
  ⟨by rw [hb, hc]; exact h.some_, by rw [hb, hc]; exact h.busy, by rw [hc]; exact h.one⟩

theorem marked_new (now : Nat) (r : L0Stats) : Marked (Sys.new now r) :=
  ⟨fun h => by simp [Sys.new] at h, fun i a h => by simp [Sys.new] at h, fun i j a b h => by simp [Sys.new] at h⟩

theorem marked_set_same {s s' : Sys} {i : Nat} {a a' : At} (h : Marked s) (hb : s'.busy = s.busy)
    (hi : s.calls[i]? = some a) (hc : s'.calls = s.calls.set i a') (hh : a.holds = a'.holds) : Marked s' := by
  refine ⟨?_, ?_, ?_⟩
  · intro hb'
    rw [hb] at hb'
    obtain ⟨j, b, hj, hbh⟩ := h.some_ hb'
    by_cases e : j = i
    · subst e
      rw [hi] at hj; obtain rfl := Option.some.inj hj
      exact ⟨j, a', by rw [hc]; exact get_set_self hi, hh ▸ hbh⟩
    · exact ⟨j, b, by rw [hc, get_set_ne e]; exact hj, hbh⟩
  · intro j b hj hbh
    rw [hb]
    rw [hc] at hj
    rcases get_set hj with ⟨rfl, rfl⟩ | ⟨_, hj⟩
    · exact h.busy j a hi (hh ▸ hbh)
    · exact h.busy j b hj hbh
  · intro j k b c hj hk hbh hch
    rw [hc] at hj hk
    rcases get_set hj with ⟨rfl, rfl⟩ | ⟨_, hj'⟩ <;> rcases get_set hk with ⟨rfl, rfl⟩ | ⟨_, hk'⟩
    · rfl
    · exact h.one _ _ _ _ hi hk' (hh ▸ hbh) hch
    · exact h.one _ _ _ _ hj' hi hbh (hh ▸ hch)
    · exact h.one _ _ _ _ hj' hk' hbh hch

/-- The holder gives the mark back. -/
theorem marked_quit {s s' : Sys} {i : Nat} {a a' : At} (h : Marked s) (hb : s'.busy = false)
    (hi : s.calls[i]? = some a) (ha : a.holds = true) (hc : s'.calls = s.calls.set i a') (hh : a'.holds = false) :
    Marked s' := by
  have key : ∀ (j : Nat) (b : At), s'.calls[j]? = some b → b.holds = false := by
    intro j b hj
    rw [hc] at hj
    rcases get_set hj with ⟨rfl, rfl⟩ | ⟨hne, hj⟩
    · exact hh
    · by_contra hn
      exact hne (h.one _ _ _ _ hj hi (by simpa using hn) ha)
  refine ⟨?_, ?_, ?_⟩
  · intro h'
    rw [hb] at h'
    exact nomatch h'
  · intro j b hj hbh
    rw [key j b hj] at hbh
    exact nomatch hbh
  · intro j k b c hj _ hbh _
    rw [key j b hj] at hbh
    exact nomatch hbh

theorem marked_step (cfg : Config) (s : Sys) (op : Op) (h : Marked s) : Marked (step cfg s op) := by
  cases effect cfg s op h.busy with
  | same _ _ _ hb hc _ => exact h.of_calls hb hc
  | tick _ _ _ hb hc => exact h.of_calls hb hc
  | publish _ _ hb hc => exact h.of_calls hb hc
  | @enter f _ _ _ _ hb hc =>
    generalize step cfg s (.enter f) = s' at *
    have key : ∀ (j : Nat) (b : At), s'.calls[j]? = some b → b.holds = true → s.calls[j]? = some b := by
      intro j b hj hh
      rw [hc, List.getElem?_append] at hj
      by_cases hl : j < s.calls.length
      · rw [if_pos hl] at hj; exact hj
      · rw [if_neg hl] at hj
        cases hx : j - s.calls.length with
        | zero => rw [hx] at hj; simp at hj; subst hj; exact nomatch hh
        | succ k => rw [hx] at hj; simp at hj
    refine ⟨?_, ?_, ?_⟩
    · intro hb'
      rw [hb] at hb'
      obtain ⟨j, b, hj, hbh⟩ := h.some_ hb'
      refine ⟨j, b, ?_, hbh⟩
      rw [hc, List.getElem?_append, if_pos]
      · exact hj
      · exact (List.getElem?_eq_some_iff.mp hj).1
    · intro j b hj hbh
      rw [hb]
      exact h.busy j b (key j b hj hbh) hbh
    · intro j k b c hj hk hbh hch
      exact h.one _ _ _ _ (key _ _ hj hbh) (key _ _ hk hch) hbh hch
  | move _ _ _ hb hi hc hh _ _ _ => exact marked_set_same h hb hi hc hh
  | @claim _ i q t _ _ _ hb hb' hi hc =>
    generalize step cfg s (.go i) = s' at *
    have none_ : ∀ (j : Nat) (b : At), s.calls[j]? = some b → b.holds = false := by
      intro j b hj
      by_contra hn
      have := h.busy j b hj (by simpa using hn)
      rw [hb] at this; exact nomatch this
    refine ⟨fun _ => ⟨i, _, by rw [hc]; exact get_set_self hi, rfl⟩, fun _ _ _ _ => hb', ?_⟩
    intro j k b c hj hk hbh hch
    rw [hc] at hj hk
    rcases get_set hj with ⟨rfl, rfl⟩ | ⟨_, hj'⟩ <;> rcases get_set hk with ⟨rfl, rfl⟩ | ⟨_, hk'⟩
    · rfl
    · rw [none_ _ _ hk'] at hch; exact nomatch hch
    · rw [none_ _ _ hj'] at hbh; exact nomatch hbh
    · rw [none_ _ _ hk'] at hch; exact nomatch hch
  | update _ _ _ hb hi hc => exact marked_set_same h hb hi hc rfl
  | quit _ _ _ hb hi ha hc he =>
    refine marked_quit h hb hi ha hc ?_
    rcases he with ⟨rfl, _⟩ | ⟨rfl, _⟩ <;> rfl
  | cached _ _ _ hb hi hc ha _ =>
    refine marked_set_same h hb hi hc ?_
    rw [answer_holds]
    rcases ha with ⟨t, rfl⟩ | rfl <;> rfl
  | fresh _ _ _ hb hi hc _ => exact marked_quit h hb hi rfl hc (answer_holds _ _ _ _)

theorem marked_state (cfg : Config) (now : Nat) (r : L0Stats) (sched : Nat → Op) :
    ∀ n, Marked (state cfg (Sys.new now r) sched n)
  | 0 => marked_new now r
  | n + 1 => marked_step cfg _ _ (marked_state cfg now r sched n)

/-! ## From when the statistics are -/

section
variable (cfg : Config) (s₀ : Sys) (sched : Nat → Op)

/-- The moment the cached statistics are from, and that of the last answer of the manifest. -/
def ghost : Nat → Nat × Nat
  | 0 => (0, 0)
  | n + 1 =>
    match sched n with
    | .go i =>
      match call cfg s₀ sched i n with
      | some (.reading _ _) => ((ghost n).1, n + 1)
      | some (.update _ _ _) => ((ghost n).2, (ghost n).2)
      | _ => ghost n
    | _ => ghost n

/-- What holds of a call: it asked in the past; what it read is from the moment it is said to be from. -/
def Fits (n : Nat) : At → Prop
  | .look _ t => t ≤ (state cfg s₀ sched n).now
  | .claim _ t => t ≤ (state cfg s₀ sched n).now
  | .reading _ t => t ≤ (state cfg s₀ sched n).now
  | .update _ t r => r = shown cfg s₀ sched (ghost cfg s₀ sched n).2 ∧
      (ghost cfg s₀ sched n).1 ≤ (ghost cfg s₀ sched n).2 ∧ (ghost cfg s₀ sched n).2 ≤ n ∧
      ∃ k, (ghost cfg s₀ sched n).2 = k + 1 ∧ t ≤ (state cfg s₀ sched k).now
  | .release _ t r => (state cfg s₀ sched n).cache.stats = r ∧
      ∃ k, (ghost cfg s₀ sched n).1 = k + 1 ∧ t ≤ (state cfg s₀ sched k).now
  | _ => True

/-- What holds before step `n`. -/
structure Inv (n : Nat) : Prop where
  cache : (state cfg s₀ sched n).cache.stats = shown cfg s₀ sched (ghost cfg s₀ sched n).1
  le : (ghost cfg s₀ sched n).1 ≤ n
  valid : (state cfg s₀ sched n).cache.valid = true →
    ∃ k, (ghost cfg s₀ sched n).1 = k + 1 ∧ (state cfg s₀ sched n).cache.at_ ≤ (state cfg s₀ sched k).now
  calls : ∀ i a, call cfg s₀ sched i n = some a → Fits cfg s₀ sched n a

end

theorem ghost_other {cfg : Config} {s₀ : Sys} {sched : Nat → Op} {n : Nat}
    (h : ∀ i, sched n = .go i → (∀ q t, call cfg s₀ sched i n ≠ some (.reading q t)) ∧
      ∀ q t r, call cfg s₀ sched i n ≠ some (.update q t r)) : ghost cfg s₀ sched (n + 1) = ghost cfg s₀ sched n := by
  cases e : sched n with
  | go i =>
    simp only [ghost, e]
    cases hc : call cfg s₀ sched i n with
    | none => rfl
    | some a =>
      cases a with
      | reading q t => exact absurd hc ((h i e).1 q t)
      | update q t r => exact absurd hc ((h i e).2 q t r)
      | _ => rfl
  | _ => simp only [ghost, e]

/-- The clock does not go back. -/
theorem now_le (cfg : Config) (s₀ : Sys) (sched : Nat → Op) (n : Nat) (h : Marked (state cfg s₀ sched n)) :
    (state cfg s₀ sched n).now ≤ (state cfg s₀ sched (n + 1)).now := by
  have e : state cfg s₀ sched (n + 1) = step cfg (state cfg s₀ sched n) (sched n) := rfl
  rw [e]
  generalize hop : sched n = op
  cases effect cfg (state cfg s₀ sched n) op h.busy <;> omega

/-- A call whose step is not told about does not change what holds of it, if ghost and cache stay. -/
theorem Fits.keep {cfg : Config} {s₀ : Sys} {sched : Nat → Op} {n : Nat} {a : At} (h : Fits cfg s₀ sched n a)
    (hg : ghost cfg s₀ sched (n + 1) = ghost cfg s₀ sched n)
    (hc : (state cfg s₀ sched (n + 1)).cache = (state cfg s₀ sched n).cache)
    (hn : (state cfg s₀ sched n).now ≤ (state cfg s₀ sched (n + 1)).now) : Fits cfg s₀ sched (n + 1) a := by
  cases a with
  | look q t => exact Nat.le_trans h hn
  | claim q t => exact Nat.le_trans h hn
  | reading q t => exact Nat.le_trans h hn
  | update q t r =>
    simp only [Fits, hg] at h ⊢
    exact ⟨h.1, h.2.1, Nat.le_succ_of_le h.2.2.1, h.2.2.2⟩
  | release q t r =>
    simp only [Fits, hg, hc] at h ⊢
    exact h
  | _ => trivial

theorem fits_of_not_held {cfg : Config} {s₀ : Sys} {sched : Nat → Op} {n m : Nat} {a : At}
    (h : Fits cfg s₀ sched n a) (ha : a.holds = false)
    (hn : (state cfg s₀ sched n).now ≤ (state cfg s₀ sched m).now) : Fits cfg s₀ sched m a := by
  cases a with
  | look q t => exact Nat.le_trans h hn
  | claim q t => exact Nat.le_trans h hn
  | reading q t => exact nomatch ha
  | update q t r => exact nomatch ha
  | release q t r => exact nomatch ha
  | _ => trivial

theorem answer_fits (cfg : Config) (s₀ : Sys) (sched : Nat → Op) (n now : Nat) (q : Query) (r : L0Stats) :
    Fits cfg s₀ sched n (answer cfg now q r) := by
  cases q <;> simp only [answer] <;> cases cfg.decision r <;> trivial

theorem inv_new (cfg : Config) (now : Nat) (r : L0Stats) (sched : Nat → Op) : Inv cfg (Sys.new now r) sched 0 :=
  ⟨rfl, Nat.le_refl 0, (fun h => nomatch h), fun i a h => by simp [call, state, Sys.new] at h⟩

theorem inv_step (cfg : Config) (s₀ : Sys) (sched : Nat → Op) (n : Nat) (hm : Marked (state cfg s₀ sched n))
    (h : Inv cfg s₀ sched n) : Inv cfg s₀ sched (n + 1) := by
  have hn := now_le cfg s₀ sched n hm
  have e : state cfg s₀ sched (n + 1) = step cfg (state cfg s₀ sched n) (sched n) := rfl
  -- a step that keeps cache and ghost
  have plain : (state cfg s₀ sched (n + 1)).cache = (state cfg s₀ sched n).cache →
      ghost cfg s₀ sched (n + 1) = ghost cfg s₀ sched n →
      (∀ i a, call cfg s₀ sched i (n + 1) = some a →
        call cfg s₀ sched i n = some a ∨ Fits cfg s₀ sched (n + 1) a) → Inv cfg s₀ sched (n + 1) := by
    intro hc hg hcalls
    refine ⟨?_, ?_, ?_, ?_⟩
    · rw [hc, hg]; exact h.cache
    · rw [hg]; exact Nat.le_succ_of_le h.le
    · rw [hc, hg]; exact h.valid
    · intro i a ha
      rcases hcalls i a ha with h' | h'
      · exact (h.calls i a h').keep hg hc hn
      · exact h'
  have hx := effect cfg (state cfg s₀ sched n) (sched n) hm.busy
  rw [← e] at hx
  generalize hop : sched n = op at hx
  cases hx with
  | same a1 a2 a3 a4 a5 a6 =>
    refine plain a3 ?_ ?_
    · refine ghost_other (fun i hi => ⟨?_, ?_⟩)
      · intro q t hc
        rw [hop] at hi; subst hi
        rw [e, hop] at a5
        have : call cfg s₀ sched i n = some (.reading q t) := hc
        simp only [call] at hc
        simp only [step, hc, Sys.go] at a5
        have := congrArg (fun l => l[i]?) a5
        simp only [get_set_self hc, hc] at this
        exact nomatch this
      · intro q t r hc
        rw [hop] at hi; subst hi
        rw [e, hop] at a5
        simp only [call] at hc
        simp only [step, hc, Sys.go] at a5
        have := congrArg (fun l => l[i]?) a5
        simp only [get_set_self hc, hc] at this
        exact nomatch this
    · intro i a ha
      simp only [call, a5] at ha
      exact .inl ha
  | @enter f _ a1 a2 a3 a4 a5 =>
    refine plain a3 (ghost_other (fun i hi => by rw [hop] at hi; exact nomatch hi)) ?_
    intro i a ha
    simp only [call, a5] at ha
    rw [List.getElem?_append] at ha
    by_cases hl : i < (state cfg s₀ sched n).calls.length
    · rw [if_pos hl] at ha; exact .inl ha
    · rw [if_neg hl] at ha
      cases hz : i - (state cfg s₀ sched n).calls.length with
      | zero => rw [hz] at ha; simp at ha; subst ha; exact .inr trivial
      | succ k => rw [hz] at ha; simp at ha
  | tick a1 a2 a3 a4 a5 =>
    refine plain a3 (ghost_other (fun i hi => by rw [hop] at hi; exact nomatch hi)) ?_
    intro i a ha
    simp only [call, a5] at ha
    exact .inl ha
  | publish a1 a3 a4 a5 =>
    refine plain a3 (ghost_other (fun i hi => by rw [hop] at hi; exact nomatch hi)) ?_
    intro i a ha
    simp only [call, a5] at ha
    exact .inl ha
  | @move _ _ i a a' a1 a2 a3 a4 a5 a6 a7 a8 a9 a10 =>
    rcases a10 with ⟨q, rfl, rfl⟩ | ⟨q, t, rfl, rfl, _⟩ | ⟨q, t, rfl, rfl⟩ | ⟨q, t, rfl, rfl, ho⟩ | ⟨t, rfl, rfl, _⟩ |
      ⟨t, q, rfl, rfl, _⟩ | ⟨rfl, ho⟩
    case inr.inr.inr.inl =>
      subst ho
      have hg : ghost cfg s₀ sched (n + 1) = ((ghost cfg s₀ sched n).1, n + 1) := by
        simp only [ghost, hop, call, a5]
      refine ⟨?_, ?_, ?_, ?_⟩
      · rw [a3, hg]; exact h.cache
      · rw [hg]; exact Nat.le_succ_of_le h.le
      · rw [a3, hg]; exact h.valid
      · intro j b hb
        simp only [call, a6] at hb
        rcases get_set hb with ⟨rfl, rfl⟩ | ⟨hne, hb'⟩
        · simp only [Fits, hg]
          exact ⟨rfl, Nat.le_succ_of_le h.le, Nat.le_refl _, n, rfl, h.calls _ _ a5⟩
        · cases hh : b.holds with
          | true => exact absurd (hm.one _ _ _ _ hb' a5 hh rfl) hne
          | false => exact fits_of_not_held (h.calls _ _ hb') hh hn
    all_goals
      refine plain a3 (ghost_other (fun j hj => ?_)) ?_
      · rw [hop] at hj
        rcases a9 j with h' | h'
        · exact absurd hj h'
        · subst h'
          first
          | (refine ⟨?_, ?_⟩
             · intro q' t' hc; simp only [call, a5] at hc; cases hc
             · intro q' t' r' hc; simp only [call, a5] at hc; cases hc)
          | (rw [ho] at hj; exact nomatch hj)
      · intro j b hb
        simp only [call, a6] at hb
        rcases get_set hb with ⟨rfl, rfl⟩ | ⟨hne, hb'⟩
        · right
          first
          | trivial
          | exact Nat.le_of_eq a1.symm
          | (have := h.calls _ _ a5; exact Nat.le_trans this hn)
        · exact .inl hb'
  | @claim _ i q t a1 a2 a3 a4 a5 a6 a7 =>
    refine plain a3 (ghost_other (fun j hj => ?_)) ?_
    · rw [hop] at hj
      obtain rfl := Op.go.inj hj
      refine ⟨?_, ?_⟩
      · intro q' t' hc; simp only [call, a6] at hc; cases hc
      · intro q' t' r' hc; simp only [call, a6] at hc; cases hc
    · intro j b hb
      simp only [call, a7] at hb
      rcases get_set hb with ⟨rfl, rfl⟩ | ⟨hne, hb'⟩
      · exact .inr (Nat.le_trans (h.calls _ _ a6) hn)
      · exact .inl hb'
  | @update _ i q t r a1 a2 a3 a4 a5 a6 =>
    have hf := h.calls _ _ a5
    simp only [Fits] at hf
    obtain ⟨f1, f2, f3, k, f4, f5⟩ := hf
    have hg : ghost cfg s₀ sched (n + 1) = ((ghost cfg s₀ sched n).2, (ghost cfg s₀ sched n).2) := by
      simp only [ghost, hop, call, a5]
    refine ⟨?_, ?_, ?_, ?_⟩
    · rw [a3, hg]; exact f1
    · rw [hg]; exact Nat.le_succ_of_le f3
    · intro _
      rw [a3, hg]
      exact ⟨k, f4, f5⟩
    · intro j b hb
      simp only [call, a6] at hb
      rcases get_set hb with ⟨rfl, rfl⟩ | ⟨hne, hb'⟩
      · simp only [Fits, hg, a3]
        exact ⟨trivial, k, f4, f5⟩
      · cases hh : b.holds with
        | true => exact absurd (hm.one _ _ _ _ hb' a5 hh rfl) hne
        | false => exact fits_of_not_held (h.calls _ _ hb') hh hn
  | @quit _ _ i a a' a1 a2 a3 a4 a5 a6 a7 a8 =>
    refine plain a3 (ghost_other (fun j hj => ?_)) ?_
    · rw [hop] at hj
      rcases a8 with ⟨_, rfl⟩ | ⟨_, rfl⟩ <;> exact nomatch hj
    · intro j b hb
      simp only [call, a7] at hb
      rcases get_set hb with ⟨rfl, rfl⟩ | ⟨hne, hb'⟩
      · rcases a8 with ⟨rfl, _⟩ | ⟨rfl, _⟩ <;> exact .inr trivial
      · exact .inl hb'
  | @cached _ i a q a1 a2 a3 a4 a5 a6 a7 a8 =>
    refine plain a3 (ghost_other (fun j hj => ?_)) ?_
    · rw [hop] at hj
      obtain rfl := Op.go.inj hj
      refine ⟨?_, ?_⟩
      · intro q' t' hc; simp only [call, a5] at hc
        rcases a7 with ⟨_, rfl⟩ | rfl <;> cases hc
      · intro q' t' r' hc; simp only [call, a5] at hc
        rcases a7 with ⟨_, rfl⟩ | rfl <;> cases hc
    · intro j b hb
      simp only [call, a6] at hb
      rcases get_set hb with ⟨rfl, rfl⟩ | ⟨hne, hb'⟩
      · exact .inr (answer_fits _ _ _ _ _ _ _)
      · exact .inl hb'
  | @fresh _ i q t r a1 a2 a3 a4 a5 a6 a7 =>
    refine plain a3 (ghost_other (fun j hj => ?_)) ?_
    · rw [hop] at hj
      obtain rfl := Op.go.inj hj
      refine ⟨?_, ?_⟩
      · intro q' t' hc; simp only [call, a5] at hc; cases hc
      · intro q' t' r' hc; simp only [call, a5] at hc; cases hc
    · intro j b hb
      simp only [call, a6] at hb
      rcases get_set hb with ⟨rfl, rfl⟩ | ⟨hne, hb'⟩
      · exact .inr (answer_fits _ _ _ _ _ _ _)
      · exact .inl hb'

theorem inv_state (cfg : Config) (now : Nat) (r : L0Stats) (sched : Nat → Op) :
    ∀ n, Inv cfg (Sys.new now r) sched n
  | 0 => inv_new cfg now r sched
  | n + 1 => inv_step cfg _ sched n (marked_state cfg now r sched n) (inv_state cfg now r sched n)

/-! ## One call -/

/-- Steps left until the answer. -/
def left : At → Nat
  | .start _ => 6
  | .look _ _ => 5
  | .claim _ _ => 4
  | .reading _ _ => 3
  | .update _ _ _ => 2
  | .release _ _ _ => 1
  | .lost _ => 1
  | _ => 0

/-- A step from the point of view of call `i`. -/
inductive Moves (cfg : Config) (s : Sys) (op : Op) (i : Nat) (a : At) : Option At → Prop
  | stay : (∀ q r, told cfg s op ≠ some (i, q, r)) →
      (op = .go i → askOf a = none ∧ ∀ t x, a = .sleep t x → s.now < t) → Moves cfg s op i a (some a)
  | ask {a' q} : (∀ q r, told cfg s op ≠ some (i, q, r)) → op = .go i → askOf a = some q → askOf a' = some q →
      left a' < left a → Moves cfg s op i a (some a')
  | woken {t a'} : (∀ q r, told cfg s op ≠ some (i, q, r)) → op = .go i → t ≤ s.now →
      ((a = .sleep t none ∧ a' = .done true) ∨ ∃ q, a = .sleep t (some q) ∧ a' = .start q) →
      Moves cfg s op i a (some a')
  | gone {a'} : (∀ q r, told cfg s op ≠ some (i, q, r)) → ((a' = .failed ∧ op = .fail i) ∨ (a' = .dropped ∧ op = .drop i)) →
      Moves cfg s op i a (some a')
  | answered {q r} : told cfg s op = some (i, q, r) → op = .go i → askOf a = some q →
      Moves cfg s op i a (some (answer cfg s.now q r))

theorem call_step (cfg : Config) (s : Sys) (op : Op) (hm : Marked s) (i : Nat) (a : At) (hi : s.calls[i]? = some a) :
    Moves cfg s op i a (step cfg s op).calls[i]? := by
  have hx := effect cfg s op hm.busy
  have he : op = .go i → (step cfg s op) = s.go cfg i a := by intro h; subst h; simp [step, hi]
  generalize hs : step cfg s op = s' at hx he
  -- another call than `i`
  have other : ∀ (j : Nat) (b : At), i ≠ j → s'.calls = s.calls.set j b → s'.calls[i]? = some a := by
    intro j b hne hc
    rw [hc, get_set_ne hne]; exact hi
  have same_ : s'.calls = s.calls → s'.calls[i]? = some a := by intro hc; rw [hc]; exact hi
  cases hx with
  | same a1 a2 a3 a4 a5 a6 =>
    rw [same_ a5]
    refine .stay (by rw [a6]; exact fun _ _ h => nomatch h) ?_
    intro ho
    have hg := he ho
    subst ho
    have key : ∀ a', a' ≠ a → s'.calls = s.calls.set i a' → False := by
      intro a' hne h
      rw [a5] at h
      have := congrArg (fun l => l[i]?) h
      simp only [get_set_self hi, hi] at this
      exact hne (Option.some.inj this).symm
    have tl : told cfg s (.go i) = none := a6
    cases a with
    | start q => exact (key (.look q s.now) (fun h => nomatch h) (by rw [hg]; rfl)).elim
    | look q t =>
      simp only [told, hi] at tl
      by_cases hc : ((!q.force && s.cache.fresh t (interval cfg)) || s.busy) = true
      · rw [if_pos hc] at tl; exact nomatch tl
      · rw [Bool.or_eq_true, not_or] at hc
        simp only [Sys.go] at hg
        rw [if_neg hc.1, if_neg hc.2] at hg
        exact (key (.claim q t) (fun h => nomatch h) (by rw [hg])).elim
    | claim q t =>
      by_cases hb : s.busy = true
      · simp only [Sys.go] at hg; rw [if_pos hb] at hg
        exact (key (.lost q) (fun h => nomatch h) (by rw [hg])).elim
      · simp only [Sys.go] at hg; rw [if_neg hb] at hg
        exact (key (.reading q t) (fun h => nomatch h) (by rw [hg])).elim
    | lost q => simp only [told, hi] at tl; exact nomatch tl
    | reading q t => exact (key (.update q t s.listed) (fun h => nomatch h) (by rw [hg]; rfl)).elim
    | update q t r => exact (key (.release q t r) (fun h => nomatch h) (by rw [hg]; rfl)).elim
    | release q t r => simp only [told, hi] at tl; exact nomatch tl
    | sleep t x =>
      refine ⟨rfl, ?_⟩
      intro t' x' h'
      obtain ⟨rfl, rfl⟩ := At.sleep.inj h'
      by_cases hl : t ≤ s.now
      · simp only [Sys.go] at hg
        rw [if_pos hl] at hg
        cases x with
        | none => exact (key (.done true) (fun h => nomatch h) (by rw [hg])).elim
        | some q => exact (key (.start q) (fun h => nomatch h) (by rw [hg])).elim
      · omega
    | done b => exact ⟨rfl, fun _ _ h => nomatch h⟩
    | failed => exact ⟨rfl, fun _ _ h => nomatch h⟩
    | dropped => exact ⟨rfl, fun _ _ h => nomatch h⟩
  | enter a1 a2 a3 a4 a5 =>
    have : s'.calls[i]? = some a := by
      rw [a5, List.getElem?_append, if_pos (List.getElem?_eq_some_iff.mp hi).1]; exact hi
    rw [this]
    exact .stay (fun _ _ h => nomatch h) (fun h => nomatch h)
  | tick a1 a2 a3 a4 a5 =>
    rw [same_ a5]
    exact .stay (fun _ _ h => nomatch h) (fun h => nomatch h)
  | publish a1 a3 a4 a5 =>
    rw [same_ a5]
    exact .stay (fun _ _ h => nomatch h) (fun h => nomatch h)
  | @move _ _ j b b' a1 a2 a3 a4 a5 a6 a7 a8 a9 a10 =>
    have tl : ∀ q r, told cfg s op ≠ some (i, q, r) := by rw [a8]; exact fun _ _ h => nomatch h
    by_cases e : i = j
    · subst e
      rw [hi] at a5; obtain rfl := Option.some.inj a5
      rw [a6, get_set_self hi]
      rcases a10 with ⟨q, rfl, rfl⟩ | ⟨q, t, rfl, rfl, _⟩ | ⟨q, t, rfl, rfl⟩ | ⟨q, t, rfl, rfl, ho⟩ |
        ⟨t, rfl, rfl, hl⟩ | ⟨t, q, rfl, rfl, hl⟩ | ⟨rfl, ho⟩
      case inr.inr.inr.inr.inr.inr => exact .gone tl (.inr ⟨rfl, ho⟩)
      case inr.inr.inr.inl => exact .ask tl ho rfl rfl (by simp [left])
      all_goals
        have ho : op = .go i := by
          cases op with
          | go j => rcases a9 j with h | h
                    · exact absurd rfl h
                    · rw [h]
          | enter f =>
            have := congrArg Sys.calls hs
            rw [a6] at this
            have := congrArg List.length this
            simp [step] at this
          | fail j =>
            have := congrArg (fun s => s.calls[i]?) hs
            simp only [a6, get_set_self hi, step] at this
            split at this
            · by_cases e : i = j
              · subst e; simp_all
              · rw [get_set_ne e, hi] at this; exact nomatch this
            · rw [hi] at this; exact nomatch this
          | drop j =>
            have := congrArg (fun s => s.calls[i]?) hs
            simp only [a6, get_set_self hi, step] at this
            split at this
            · rw [hi] at this; exact nomatch this
            · by_cases e : i = j
              · subst e; rw [get_set_self hi] at this; exact nomatch this
              · rw [get_set_ne e, hi] at this; exact nomatch this
          | tick d =>
            have := congrArg (fun s => s.calls[i]?) hs
            simp only [a6, get_set_self hi, step, hi] at this
            exact nomatch this
          | publish r =>
            have := congrArg (fun s => s.calls[i]?) hs
            simp only [a6, get_set_self hi, step, hi] at this
            exact nomatch this
        first
        | exact .ask tl ho rfl rfl (by simp [left])
        | exact .woken tl ho hl (.inl ⟨rfl, rfl⟩)
        | exact .woken tl ho hl (.inr ⟨_, rfl, rfl⟩)
    · rw [other j b' e a6]
      refine .stay tl (fun ho => ?_)
      rcases a9 i with h | h
      · exact absurd ho h
      · exact absurd h e
  | @claim _ j q t a1 a2 a3 a4 a5 a6 a7 =>
    have tl : ∀ q r, told cfg s (.go j) ≠ some (i, q, r) := by
      intro q r h; simp only [told, a6] at h; exact nomatch h
    by_cases e : i = j
    · subst e
      rw [hi] at a6; obtain rfl := Option.some.inj a6
      rw [a7, get_set_self hi]
      exact .ask tl rfl rfl rfl (by simp [left])
    · rw [other j _ e a7]
      exact .stay tl (fun ho => absurd (Op.go.inj ho).symm e)
  | @update _ j q t r a1 a2 a3 a4 a5 a6 =>
    have tl : ∀ q r, told cfg s (.go j) ≠ some (i, q, r) := by
      intro q r h; simp only [told, a5] at h; exact nomatch h
    by_cases e : i = j
    · subst e
      rw [hi] at a5; obtain rfl := Option.some.inj a5
      rw [a6, get_set_self hi]
      exact .ask tl rfl rfl rfl (by simp [left])
    · rw [other j _ e a6]
      exact .stay tl (fun ho => absurd (Op.go.inj ho).symm e)
  | @quit _ _ j b b' a1 a2 a3 a4 a5 a6 a7 a8 =>
    have tl : ∀ q r, told cfg s op ≠ some (i, q, r) := by
      rcases a8 with ⟨_, rfl⟩ | ⟨_, rfl⟩ <;> exact fun _ _ h => nomatch h
    by_cases e : i = j
    · subst e
      rw [a7, get_set_self hi]
      exact .gone tl a8
    · rw [other j _ e a7]
      refine .stay tl (fun ho => ?_)
      rcases a8 with ⟨_, rfl⟩ | ⟨_, rfl⟩ <;> exact nomatch ho
  | @cached _ j b q a1 a2 a3 a4 a5 a6 a7 a8 =>
    by_cases e : i = j
    · subst e
      rw [hi] at a5; obtain rfl := Option.some.inj a5
      rw [a6, get_set_self hi]
      refine .answered a8 rfl ?_
      rcases a7 with ⟨t, rfl⟩ | rfl <;> rfl
    · rw [other j _ e a6]
      refine .stay ?_ (fun ho => absurd (Op.go.inj ho).symm e)
      intro q r h
      rw [a8] at h
      exact e (congrArg Prod.fst (Option.some.inj h)).symm
  | @fresh _ j q t r a1 a2 a3 a4 a5 a6 a7 =>
    by_cases e : i = j
    · subst e
      rw [hi] at a5; obtain rfl := Option.some.inj a5
      rw [a6, get_set_self hi]
      exact .answered a7 rfl rfl
    · rw [other j _ e a6]
      refine .stay ?_ (fun ho => absurd (Op.go.inj ho).symm e)
      intro q r h
      rw [a7] at h
      exact e (congrArg Prod.fst (Option.some.inj h)).symm

end Tonbo.Lemmas.Throttle
