import Verif.Spec.PolicyView
import Verif.Model.Lsm
import Mathlib.Data.Nat.Basic
import Mathlib.Tactic.SplitIfs

/-!
# C48: the seal policy and backpressure decide as configured. C49: follow-ups and retries are bounded
-/

namespace Tonbo.Props.C48
open Tonbo.Model.Policy Tonbo.Spec

mutual
theorem evaluate_iff (s : MemStats) : ∀ p : SealPolicy, (evaluate p s).isSome ↔ ThresholdMet s p
  | .never => by simp only [evaluate]; constructor <;> intro h <;> cases h
  | .bytes limit => by
    simp only [evaluate]
    constructor
    · intro h; split_ifs at h with h1
      · exact .bytes h1
      · cases h
    · rintro ⟨h⟩; simp [*]
  | .openRows rows => by
    simp only [evaluate]
    constructor
    · intro h
      cases e : s.openRows with
      | none => simp [e] at h
      | some n =>
        simp only [e] at h
        split_ifs at h with h1
        · exact .openRows e h1
        · cases h
    · intro h; cases h with | openRows h1 h2 => simp [h1, h2]
  | .batches b => by
    simp only [evaluate]
    constructor
    · intro h
      cases e : s.batches with
      | none => simp [e] at h
      | some n =>
        simp only [e] at h
        split_ifs at h with h1
        · exact .batches e h1
        · cases h
    · intro h; cases h with | batches h1 h2 => simp [h1, h2]
  | .elapsed i => by
    simp only [evaluate]
    constructor
    · intro h
      cases e : s.sinceSeal with
      | none => simp [e] at h
      | some n =>
        simp only [e] at h
        split_ifs at h with h1
        · exact .elapsed e h1
        · cases h
    · intro h; cases h with | elapsed h1 h2 => simp [h1, h2]
  | .anyOf ps => by
    simp only [evaluate]
    rw [evaluateAny_iff s ps]
    constructor
    · rintro ⟨p, hp, h⟩; exact .anyOf hp h
    · intro h; cases h with | anyOf h1 h2 => exact ⟨_, h1, h2⟩

theorem evaluateAny_iff (s : MemStats) : ∀ ps : List SealPolicy,
    (evaluateAny ps s).isSome ↔ ∃ p ∈ ps, ThresholdMet s p
  | [] => by simp [evaluateAny]
  | p :: ps => by
    simp only [evaluateAny]
    have h1 := evaluate_iff s p
    have h2 := evaluateAny_iff s ps
    cases e : evaluate p s with
    | some r => simp only [e, Option.isSome_some, true_iff] at h1 ⊢; exact ⟨p, by simp, h1⟩
    | none =>
      simp only [e, Option.isSome_none, Bool.false_eq_true, false_iff] at h1
      simp only [h2, List.mem_cons]
      constructor
      · rintro ⟨q, hq, h⟩; exact ⟨q, .inr hq, h⟩
      · rintro ⟨q, rfl | hq, h⟩
        · exact absurd h h1
        · exact ⟨q, hq, h⟩
end

/-- A policy, however nested, asks for a seal iff one of its thresholds is reached. -/
theorem seals_iff_reached (p : SealPolicy) (s : MemStats) : (evaluate p s).isSome ↔ ThresholdMet s p :=
  evaluate_iff s p

/-- The default policy: 64 MiB of keys and overhead, 30 seconds since the last seal, 16384 open rows or
64 batches. -/
theorem default_policy_thresholds (s : MemStats) :
    (evaluate defaultPolicy s).isSome ↔
      64 * 1024 * 1024 ≤ s.keyBytes + s.entries * s.overhead ∨
      (∃ e, s.sinceSeal = some e ∧ 30 * 1000000000 ≤ e) ∨
      (∃ n, s.openRows = some n ∧ 16384 ≤ n) ∨
      (∃ n, s.batches = some n ∧ 64 ≤ n) := by
  rw [seals_iff_reached]
  constructor
  · intro h
    cases h with
    | anyOf hp h =>
      simp only [List.mem_cons, List.not_mem_nil, or_false] at hp
      rcases hp with rfl | rfl | rfl | rfl
      · cases h with | bytes h => exact .inl h
      · cases h with | elapsed h1 h2 => exact .inr (.inl ⟨_, h1, h2⟩)
      · cases h with | openRows h1 h2 => exact .inr (.inr (.inl ⟨_, h1, h2⟩))
      · cases h with | batches h1 h2 => exact .inr (.inr (.inr ⟨_, h1, h2⟩))
  · rintro (h | ⟨e, h1, h2⟩ | ⟨n, h1, h2⟩ | ⟨n, h1, h2⟩)
    · exact .anyOf (p := .bytes _) (by simp) (.bytes h)
    · exact .anyOf (p := .elapsed _) (by simp) (.elapsed h1 h2)
    · exact .anyOf (p := .openRows _) (by simp) (.openRows h1 h2)
    · exact .anyOf (p := .batches _) (by simp) (.batches h1 h2)

/-- Sixty-four batches, and a minute without a seal before the first one. -/
example : (evaluate defaultPolicy ⟨3, 100, 32, none, some 64, none⟩).isSome = true ∧
    (evaluate defaultPolicy ⟨3, 100, 32, none, some 63, none⟩).isSome = false ∧
    (evaluate defaultPolicy ⟨3, 100, 32, none, some 1, some 60000000000⟩).isSome = true := by decide +kernel

theorem reaches_iff (l t : Option Nat) :
    reaches l t = true ↔ ∃ limit total, l = some limit ∧ t = some total ∧ limit ≤ total := by
  cases l <;> cases t <;> simp [reaches]

theorem atLimit_iff (f : Nat) (b : Option Nat) (s : L0Stats) :
    (decide (f ≤ s.files) || reaches b s.bytes) = true ↔ AtLimit f b s := by
  simp only [Bool.or_eq_true, decide_eq_true_eq, reaches_iff, AtLimit]

theorem decision_stall (c : Config) (s : L0Stats) (h : AtStop c s) : c.decision s = .stall c.stopDelay := by
  simp only [Config.decision, (atLimit_iff _ _ _).2 h, if_true]

theorem decision_slow (c : Config) (s : L0Stats) (h : ¬ AtStop c s) (h' : AtSlow c s) :
    c.decision s = .slowdown c.slowDelay := by
  have : ¬ (decide (c.stopFiles ≤ s.files) || reaches c.stopBytes s.bytes) = true :=
    fun e => h ((atLimit_iff _ _ _).1 e)
  simp only [Config.decision, if_neg this, (atLimit_iff _ _ _).2 h', if_true]

theorem decision_proceed (c : Config) (s : L0Stats) (h : ¬ AtStop c s) (h' : ¬ AtSlow c s) :
    c.decision s = .proceed := by
  have h1 : ¬ (decide (c.stopFiles ≤ s.files) || reaches c.stopBytes s.bytes) = true :=
    fun e => h ((atLimit_iff _ _ _).1 e)
  have h2 : ¬ (decide (c.slowFiles ≤ s.files) || reaches c.slowBytes s.bytes) = true :=
    fun e => h' ((atLimit_iff _ _ _).1 e)
  simp only [Config.decision, if_neg h1, if_neg h2]

/-- Ingest stalls iff level 0 reaches a stop limit, is slowed down iff it reaches only a slowdown limit,
and proceeds otherwise; the delays are the configured ones. -/
theorem decides_as_configured (c : Config) (s : L0Stats) :
    ((∃ d, c.decision s = .stall d) ↔ AtStop c s) ∧
    ((∃ d, c.decision s = .slowdown d) ↔ AtSlow c s ∧ ¬ AtStop c s) ∧
    (c.decision s = .proceed ↔ ¬ AtSlow c s ∧ ¬ AtStop c s) ∧
    (∀ d, c.decision s = .stall d → d = c.stopDelay) ∧
    (∀ d, c.decision s = .slowdown d → d = c.slowDelay) := by
  by_cases h1 : AtStop c s
  · rw [decision_stall c s h1]; simp [h1]
  · by_cases h2 : AtSlow c s
    · rw [decision_slow c s h1 h2]; simp [h1, h2]
    · rw [decision_proceed c s h1 h2]; simp [h1, h2]

/-- Limits are at least one, and stop limits are at least the slowdown limits. -/
def LimitsOk (c : Config) : Prop :=
  1 ≤ c.slowFiles ∧ c.slowFiles ≤ c.stopFiles ∧
  (∀ a, c.slowBytes = some a → 1 ≤ a) ∧ (∀ b, c.stopBytes = some b → 1 ≤ b) ∧
  (∀ a b, c.slowBytes = some a → c.stopBytes = some b → a ≤ b) ∧ 0 < c.slowDelay ∧ 0 < c.stopDelay

theorem limits_apply (cs : List Call) : ∀ c, LimitsOk c → LimitsOk (c.apply cs) := by
  induction cs with
  | nil => exact fun c h => h
  | cons x cs ih =>
    rintro c ⟨h1, h2, h3, h4, h5, h6, h7⟩
    cases x with
    | slowdownDelay d =>
      apply ih; simp only [Config.slowdownDelay]; split_ifs with h
      · exact ⟨h1, h2, h3, h4, h5, h6, h7⟩
      · exact ⟨h1, h2, h3, h4, h5, Nat.pos_of_ne_zero h, h7⟩
    | stopDelay d =>
      apply ih; simp only [Config.stopDelay']; split_ifs with h
      · exact ⟨h1, h2, h3, h4, h5, h6, h7⟩
      · exact ⟨h1, h2, h3, h4, h5, h6, Nat.pos_of_ne_zero h⟩
    | slowdownBytes b =>
      apply ih
      cases e : c.stopBytes with
      | none => simp only [Config.slowdownBytes, e]; exact ⟨h1, h2, by rintro a ⟨⟩; omega, by simp, by simp, h6, h7⟩
      | some s =>
        simp only [Config.slowdownBytes, e]
        exact ⟨h1, h2, by rintro a ⟨⟩; omega, by rintro a ⟨⟩; omega, by rintro a b ⟨⟩ ⟨⟩; omega, h6, h7⟩
    | stopBytes b =>
      apply ih
      cases e : c.slowBytes with
      | none => simp only [Config.stopBytes', e]; exact ⟨h1, h2, by simp, by rintro a ⟨⟩; omega, by simp, h6, h7⟩
      | some s =>
        simp only [Config.stopBytes', e]
        exact ⟨h1, h2, fun a h => h3 a (by rw [e]; exact h), by rintro a ⟨⟩; omega,
          by rintro a b ⟨⟩ ⟨⟩; omega, h6, h7⟩

/-- Whatever limits are asked for, in whatever order: the stop limits are at least the slowdown
limits. -/
theorem stop_is_above_slowdown (slow stop : Nat) (cs : List Call) :
    LimitsOk ((Config.new slow stop).apply cs) ∧ LimitsOk (Config.default.apply cs) := by
  constructor
  · apply limits_apply
    simp only [LimitsOk, Config.new, Config.default]
    refine ⟨by omega, by omega, by simp, by simp, by simp, by omega, by omega⟩
  · apply limits_apply
    simp [LimitsOk, Config.default]

theorem slow_kept (cs : List Call) : ∀ c : Config, (∀ b, Call.slowdownBytes b ∉ cs) →
    (c.apply cs).slowBytes = c.slowBytes := by
  induction cs with
  | nil => exact fun c h => rfl
  | cons x cs ih =>
    intro c h
    have h' : ∀ b, Call.slowdownBytes b ∉ cs := fun b hb => h b (by simp [hb])
    cases x with
    | slowdownBytes b => exact absurd (List.mem_cons_self) (h b)
    | slowdownDelay d =>
      simp only [Config.apply]; rw [ih _ h']; simp only [Config.slowdownDelay]; split_ifs <;> rfl
    | stopDelay d => simp only [Config.apply]; rw [ih _ h']; simp only [Config.stopDelay']; split_ifs <;> rfl
    | stopBytes b => simp only [Config.apply]; rw [ih _ h']; rfl

theorem stop_kept (cs : List Call) : ∀ (c : Config) (n : Nat), (∃ m, c.stopBytes = some m ∧ n ≤ m) →
    (∀ b, Call.stopBytes b ∉ cs) → ∃ m, (c.apply cs).stopBytes = some m ∧ n ≤ m := by
  induction cs with
  | nil => exact fun c n h _ => h
  | cons x cs ih =>
    rintro c n ⟨m, hm, hn⟩ h
    have h' : ∀ b, Call.stopBytes b ∉ cs := fun b hb => h b (by simp [hb])
    cases x with
    | stopBytes b => exact absurd (List.mem_cons_self) (h b)
    | slowdownDelay d =>
      refine ih _ n ⟨m, ?_, hn⟩ h'; simp only [Config.slowdownDelay]; split_ifs <;> exact hm
    | stopDelay d => refine ih _ n ⟨m, ?_, hn⟩ h'; simp only [Config.stopDelay']; split_ifs <;> exact hm
    | slowdownBytes b =>
      refine ih _ n ⟨max m (max b 1), ?_, by omega⟩ h'
      simp only [Config.slowdownBytes, hm]

theorem apply_append (cs cs' : List Call) : ∀ c : Config, c.apply (cs ++ cs') = (c.apply cs).apply cs' := by
  induction cs with
  | nil => exact fun c => rfl
  | cons x cs ih => intro c; cases x <;> exact ih _

/-- The last slowdown limit asked for holds; the last stop limit asked for holds or was raised. -/
theorem last_call_counts (c : Config) (cs cs' : List Call) (b : Nat) :
    ((∀ d, Call.slowdownBytes d ∉ cs') →
      (c.apply (cs ++ .slowdownBytes b :: cs')).slowBytes = some (max b 1)) ∧
    ((∀ d, Call.stopBytes d ∉ cs') →
      ∃ m, (c.apply (cs ++ .stopBytes b :: cs')).stopBytes = some m ∧ b ≤ m) := by
  refine ⟨fun h => ?_, fun h => ?_⟩
  · rw [apply_append]; simp only [Config.apply]; rw [slow_kept _ _ h]; rfl
  · rw [apply_append]; simp only [Config.apply]
    refine stop_kept _ _ _ ?_ h
    simp only [Config.stopBytes']
    cases (c.apply cs).slowBytes with
    | none => exact ⟨_, rfl, by omega⟩
    | some s => exact ⟨_, rfl, by omega⟩

/-- A stop limit asked for first is raised by a larger slowdown limit. -/
example : ((Config.new 4 2).apply [.stopBytes 10, .slowdownBytes 20]).stopBytes = some 20 ∧
    (Config.new 4 2).stopFiles = 4 := by decide

theorem stalled_spec (c : Config) : ∀ (ss : List L0Stats) (ds : List Nat),
    stalled c c.stopDelay ss = some ds ↔ ∃ pre s post, ss = pre ++ s :: post ∧ (∀ p ∈ pre, AtStop c p) ∧
      ¬ AtStop c s ∧ ((AtSlow c s ∧ ds = c.stopDelay :: (List.replicate pre.length c.stopDelay ++ [c.slowDelay])) ∨
        (¬ AtSlow c s ∧ ds = c.stopDelay :: List.replicate pre.length c.stopDelay)) := by
  intro ss
  induction ss with
  | nil => intro ds; simp [stalled]
  | cons s ss ih =>
    intro ds
    by_cases h1 : AtStop c s
    · simp only [stalled, decision_stall c s h1, Option.map_eq_some_iff, ih]
      constructor
      · rintro ⟨xs, ⟨pre, t, post, rfl, hp, ht, hd⟩, rfl⟩
        refine ⟨s :: pre, t, post, rfl, ?_, ht, ?_⟩
        · rintro p (_ | ⟨_, hp'⟩)
          · exact h1
          · exact hp p hp'
        · rcases hd with ⟨a, rfl⟩ | ⟨a, rfl⟩
          · exact .inl ⟨a, by simp [List.replicate_succ]⟩
          · exact .inr ⟨a, by simp [List.replicate_succ]⟩
      · rintro ⟨pre, t, post, e, hp, ht, hd⟩
        cases pre with
        | nil => simp only [List.nil_append, List.cons.injEq] at e; exact absurd (e.1 ▸ h1) ht
        | cons p pre =>
          simp only [List.cons_append, List.cons.injEq] at e
          obtain ⟨rfl, rfl⟩ := e
          rcases hd with ⟨a, rfl⟩ | ⟨a, rfl⟩
          · exact ⟨_, ⟨pre, t, post, rfl, fun q hq => hp q (by simp [hq]), ht, .inl ⟨a, rfl⟩⟩,
              by simp [List.replicate_succ]⟩
          · exact ⟨_, ⟨pre, t, post, rfl, fun q hq => hp q (by simp [hq]), ht, .inr ⟨a, rfl⟩⟩,
              by simp [List.replicate_succ]⟩
    · have key : (∃ pre t post, s :: ss = pre ++ t :: post ∧ (∀ p ∈ pre, AtStop c p) ∧ ¬ AtStop c t ∧
          ((AtSlow c t ∧ ds = c.stopDelay :: (List.replicate pre.length c.stopDelay ++ [c.slowDelay])) ∨
            (¬ AtSlow c t ∧ ds = c.stopDelay :: List.replicate pre.length c.stopDelay))) ↔
          ((AtSlow c s ∧ ds = [c.stopDelay, c.slowDelay]) ∨ (¬ AtSlow c s ∧ ds = [c.stopDelay])) := by
        constructor
        · rintro ⟨pre, t, post, e, hp, ht, hd⟩
          cases pre with
          | nil => simp only [List.nil_append, List.cons.injEq] at e; obtain ⟨rfl, rfl⟩ := e; simpa using hd
          | cons p pre =>
            simp only [List.cons_append, List.cons.injEq] at e
            exact absurd (e.1 ▸ hp p (by simp)) h1
        · intro hd
          exact ⟨[], s, ss, rfl, by simp, h1, by simpa using hd⟩
      rw [key]
      by_cases h2 : AtSlow c s
      · simp only [stalled, decision_slow c s h1 h2]; simp [h2]; exact eq_comm
      · simp only [stalled, decision_proceed c s h1 h2]; simp [h2]; exact eq_comm

/-- A writer goes on as soon as a reading of the statistics is below the stop limits: it sleeps the stop
delay once per reading before, and the slowdown delay once if that reading is at a slowdown limit. -/
theorem waits_exactly_while_at_a_stop_limit (c : Config) (ss : List L0Stats) (ds : List Nat) :
    backpressure c ss = some ds ↔ ∃ pre s post, ss = pre ++ s :: post ∧ (∀ p ∈ pre, AtStop c p) ∧
      ¬ AtStop c s ∧ ((AtSlow c s ∧ ds = List.replicate pre.length c.stopDelay ++ [c.slowDelay]) ∨
        (¬ AtSlow c s ∧ ds = List.replicate pre.length c.stopDelay)) := by
  cases ss with
  | nil => simp [backpressure]
  | cons s ss =>
    by_cases h1 : AtStop c s
    · simp only [backpressure, decision_stall c s h1, stalled_spec]
      constructor
      · rintro ⟨pre, t, post, rfl, hp, ht, hd⟩
        refine ⟨s :: pre, t, post, rfl, ?_, ht, ?_⟩
        · rintro p (_ | ⟨_, hp'⟩)
          · exact h1
          · exact hp p hp'
        · simpa [List.replicate_succ] using hd
      · rintro ⟨pre, t, post, e, hp, ht, hd⟩
        cases pre with
        | nil => simp only [List.nil_append, List.cons.injEq] at e; exact absurd (e.1 ▸ h1) ht
        | cons p pre =>
          simp only [List.cons_append, List.cons.injEq] at e
          obtain ⟨rfl, rfl⟩ := e
          exact ⟨pre, t, post, rfl, fun q hq => hp q (by simp [hq]), ht, by simpa [List.replicate_succ] using hd⟩
    · have key : (∃ pre t post, s :: ss = pre ++ t :: post ∧ (∀ p ∈ pre, AtStop c p) ∧ ¬ AtStop c t ∧
          ((AtSlow c t ∧ ds = List.replicate pre.length c.stopDelay ++ [c.slowDelay]) ∨
            (¬ AtSlow c t ∧ ds = List.replicate pre.length c.stopDelay))) ↔
          ((AtSlow c s ∧ ds = [c.slowDelay]) ∨ (¬ AtSlow c s ∧ ds = [])) := by
        constructor
        · rintro ⟨pre, t, post, e, hp, ht, hd⟩
          cases pre with
          | nil => simp only [List.nil_append, List.cons.injEq] at e; obtain ⟨rfl, rfl⟩ := e; simpa using hd
          | cons p pre =>
            simp only [List.cons_append, List.cons.injEq] at e
            exact absurd (e.1 ▸ hp p (by simp)) h1
        · intro hd
          exact ⟨[], s, ss, rfl, by simp, h1, by simpa using hd⟩
      rw [key]
      by_cases h2 : AtSlow c s
      · simp only [backpressure, decision_slow c s h1 h2]; simp [h2]; exact eq_comm
      · simp only [backpressure, decision_proceed c s h1 h2]; simp [h2]

/-- Two readings at the stop limit, then one in the slowdown band. -/
example : backpressure Config.default [⟨40, none⟩, ⟨32, none⟩, ⟨20, none⟩] =
    some [200000000, 200000000, 25000000] := by decide

theorem totalBytes_some (es : List (Option Nat)) : ∀ sum total, totalBytes sum es = some total ↔
    ∃ bs : List Nat, es = bs.map some ∧ total = sum + bs.sum := by
  induction es with
  | nil =>
    intro sum total
    simp only [totalBytes, Option.some.injEq]
    constructor
    · rintro rfl; exact ⟨[], rfl, by simp⟩
    · rintro ⟨bs, h, rfl⟩; cases bs <;> simp at h; simp
  | cons e es ih =>
    intro sum total
    cases e with
    | none =>
      simp only [totalBytes]
      constructor
      · intro h; cases h
      · rintro ⟨bs, h, _⟩; cases bs <;> simp at h
    | some b =>
      simp only [totalBytes, ih]
      constructor
      · rintro ⟨bs, rfl, rfl⟩; exact ⟨b :: bs, rfl, by simp; omega⟩
      · rintro ⟨bs, h, rfl⟩
        cases bs with
        | nil => simp at h
        | cons c bs =>
          simp only [List.map_cons, List.cons.injEq, Option.some.injEq] at h
          obtain ⟨rfl, rfl⟩ := h
          exact ⟨bs, rfl, by simp; omega⟩

/-- The statistics count the tables of level 0 and add up their sizes, if all are known. -/
theorem statistics_count_level_zero (es : List (Option Nat)) :
    (statsOf (some es)).files = es.length ∧
    ∀ total, (statsOf (some es)).bytes = some total ↔ ∃ bs : List Nat, es = bs.map some ∧ total = bs.sum := by
  refine ⟨rfl, fun total => ?_⟩
  simp only [statsOf, totalBytes_some, Nat.zero_add]

/-- A cached reading is what the manifest said at a moment less than the stop delay (at least a
millisecond) ago; a forced one is what it says now. -/
theorem readings_are_recent (cfg : Config) (m : Nat → L0Stats) (born : Nat) (qs : List (Nat × Bool)) :
    ∀ now force s, (now, force, s) ∈ readings cfg m (Cache.new born) qs →
      ∃ t, s = m t ∧ (t = now ∨ (force = false ∧ now - t < max cfg.stopDelay 1000000)) := by
  have key : ∀ (qs : List (Nat × Bool)) (c : Cache), (c.valid = true → c.stats = m c.at_) →
      ∀ now force s, (now, force, s) ∈ readings cfg m c qs →
        ∃ t, s = m t ∧ (t = now ∨ (force = false ∧ now - t < max cfg.stopDelay 1000000)) := by
    intro qs
    induction qs with
    | nil => intro c _ now force s h; simp [readings] at h
    | cons q qs ih =>
      intro c hc now force s h
      obtain ⟨qn, qf⟩ := q
      simp only [readings, List.mem_cons] at h
      by_cases hr : (!qf && c.fresh qn (max cfg.stopDelay 1000000)) = true
      · simp only [Cache.read, hr, if_true] at h
        rcases h with h | h
        · simp only [Prod.mk.injEq] at h
          obtain ⟨rfl, rfl, rfl⟩ := h
          simp only [Cache.fresh, Bool.and_eq_true, Bool.not_eq_true', decide_eq_true_eq] at hr
          exact ⟨c.at_, hc hr.2.1, .inr ⟨hr.1, hr.2.2⟩⟩
        · exact ih c hc now force s h
      · simp only [Cache.read, if_neg hr] at h
        rcases h with h | h
        · simp only [Prod.mk.injEq] at h
          obtain ⟨rfl, rfl, rfl⟩ := h
          exact ⟨now, rfl, .inl rfl⟩
        · exact ih _ (fun _ => rfl) now force s h
  exact key qs _ (by simp [Cache.new])

end Tonbo.Props.C48

namespace Tonbo.Props.C49
open Tonbo.Model.Guards Tonbo.Spec

theorem doubled_le (n : Nat) : ∀ a b, a ≤ b → doubled n a ≤ doubled n b := by
  induction n with
  | zero => exact fun a b h => h
  | succ n ih => intro a b h; exact ih _ _ (by omega)

theorem doubled_min (n : Nat) : ∀ d, d ≤ durMax → doubled n d = min (d * 2 ^ n) durMax := by
  induction n with
  | zero => intro d h; simp only [doubled]; omega
  | succ n ih =>
    intro d h
    simp only [doubled]
    rw [ih _ (by omega)]
    have h2 : d * 2 ^ (n + 1) = d * 2 * 2 ^ n := by rw [Nat.pow_succ]; rw [Nat.mul_assoc, Nat.mul_comm 2]
    rw [h2]
    by_cases hd : d * 2 ≤ durMax
    · rw [Nat.min_eq_left hd]
    · have h3 : durMax ≤ durMax * 2 ^ n := Nat.le_mul_of_pos_right _ (Nat.two_pow_pos n)
      have h4 : durMax ≤ d * 2 * 2 ^ n := by
        calc durMax ≤ d * 2 := by omega
          _ ≤ d * 2 * 2 ^ n := Nat.le_mul_of_pos_right _ (Nat.two_pow_pos n)
      rw [Nat.min_eq_right (by omega : durMax ≤ d * 2), Nat.min_eq_right h3, Nat.min_eq_right h4]

/-- The delay before attempt `n + 1` is the base delay doubled `n - 1` times, cut at the maximum: no
delay before the first attempt, never shorter than the one before, never above the maximum. -/
theorem delays_grow_up_to_the_maximum (base max : Nat) (hb : base ≤ durMax) (hm : max ≤ durMax) :
    let c := Backoff.new base max
    c.delay 0 = 0 ∧
    (∀ n, c.delay (n + 1) = min (c.base * 2 ^ n) c.max) ∧
    (∀ i j, i ≤ j → c.delay i ≤ c.delay j) ∧ (∀ n, c.delay n ≤ c.max) ∧
    c.max = Nat.max max c.base ∧ 0 < c.base := by
  intro c
  have hbase : c.base ≤ durMax := by
    simp only [c, Backoff.new]; split_ifs
    · unfold durMax; omega
    · exact hb
  have hmax : c.max = Nat.max max c.base := by
    simp only [c, Backoff.new]
    split_ifs with h1 h2 h2 <;> simp only [Nat.max_def] <;> split_ifs <;> omega
  have hmax' : c.max ≤ durMax := by rw [hmax]; exact Nat.max_le.2 ⟨hm, hbase⟩
  have hpos : 0 < c.base := by
    simp only [c, Backoff.new]; split_ifs <;> omega
  have hd : ∀ n, c.delay (n + 1) = min (c.base * 2 ^ n) c.max := by
    intro n
    simp only [Backoff.delay, Nat.succ_ne_zero, if_false, Nat.add_sub_cancel, doubled_min _ _ hbase]
    split_ifs <;> omega
  have hm0 : c.delay 0 = 0 := rfl
  refine ⟨hm0, hd, ?_, ?_, hmax, hpos⟩
  · intro i j hij
    cases i with
    | zero => rw [hm0]; omega
    | succ i =>
      cases j with
      | zero => omega
      | succ j =>
        rw [hd, hd]
        have : c.base * 2 ^ i ≤ c.base * 2 ^ j :=
          Nat.mul_le_mul_left _ (Nat.pow_le_pow_right (by omega) (by omega))
        omega
  · intro n
    cases n with
    | zero => omega
    | succ n => rw [hd]; omega

/-- The default configuration: 50 ms, 100 ms, and one second at most. -/
example : (Backoff.new 50000000 1000000000).delay 1 = 50000000 ∧
    (Backoff.new 50000000 1000000000).delay 2 = 100000000 ∧
    (Backoff.new 50000000 1000000000).delay 9 = 1000000000 := by decide

/-- A job whose edits are refused is tried once more, after one delay, and then given up. -/
theorem a_job_is_tried_at_most_twice (c : Backoff) (r1 r2 : Round) (rs : List Round) :
    (retry c 0 (r1 :: r2 :: rs)).2 = some (if r1 = .conflict ∧ r2 = .conflict then .gaveUp else .ended) ∧
    (retry c 0 (r1 :: r2 :: rs)).1 = if r1 = .conflict then [c.delay 1] else [] := by
  cases r1 <;> cases r2 <;> simp [retry]

/-- The default size of an output never exceeds 512 MiB, starts at 128 MiB and does not shrink with the
level; a configured size is used as it is. -/
theorem outputs_are_capped :
    (∀ l, Tonbo.Model.Lsm.defaultBytes l ≤ 512 * 1024 * 1024) ∧
    Tonbo.Model.Lsm.defaultBytes 0 = 128 * 1024 * 1024 ∧
    (∀ l, Tonbo.Model.Lsm.defaultBytes (l + 1) = 512 * 1024 * 1024) ∧
    ∀ {K R : Type} [LinearOrder K] (x : Tonbo.Model.Lsm.Exec K R) (l : Nat),
      (Tonbo.Model.Lsm.caps x l).2 =
        some (match x.maxBytes with | some b => b | none => Tonbo.Model.Lsm.defaultBytes l) := by
  have h0 : Tonbo.Model.Lsm.defaultBytes 0 = 128 * 1024 * 1024 := by decide
  have h1 : ∀ l, Tonbo.Model.Lsm.defaultBytes (l + 1) = 512 * 1024 * 1024 := by
    intro l; simp [Tonbo.Model.Lsm.defaultBytes, Tonbo.Model.Lsm.levelBytes]
  refine ⟨?_, h0, h1, ?_⟩
  · intro l
    cases l with
    | zero => rw [h0]; omega
    | succ l => rw [h1]
  · intro K R _ x l
    cases h : x.maxBytes <;> simp [Tonbo.Model.Lsm.caps, h]

/-- Two follow-ups at times `a` and then `b` respect the cooldown. -/
def Apart (cooldown : Nat) (ts : List Nat) : Prop := ts.Pairwise (fun a b => cooldown ≤ b - a)

theorem acquire_kept (c : Control) (now : Nat) :
    (c.acquire now).2.maxFollowUps = c.maxFollowUps ∧ (c.acquire now).2.cooldown = c.cooldown := by
  simp only [Control.acquire]; split_ifs <;> exact ⟨rfl, rfl⟩

/-- What a control has let through so far. -/
structure Past (c : Control) (ts : List Nat) : Prop where
  apart : Apart c.cooldown ts
  last : 0 < c.cooldown → ∀ t ∈ ts, ∃ l, c.last = some l ∧ t ≤ l

theorem job_spec (c : Control) (j : Job) (ts : List Nat) (h : Past c ts) :
    Past (c.job j).2 (ts ++ (c.job j).1.toList) ∧
    (c.job j).2.maxFollowUps = c.maxFollowUps ∧ (c.job j).2.cooldown = c.cooldown ∧
    (c.job j).1.toList.length + (c.job j).2.remaining ≤ c.remaining := by
  by_cases hj : j.fromL0 = true
  · by_cases hr : c.remaining = 0
    · have : c.job j = (none, c) := by simp [Control.job, hj, Control.acquire, hr]
      rw [this]; simpa using h
    · by_cases hc : c.cooling j.at_ = true
      · have : c.job j = (none, c) := by simp [Control.job, hj, Control.acquire, hr, hc]
        rw [this]; simpa using h
      · have e : c.job j = (if j.follow then some j.at_ else none,
            { c with remaining := c.remaining - 1, last := some j.at_ }) := by
          simp [Control.job, hj, Control.acquire, hr, hc]
        have old : 0 < c.cooldown → ∀ t ∈ ts, t + c.cooldown ≤ j.at_ := by
          intro hp t ht
          obtain ⟨l, hl, htl⟩ := h.last hp t ht
          simp only [Control.cooling, hl, decide_eq_true_eq] at hc
          omega
        have ap : ∀ t ∈ ts, c.cooldown ≤ j.at_ - t := by
          intro t ht
          by_cases hp : 0 < c.cooldown
          · have := old hp t ht; omega
          · omega
        rw [e]
        refine ⟨⟨?_, ?_⟩, rfl, rfl, ?_⟩
        · cases j.follow with
          | false => simpa using h.apart
          | true =>
            simp only [if_true, Option.toList_some]
            exact List.pairwise_append.2 ⟨h.apart, List.pairwise_singleton _ _, by
              intro a ha b hb; simp only [List.mem_singleton] at hb; subst hb; exact ap a ha⟩
        · intro hp t ht
          refine ⟨j.at_, rfl, ?_⟩
          rcases List.mem_append.1 ht with ht | ht
          · have := old hp t ht; omega
          · cases hf : j.follow <;> simp [hf] at ht; omega
        · cases j.follow <;> simp <;> omega
  · have : c.job j = (none, c) := by simp [Control.job, hj]
    rw [this]; simpa using h

theorem drain_spec (js : List Job) : ∀ (c : Control) (ts : List Nat), Past c ts →
    Past (c.drain js).2 (ts ++ (c.drain js).1) ∧
    (c.drain js).2.maxFollowUps = c.maxFollowUps ∧ (c.drain js).2.cooldown = c.cooldown ∧
    (c.drain js).1.length + (c.drain js).2.remaining ≤ c.remaining := by
  induction js with
  | nil => intro c ts h; simp [Control.drain]; exact h
  | cons j js ih =>
    intro c ts h
    obtain ⟨h1, h2, h3, h4⟩ := job_spec c j ts h
    obtain ⟨k1, k2, k3, k4⟩ := ih _ _ h1
    simp only [Control.drain]
    refine ⟨by simpa [List.append_assoc] using k1, by rw [k2, h2], by rw [k3, h3], ?_⟩
    simp only [List.length_append]; omega

theorem turns_spec (ts : List (Reason × List Job × Bool)) : ∀ (w w' : Worker) (past : List Nat) (xss : List (List Nat)),
    Past w.control past → w.turns ts = some (xss, w') →
    (∀ xs ∈ xss, xs.length ≤ w.control.maxFollowUps) ∧ Apart w.control.cooldown (past ++ xss.flatten) := by
  induction ts with
  | nil =>
    intro w w' past xss h e
    simp only [Worker.turns, Option.some.injEq, Prod.mk.injEq] at e
    obtain ⟨rfl, rfl⟩ := e
    simpa using h.apart
  | cons t ts ih =>
    obtain ⟨r, js, more⟩ := t
    intro w w' past xss h e
    simp only [Worker.turns] at e
    cases hx : w.turn r js more with
    | none => simp [hx] at e
    | some p =>
      obtain ⟨xs, w1⟩ := p
      simp only [hx] at e
      cases hy : w1.turns ts with
      | none => simp [hy] at e
      | some q =>
        obtain ⟨yss, w2⟩ := q
        simp only [hy, Option.some.injEq, Prod.mk.injEq] at e
        obtain ⟨rfl, rfl⟩ := e
        simp only [Worker.turn] at hx
        split_ifs at hx
        simp only [Option.some.injEq, Prod.mk.injEq] at hx
        obtain ⟨rfl, rfl⟩ := hx
        have hp : Past w.control.reset past := ⟨h.apart, h.last⟩
        obtain ⟨d1, d2, d3, d4⟩ := drain_spec js w.control.reset past hp
        obtain ⟨k1, k2⟩ := ih _ _ _ _ d1 hy
        have e2 : (w.control.cycle js).2.maxFollowUps = w.control.maxFollowUps := d2
        have e3 : (w.control.cycle js).2.cooldown = w.control.cooldown := d3
        have e4 : (w.control.cycle js).1.length ≤ w.control.maxFollowUps := by
          have : (w.control.cycle js).1.length + _ ≤ w.control.maxFollowUps := d4
          omega
        refine ⟨?_, ?_⟩
        · rintro ys (_ | ⟨_, hys⟩)
          · exact e4
          · have := k1 ys hys; simpa only [e2] using this
        · simp only [e3] at k2
          simpa [List.append_assoc, Control.cycle] using k2

/-- In every turn of the worker at most the configured number of follow-ups is scheduled, and any two
of them, in whatever turns, are at least the cooldown apart. (Missing: the bound between two requests
from outside; see `own_turns_refill_the_budget`.) -/
theorem follow_ups_are_bounded_partial (maxFollowUps cooldown : Nat) (ts : List (Reason × List Job × Bool))
    (xss : List (List Nat)) (w' : Worker)
    (h : Worker.turns ⟨Control.new maxFollowUps cooldown, false⟩ ts = some (xss, w')) :
    (∀ xs ∈ xss, xs.length ≤ maxFollowUps) ∧ Apart cooldown xss.flatten := by
  have := turns_spec ts _ _ [] xss ⟨List.Pairwise.nil, by simp⟩ h
  simpa [Control.new] using this

/-- Three turns, the second one refused by the cooldown. -/
def exTurns : List (Reason × List Job × Bool) :=
  [(.external, [⟨true, true, 100, true⟩, ⟨true, true, 110, true⟩], true),
    (.own, [⟨true, true, 120, true⟩], true), (.own, [⟨true, true, 700, true⟩], false)]

example : (Worker.turns ⟨Control.new 1 500, false⟩ exTurns).map (·.1) = some [[100], [], [700]] := by decide

/-- The configured number does not bound the follow-ups between two requests from outside: a follow-up
kicks the worker, and every turn refills the budget. One request, one follow-up allowed, and `n` of them
happen, for every `n`. -/
theorem own_turns_refill_the_budget (n cooldown : Nat) : ∃ ts xss w',
    Worker.turns ⟨Control.new 1 cooldown, false⟩ ts = some (xss, w') ∧ asked ts = 1 ∧
      (xss.flatten.length = n + 1) := by
  have key : ∀ n (w : Worker), w.again = true → w.control.maxFollowUps = 1 →
      w.control.cooldown = cooldown → ∃ ts xss w',
      w.turns ts = some (xss, w') ∧ asked ts = 0 ∧ xss.flatten.length = n := by
    intro n
    induction n with
    | zero => intro w _ _ _; exact ⟨[], [], w, rfl, rfl, rfl⟩
    | succ n ih =>
      intro w ha hm hc
      let t := w.control.last.getD 0 + cooldown
      have hcool : w.control.reset.cooling t = false := by
        simp only [Control.cooling, Control.reset]
        cases h : w.control.last with
        | none => rfl
        | some l => simp only [t, h, hc, Option.getD_some]; simp
      have hcyc : w.control.cycle [⟨true, true, t, true⟩] =
          ([t], { w.control.reset with remaining := 0, last := some t }) := by
        have hr : w.control.reset.remaining = 1 := hm
        simp [Control.cycle, Control.drain, Control.job, Control.acquire, hcool, hr]
      obtain ⟨ts, xss, w', h1, h2, h3⟩ :=
        ih ⟨{ w.control.reset with remaining := 0, last := some t }, true⟩ rfl hm hc
      refine ⟨(.own, [⟨true, true, t, true⟩], true) :: ts, [t] :: xss, w', ?_, ?_, ?_⟩
      · simp [Worker.turns, Worker.turn, ha, hcyc, h1]
      · simpa [asked] using h2
      · simp [← h3]
  let w1 : Worker := ⟨{ Control.new 1 cooldown with remaining := 0, last := some 0 }, true⟩
  obtain ⟨ts, xss, w', h1, h2, h3⟩ := key n w1 rfl rfl rfl
  refine ⟨(.external, [⟨true, true, 0, true⟩], true) :: ts, [0] :: xss, w', ?_, ?_, ?_⟩
  · have : Worker.turn ⟨Control.new 1 cooldown, false⟩ .external [⟨true, true, 0, true⟩] true = some ([0], w1) := rfl
    simp [Worker.turns, this, h1]
  · simpa [asked] using h2
  · simp [← h3]

end Tonbo.Props.C49
