import Verif.Model.Throttle
import Verif.Spec.PolicyView

/-!
# What callers under back pressure are told, and from when it is

A schedule is endless; a finite one goes on with steps that change nothing (`tick 0`).
-/

namespace Tonbo.Spec.Throttle
open Tonbo.Model.Policy Tonbo.Model.Throttle

variable (cfg : Config) (s₀ : Sys) (sched : Nat → Op)

/-- The state before the `n`-th step. -/
def state : Nat → Sys
  | 0 => s₀
  | n + 1 => step cfg (state n) (sched n)

/-- Call `i` before the `n`-th step. -/
def call (i n : Nat) : Option At := (state cfg s₀ sched n).calls[i]?

/-- The call that gets its statistics in this step, what it asked for, and the statistics. -/
def told (cfg : Config) (s : Sys) : Op → Option (Nat × Query × L0Stats)
  | .go i =>
    match s.calls[i]? with
    | some (.look q t) =>
      if (!q.force && s.cache.fresh t (interval cfg)) || s.busy then some (i, q, s.cache.stats) else none
    | some (.lost q) => some (i, q, s.cache.stats)
    | some (.release q _ r) => some (i, q, r)
    | _ => none
  | _ => none

/-- The moments: `0` is before anything was read, when an empty level is assumed; `k + 1` is the state before the
`k`-th step. -/
def shown : Nat → L0Stats
  | 0 => ⟨0, some 0⟩
  | k + 1 => (state cfg s₀ sched k).listed

/-- Call `i` gets the answer of the manifest in step `k` and puts it into the cache in step `n`. -/
def Refresh (i k n : Nat) : Prop :=
  k < n ∧ sched k = .go i ∧ sched n = .go i ∧ (∃ q t, call cfg s₀ sched i k = some (.reading q t)) ∧
    ∀ m, k < m → m ≤ n → ∃ q t r, call cfg s₀ sched i m = some (.update q t r)

/-- The statistics told to call `i` before step `n`. -/
def heard (i : Nat) : Nat → List L0Stats
  | 0 => []
  | n + 1 => heard i n ++
      match told cfg (state cfg s₀ sched n) (sched n) with
      | some (j, _, r) => if j = i then [r] else []
      | none => []

/-- The sleeps of call `i` that began before step `n`. -/
def slept (i : Nat) : Nat → List Nat
  | 0 => []
  | n + 1 => slept i n ++
      match call cfg s₀ sched i n, call cfg s₀ sched i (n + 1) with
      | some (.sleep _ _), _ => []
      | _, some (.sleep till _) => [till - (state cfg s₀ sched n).now]
      | _, _ => []

/-- The call got the cached statistics only because another call was reading the manifest. -/
def Met (s : Sys) (i : Nat) : Prop :=
  (∃ q t, s.calls[i]? = some (.look q t) ∧ (!q.force && s.cache.fresh t (interval cfg)) = false) ∨
    ∃ q, s.calls[i]? = some (.lost q)

/-- The time at which a call that is under way asked. -/
def askedAt : At → Option Nat
  | .look _ t => some t
  | .claim _ t => some t
  | .reading _ t => some t
  | .update _ t _ => some t
  | .release _ t _ => some t
  | _ => none

/-- What a call that is asking asked for. -/
def askOf : At → Option Query
  | .start q => some q
  | .look q _ => some q
  | .claim q _ => some q
  | .lost q => some q
  | .reading q _ => some q
  | .update q _ _ => some q
  | .release q _ _ => some q
  | _ => none

/-- The steps call `i` takes itself, from step `n` on, among the next `d`. -/
def own (sched : Nat → Op) (i n : Nat) : Nat → Nat
  | 0 => 0
  | d + 1 => own sched i n d + if sched (n + d) = .go i then 1 else 0

/-- The answer counts as a slowdown: a writer got it and level zero is at a slowdown limit only. -/
def CountsSlow (q : Query) (r : L0Stats) : Prop := q ≠ .flush ∧ ¬ AtStop cfg r ∧ AtSlow cfg r

/-- The answer counts as a stall: a writer got it and level zero is at a stop limit. -/
def CountsStall (q : Query) (r : L0Stats) : Prop := q ≠ .flush ∧ AtStop cfg r

/-- The answer makes the caller ask for a compaction: the first answer of a writer above a limit, or the answer of a
flush above a stop limit. -/
def CountsKick (q : Query) (r : L0Stats) : Prop :=
  (q = .first ∧ (AtStop cfg r ∨ AtSlow cfg r)) ∨ (q = .flush ∧ AtStop cfg r)

open Classical in
/-- The number of answers of a kind before step `n`. -/
noncomputable def count (P : Query → L0Stats → Prop) : Nat → Nat
  | 0 => 0
  | n + 1 => count P n +
      match told cfg (state cfg s₀ sched n) (sched n) with
      | some (_, q, r) => if P q r then 1 else 0
      | none => 0

end Tonbo.Spec.Throttle
