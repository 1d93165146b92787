/-!
# Limits on follow-up compactions and on retries  (src/compaction/driver.rs, src/db/builder.rs:1486-1527)

Times and durations are counted in nanoseconds.
-/

namespace Tonbo.Model.Guards

/-- `Duration::MAX` (std). -/
def durMax : Nat := (2 ^ 64 - 1) * 1000000000 + 999999999

/-- `CasBackoffConfig` (builder.rs:1486-1489). -/
structure Backoff where
  base : Nat
  max : Nat
deriving Repr, DecidableEq

/-- `CasBackoffConfig::new` (builder.rs:1503-1518). -/
def Backoff.new (base max : Nat) : Backoff :=
  let b := if base = 0 then 1000000 else base
  ⟨b, if max < b then b else max⟩

/-- Doubling with saturation, `n` times (driver.rs:301-303). -/
def doubled : Nat → Nat → Nat
  | 0, d => d
  | n + 1, d => doubled n (min (d * 2) durMax)

/-- `cas_backoff_delay` (driver.rs:296-306). -/
def Backoff.delay (c : Backoff) (attempt : Nat) : Nat :=
  if attempt = 0 then 0
  else if c.max < doubled (attempt - 1) c.base then c.max else doubled (attempt - 1) c.base

/-- How one round of `run_scheduled_compaction` ends (driver.rs:675-872). -/
inductive Round where
  /-- nothing to do (any more), an error, or published -/
  | ended
  /-- the manifest refuses the head -/
  | conflict
deriving Repr, DecidableEq

/-- How a job ends. -/
inductive End where
  | ended
  | gaveUp
deriving Repr, DecidableEq

/-- The loop of `run_scheduled_compaction` (driver.rs:672-874): `n` rounds are over, the list tells how
the next ones will end. The delays slept, and the end unless the list runs out. -/
def retry (c : Backoff) (n : Nat) : List Round → List Nat × Option End
  | [] => ([], none)
  | .ended :: _ => ([], some .ended)
  | .conflict :: rs =>
    if 2 ≤ n + 1 then ([], some .gaveUp)
    else
      let r := retry c (n + 1) rs
      (c.delay (n + 1) :: r.1, r.2)

/-- `CascadeControl` (driver.rs:44-49). -/
structure Control where
  maxFollowUps : Nat
  cooldown : Nat
  remaining : Nat
  last : Option Nat
deriving Repr, DecidableEq

/-- `new` (driver.rs:59-66). -/
def Control.new (maxFollowUps cooldown : Nat) : Control := ⟨maxFollowUps, cooldown, maxFollowUps, none⟩

/-- `reset_budget` (driver.rs:68-70). -/
def Control.reset (c : Control) : Control := { c with remaining := c.maxFollowUps }

/-- `CascadeDecision` (driver.rs:52-56). -/
inductive Verdict where
  | allowed | budget | cooldown
deriving Repr, DecidableEq

/-- The cooldown is still running (driver.rs:76-77). `duration_since` is zero for a later instant. -/
def Control.cooling (c : Control) (now : Nat) : Bool :=
  match c.last with
  | some l => decide (now - l < c.cooldown)
  | none => false

/-- `try_acquire` (driver.rs:72-84). -/
def Control.acquire (c : Control) (now : Nat) : Verdict × Control :=
  if c.remaining = 0 then (.budget, c)
  else if c.cooling now then (.cooldown, c)
  else (.allowed, { c with remaining := c.remaining - 1, last := some now })

/-- What a finished job of a cycle brings (driver.rs:1005-1130): whether it went from level 0 to level
1 and edited the manifest, the time it ended, whether a follow-up was planned and the queue took it. -/
structure Job where
  fromL0 : Bool
  edited : Bool
  at_ : Nat
  follow : Bool
deriving Repr, DecidableEq

/-- One finished job (driver.rs:1029-1129): the time of the follow-up it schedules. -/
def Control.job (c : Control) (j : Job) : Option Nat × Control :=
  if j.fromL0 then
    match c.acquire j.at_ with
    | (.allowed, c') => (if j.follow then some j.at_ else none, c')
    | (_, c') => (none, c')
  else (none, c)

/-- The jobs of a cycle, in the order in which they finish (driver.rs:979-1134). -/
def Control.drain (c : Control) : List Job → List Nat × Control
  | [] => ([], c)
  | j :: js =>
    let r := c.job j
    let r' := r.2.drain js
    (r.1.toList ++ r'.1, r'.2)

/-- One turn of the worker loop (driver.rs:1193-1251): the budget is refilled whatever the reason for
the turn. The times of the follow-ups. -/
def Control.cycle (c : Control) (js : List Job) : List Nat × Control := c.reset.drain js

/-- Why the worker runs a cycle (driver.rs:1195-1205, 1118, 1249-1251): it was asked to, or a cycle
before left work. -/
inductive Reason where
  | external
  | own
deriving Repr, DecidableEq

/-- The worker: the control, and whether it will run again by itself. -/
structure Worker where
  control : Control
  again : Bool
deriving Repr, DecidableEq

/-- A turn of the worker loop: a follow-up kicks the worker (driver.rs:1118), and so does an edit of
the manifest after which there is something to plan, `more` (driver.rs:1246-1251). `none`: there is no
reason to run. Kicks that the full channel drops are left out. -/
def Worker.turn (w : Worker) (r : Reason) (js : List Job) (more : Bool) : Option (List Nat × Worker) :=
  if r = .own ∧ w.again = false then none
  else
    let d := w.control.cycle js
    some (d.1, ⟨d.2, decide (d.1 ≠ []) || (js.any (·.edited) && more)⟩)

/-- Many turns: the times of the follow-ups of each. -/
def Worker.turns (w : Worker) : List (Reason × List Job × Bool) → Option (List (List Nat) × Worker)
  | [] => some ([], w)
  | (r, js, more) :: ts =>
    match w.turn r js more with
    | none => none
    | some (xs, w') =>
      match w'.turns ts with
      | none => none
      | some (yss, w'') => some (xs :: yss, w'')

end Tonbo.Model.Guards
