/-!
# Commit clock  (src/mvcc/mod.rs)

`u64` is modelled as `Nat`: wrap-around after 2^64 allocations is not modelled.
-/

namespace Tonbo.Model.Clock

/-- What an observer of the clock sees, in order. -/
inductive Ev where
  /-- `alloc()` returned this timestamp. -/
  | alloc (ts : Nat)
  /-- a call `advance_to_at_least(c)` returned. -/
  | advanced (c : Nat)
deriving Repr, DecidableEq

/-- State of one call of `advance_to_at_least` in progress: the candidate and the local variable
`current` (src/mvcc/mod.rs:109-123). -/
structure Adv where
  cand : Nat
  current : Nat
deriving Repr, DecidableEq

/-- Shared atomic `next` (src/mvcc/mod.rs:79-81), the calls in progress of every thread, and the
ghost log of completed calls, newest first. -/
structure St where
  next : Nat
  thr : Nat → Option Adv
  log : List Ev

/-- `CommitClock::new(start)` (src/mvcc/mod.rs:86-90); `Default` starts at `Timestamp::MIN` = 0
(src/mvcc/mod.rs:126-130). -/
def init (start : Nat := 0) : St := { next := start, thr := fun _ => none, log := [] }

/-- Replace the local state of one thread. -/
def setThr (f : Nat → Option Adv) (i : Nat) (v : Option Adv) : Nat → Option Adv :=
  fun j => if j = i then v else f j

/-- `CommitClock::peek` (src/mvcc/mod.rs:101-103). -/
def peek (s : St) : Nat := s.next

/-- `begin_snapshot`'s read timestamp: `peek().saturating_sub(1)` (src/db/mod.rs:826-827). -/
def snapshotTs (s : St) : Nat := s.next - 1

/-- One atomic action of some thread. -/
inductive Act where
  /-- thread runs `alloc`: `fetch_add(1)` (src/mvcc/mod.rs:94-97). -/
  | alloc
  /-- thread `i` calls `advance_to_at_least(c)` and performs the initial load
  (src/mvcc/mod.rs:111). -/
  | call (i c : Nat)
  /-- thread `i` evaluates the loop condition and, when it holds, performs one compare-exchange
  (src/mvcc/mod.rs:112-122). -/
  | loop (i : Nat)
deriving Repr, DecidableEq

/-- Effect of one atomic action. Actions not enabled leave the state unchanged. -/
def step (s : St) : Act → St
  | .alloc => { s with next := s.next + 1, log := .alloc s.next :: s.log }
  | .call i c =>
    match s.thr i with
    | none => { s with thr := setThr s.thr i (some ⟨c, s.next⟩) }
    | some _ => s
  | .loop i =>
    match s.thr i with
    | none => s
    | some a =>
      if a.current < a.cand then
        if s.next = a.current then
          { next := a.cand, thr := setThr s.thr i none, log := .advanced a.cand :: s.log }
        else
          { s with thr := setThr s.thr i (some ⟨a.cand, s.next⟩) }
      else
        { s with thr := setThr s.thr i none, log := .advanced a.cand :: s.log }

/-- Any finite schedule. -/
def run (s : St) (as : List Act) : St := as.foldl step s

end Tonbo.Model.Clock
