import Verif.Model.Policy

/-!
# Writers under back pressure at the same time (src/db/mod.rs:135-182, 970-1092)

Any number of calls ask for the statistics of level zero at once. They share the cache, which is behind a lock, and
the mark that one of them is reading the manifest. Every step below is one access to shared state: taking the time,
what happens under the lock of the cache, the exchange of the mark, the answer of the manifest, putting the mark
back. The database has a compaction worker with counters, else nobody waits (1019-1024) or counts.
-/

namespace Tonbo.Model.Throttle
open Tonbo.Model.Policy

/-- What a call asks for: a write before its first answer, a write that was told to stop, with the delay it sleeps,
or a flush (db/mod.rs:1025-1028, 1045-1048, 1074-1077). -/
inductive Query where
  | first
  | again (delay : Nat)
  | flush
deriving Repr, DecidableEq

/-- The refresh is forced (db/mod.rs:1026, 1046, 1075). -/
def Query.force : Query → Bool
  | .again _ => true
  | _ => false

/-- Where a call is. -/
inductive At where
  /-- before `now` is taken (975) -/
  | start (q : Query)
  /-- before the lock of the cache (979) -/
  | look (q : Query) (now : Nat)
  /-- before the exchange of the mark (988-991) -/
  | claim (q : Query) (now : Nat)
  /-- the exchange failed (993) -/
  | lost (q : Query)
  /-- holds the mark, waits for the manifest (998) -/
  | reading (q : Query) (now : Nat)
  /-- has the answer of the manifest, waits for the lock of the cache (999) -/
  | update (q : Query) (now : Nat) (r : L0Stats)
  /-- the cache is written, the mark not yet put back (1002-1004, 177-181) -/
  | release (q : Query) (now : Nat) (r : L0Stats)
  /-- sleeps until a time, then asks again or goes on (1036, 1044, 1058) -/
  | sleep (till : Nat) (next : Option Query)
  /-- goes on: the write is made, the flush is tried; a flush that is not tried (1078-1081) -/
  | done (go : Bool)
  /-- the manifest could not be read (1005, 1028, 1048, 1077) -/
  | failed
  /-- the caller dropped the call -/
  | dropped
deriving Repr, DecidableEq

/-- The call holds the mark: its guard lives (996, 173-181). -/
def At.holds : At → Bool
  | .reading _ _ => true
  | .update _ _ _ => true
  | .release _ _ _ => true
  | _ => false

/-- The shared state: clock, level zero in the manifest, cache, mark; the calls; the counters of back pressure
(metrics.rs:275-276) and the number of times the worker was asked (db/compaction.rs:32-36). -/
structure Sys where
  now : Nat
  listed : L0Stats
  cache : Cache
  busy : Bool
  calls : List At
  slow : Nat
  stall : Nat
  kicks : Nat
deriving Repr

/-- A database as it is opened, with what its manifest lists (db/mod.rs:142-151). -/
def Sys.new (now : Nat) (listed : L0Stats) : Sys := ⟨now, listed, Cache.new now, false, [], 0, 0, 0⟩

/-- The largest value of a counter. -/
def most : Nat := 2 ^ 64 - 1

/-- `add_saturating(_, 1)` (metrics.rs:610-614). -/
def bump (n : Nat) : Nat := min (n + 1) most

/-- `record_backpressure` with a slowdown, and the sleep after it (metrics.rs:488-491, db/mod.rs:1033-1036,
1052-1059). -/
def Sys.slowed (s : Sys) (i d : Nat) : Sys :=
  { s with slow := bump s.slow, calls := s.calls.set i (.sleep (s.now + d) none) }

/-- `record_backpressure` with a stall, and the sleep after it (metrics.rs:492-494, db/mod.rs:1041-1044). -/
def Sys.stalled (s : Sys) (i d : Nat) : Sys :=
  { s with stall := bump s.stall, calls := s.calls.set i (.sleep (s.now + d) (some (.again d))) }

/-- What a call does with the statistics it is given (db/mod.rs:1029-1065, 1078-1083). -/
def Sys.hear (cfg : Config) (s : Sys) (i : Nat) (q : Query) (r : L0Stats) : Sys :=
  match q with
  | .first =>
    match cfg.decision r with
    | .proceed => { s with calls := s.calls.set i (.done true) }
    | .slowdown d => { s with kicks := s.kicks + 1 }.slowed i d
    | .stall d => { s with kicks := s.kicks + 1 }.stalled i d
  | .again delay =>
    match cfg.decision r with
    | .stall _ => s.stalled i delay
    | .slowdown d => s.slowed i d
    | .proceed => { s with calls := s.calls.set i (.done true) }
  | .flush =>
    match cfg.decision r with
    | .stall _ => { s with kicks := s.kicks + 1, calls := s.calls.set i (.done false) }
    | _ => { s with calls := s.calls.set i (.done true) }

/-- The refresh interval (db/mod.rs:976). -/
def interval (cfg : Config) : Nat := max cfg.stopDelay 1000000

/-- The next step of a call (db/mod.rs:970-1007). -/
def Sys.go (cfg : Config) (s : Sys) (i : Nat) : At → Sys
  | .start q => { s with calls := s.calls.set i (.look q s.now) }
  | .look q t =>
    if !q.force && s.cache.fresh t (interval cfg) then s.hear cfg i q s.cache.stats
    else if s.busy then s.hear cfg i q s.cache.stats
    else { s with calls := s.calls.set i (.claim q t) }
  | .claim q t =>
    if s.busy then { s with calls := s.calls.set i (.lost q) }
    else { s with busy := true, calls := s.calls.set i (.reading q t) }
  | .lost q => s.hear cfg i q s.cache.stats
  | .reading q t => { s with calls := s.calls.set i (.update q t s.listed) }
  | .update q t r => { s with cache := ⟨r, t, true⟩, calls := s.calls.set i (.release q t r) }
  | .release q _ r => { s with busy := false }.hear cfg i q r
  | .sleep till next =>
    if till ≤ s.now then
      match next with
      | none => { s with calls := s.calls.set i (.done true) }
      | some q => { s with calls := s.calls.set i (.start q) }
    else s
  | _ => s

/-- What can happen: a new call of a writer or of a flush, a step of a call, an error of the manifest for a call, the
end of a call dropped by its caller (its guard puts the mark back), time passing, a new version of the table. -/
inductive Op where
  | enter (flush : Bool)
  | go (i : Nat)
  | fail (i : Nat)
  | drop (i : Nat)
  | tick (d : Nat)
  | publish (r : L0Stats)
deriving Repr, DecidableEq

/-- One step. -/
def step (cfg : Config) (s : Sys) : Op → Sys
  | .enter f => { s with calls := s.calls ++ [.start (if f then .flush else .first)] }
  | .go i =>
    match s.calls[i]? with
    | none => s
    | some a => s.go cfg i a
  | .fail i =>
    match s.calls[i]? with
    | some (.reading _ _) => { s with busy := false, calls := s.calls.set i .failed }
    | _ => s
  | .drop i =>
    match s.calls[i]? with
    | none => s
    | some a => { s with busy := s.busy && !a.holds, calls := s.calls.set i .dropped }
  | .tick d => { s with now := s.now + d }
  | .publish r => { s with listed := r }

end Tonbo.Model.Throttle
