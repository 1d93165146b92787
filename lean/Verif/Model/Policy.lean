/-!
# When to seal, when to slow ingest down
(src/inmem/policy.rs, src/db/wal.rs:191-200, src/db/mod.rs:128-211, 938-1066, src/db/builder.rs:1350-1447)

Counters are unbounded; durations are counted in nanoseconds.
-/

namespace Tonbo.Model.Policy

/-- `MemStats` (policy.rs:14-37), without the counters no policy reads. -/
structure MemStats where
  entries : Nat
  keyBytes : Nat
  overhead : Nat
  openRows : Option Nat
  batches : Option Nat
  sinceSeal : Option Nat
deriving Repr, DecidableEq

/-- The policies (policy.rs:80-214). `AllOf` exists in tests only. -/
inductive SealPolicy where
  | never
  | bytes (limit : Nat)
  | openRows (rows : Nat)
  | batches (n : Nat)
  | elapsed (interval : Nat)
  | anyOf (ps : List SealPolicy)

/-- `SealReason` (policy.rs:48-67), those that occur. -/
inductive Reason where
  | bytes (approx limit : Nat)
  | openRows (count limit : Nat)
  | batches (count limit : Nat)
  | elapsed (elapsed limit : Nat)
deriving Repr, DecidableEq

mutual
/-- `evaluate` (policy.rs:82-86, 120-131, 140-150, 159-169, 178-190, 205-214); `none` is `NoOp`. -/
def evaluate : SealPolicy → MemStats → Option Reason
  | .never, _ => none
  | .bytes limit, s =>
    if limit ≤ s.keyBytes + s.entries * s.overhead then
      some (.bytes (s.keyBytes + s.entries * s.overhead) limit)
    else none
  | .openRows rows, s =>
    match s.openRows with
    | some c => if rows ≤ c then some (.openRows c rows) else none
    | none => none
  | .batches n, s =>
    match s.batches with
    | some c => if n ≤ c then some (.batches c n) else none
    | none => none
  | .elapsed interval, s =>
    match s.sinceSeal with
    | some e => if interval ≤ e then some (.elapsed e interval) else none
    | none => none
  | .anyOf ps, s => evaluateAny ps s

/-- The loop of `AnyOf::evaluate` (policy.rs:206-213). -/
def evaluateAny : List SealPolicy → MemStats → Option Reason
  | [], _ => none
  | p :: ps, s =>
    match evaluate p s with
    | some r => some r
    | none => evaluateAny ps s
end

/-- `default_policy` (policy.rs:99-111). -/
def defaultPolicy : SealPolicy :=
  .anyOf [.bytes (64 * 1024 * 1024), .elapsed (30 * 1000000000), .openRows 16384, .batches 64]

/-- `L0BackpressureConfig` (builder.rs:1350-1357). -/
structure Config where
  slowFiles : Nat
  stopFiles : Nat
  slowBytes : Option Nat
  stopBytes : Option Nat
  slowDelay : Nat
  stopDelay : Nat
deriving Repr, DecidableEq

/-- `Default` (builder.rs:1359-1370). -/
def Config.default : Config := ⟨16, 32, none, none, 25000000, 200000000⟩

/-- `new` (builder.rs:1375-1383). -/
def Config.new (slow stop : Nat) : Config :=
  { Config.default with slowFiles := max slow 1, stopFiles := max stop (max slow 1) }

/-- `slowdown_delay` (builder.rs:1387-1392). -/
def Config.slowdownDelay (c : Config) (d : Nat) : Config := if d = 0 then c else { c with slowDelay := d }

/-- `stop_delay` (builder.rs:1396-1401). -/
def Config.stopDelay' (c : Config) (d : Nat) : Config := if d = 0 then c else { c with stopDelay := d }

/-- `slowdown_bytes` (builder.rs:1405-1411). -/
def Config.slowdownBytes (c : Config) (b : Nat) : Config :=
  { c with
    slowBytes := some (max b 1)
    stopBytes := match c.stopBytes with
      | some s => some (max s (max b 1))
      | none => none }

/-- `stop_bytes` (builder.rs:1415-1422). -/
def Config.stopBytes' (c : Config) (b : Nat) : Config :=
  { c with
    stopBytes := match c.slowBytes with
      | some s => some (max (max b 1) s)
      | none => some (max b 1) }

/-- A call on the builder. -/
inductive Call where
  | slowdownDelay (d : Nat)
  | stopDelay (d : Nat)
  | slowdownBytes (b : Nat)
  | stopBytes (b : Nat)
deriving Repr, DecidableEq

/-- A chain of calls. -/
def Config.apply (c : Config) : List Call → Config
  | [] => c
  | .slowdownDelay d :: cs => (c.slowdownDelay d).apply cs
  | .stopDelay d :: cs => (c.stopDelay' d).apply cs
  | .slowdownBytes b :: cs => (c.slowdownBytes b).apply cs
  | .stopBytes b :: cs => (c.stopBytes' b).apply cs

/-- `L0Stats` (db/mod.rs:128-133). -/
structure L0Stats where
  files : Nat
  bytes : Option Nat
deriving Repr, DecidableEq

/-- `BackpressureDecision` (db/mod.rs:184-189). -/
inductive Decision where
  | proceed
  | slowdown (delay : Nat)
  | stall (delay : Nat)
deriving Repr, DecidableEq

/-- The total reaches the limit, both being known (db/mod.rs:195-202). -/
def reaches : Option Nat → Option Nat → Bool
  | some limit, some total => decide (limit ≤ total)
  | _, _ => false

/-- `decision` (db/mod.rs:192-211). -/
def Config.decision (c : Config) (s : L0Stats) : Decision :=
  if decide (c.stopFiles ≤ s.files) || reaches c.stopBytes s.bytes then .stall c.stopDelay
  else if decide (c.slowFiles ≤ s.files) || reaches c.slowBytes s.bytes then .slowdown c.slowDelay
  else .proceed

/-- The loop of `l0_stats_from_manifest` over level 0 (db/mod.rs:957-964); an entry is the size in its
statistics. The sum is not saturated. -/
def totalBytes : Nat → List (Option Nat) → Option Nat
  | sum, [] => some sum
  | _, none :: _ => none
  | sum, some b :: es => totalBytes (sum + b) es

/-- `l0_stats_from_manifest` (db/mod.rs:938-968): level 0 of the latest version, `none` without a
version or level. -/
def statsOf : Option (List (Option Nat)) → L0Stats
  | none => ⟨0, some 0⟩
  | some es => ⟨es.length, totalBytes 0 es⟩

/-- Sleeping while the readings say stall (db/mod.rs:1041-1063). `none`: the readings run out. The list
holds the delays slept. -/
def stalled (c : Config) (delay : Nat) : List L0Stats → Option (List Nat)
  | [] => none
  | s :: ss =>
    match c.decision s with
    | .stall _ => (stalled c delay ss).map (delay :: ·)
    | .slowdown d => some [delay, d]
    | .proceed => some [delay]

/-- `apply_l0_backpressure` (db/mod.rs:1017-1066) with the successive readings of the statistics. -/
def backpressure (c : Config) : List L0Stats → Option (List Nat)
  | [] => none
  | s :: ss =>
    match c.decision s with
    | .proceed => some []
    | .slowdown d => some [d]
    | .stall d => stalled c d ss

/-- `L0StatsCache` (db/mod.rs:135-165); times in nanoseconds. -/
structure Cache where
  stats : L0Stats
  at_ : Nat
  valid : Bool
deriving Repr, DecidableEq

/-- `L0StatsCache::new` (db/mod.rs:142-151). -/
def Cache.new (now : Nat) : Cache := ⟨⟨0, some 0⟩, now, false⟩

/-- `is_fresh` (db/mod.rs:153-155). -/
def Cache.fresh (c : Cache) (now interval : Nat) : Bool := c.valid && decide (now - c.at_ < interval)

/-- `l0_stats` of one caller alone (db/mod.rs:970-1007): the cached statistics if fresh, else those of
the manifest. A reader that meets another one refreshing gets the cached statistics whatever their age;
that case is `Model/Throttle.lean`. -/
def Cache.read (cfg : Config) (c : Cache) (now : Nat) (force : Bool) (manifest : L0Stats) : L0Stats × Cache :=
  if !force && c.fresh now (max cfg.stopDelay 1000000) then (c.stats, c)
  else (manifest, ⟨manifest, now, true⟩)

end Tonbo.Model.Policy
