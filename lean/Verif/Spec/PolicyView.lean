import Verif.Model.Policy
import Verif.Model.Guards

/-!
# Thresholds, and what counts as a follow-up
-/

namespace Tonbo.Spec
open Tonbo.Model.Policy Tonbo.Model.Guards

/-- The statistics reach a threshold of the policy. -/
inductive ThresholdMet (s : MemStats) : SealPolicy → Prop
  | bytes {limit} : limit ≤ s.keyBytes + s.entries * s.overhead → ThresholdMet s (.bytes limit)
  | openRows {rows n} : s.openRows = some n → rows ≤ n → ThresholdMet s (.openRows rows)
  | batches {b n} : s.batches = some n → b ≤ n → ThresholdMet s (.batches b)
  | elapsed {i e} : s.sinceSeal = some e → i ≤ e → ThresholdMet s (.elapsed i)
  | anyOf {ps p} : p ∈ ps → ThresholdMet s p → ThresholdMet s (.anyOf ps)

/-- Level 0 reaches the limit on files or the one on bytes, as far as there is one and the size is
known. -/
def AtLimit (files : Nat) (bytes : Option Nat) (s : L0Stats) : Prop :=
  files ≤ s.files ∨ ∃ limit total, bytes = some limit ∧ s.bytes = some total ∧ limit ≤ total

/-- Level 0 reaches a stop limit. -/
def AtStop (c : Config) (s : L0Stats) : Prop := AtLimit c.stopFiles c.stopBytes s

/-- Level 0 reaches a slowdown limit. -/
def AtSlow (c : Config) (s : L0Stats) : Prop := AtLimit c.slowFiles c.slowBytes s

/-- Reading the cache at increasing times; the manifest says `m t` at time `t`. The readings with the
times at which they were asked for. -/
def readings (cfg : Config) (m : Nat → L0Stats) : Cache → List (Nat × Bool) → List (Nat × Bool × L0Stats)
  | _, [] => []
  | c, (now, force) :: qs =>
    let r := c.read cfg now force (m now)
    (now, force, r.1) :: readings cfg m r.2 qs

/-- The number of cycles that someone asked for. -/
def asked (ts : List (Tonbo.Model.Guards.Reason × List Job × Bool)) : Nat :=
  (ts.filter (fun t => decide (t.1 = .external))).length

end Tonbo.Spec
