import Verif.Model.Settings

/-!
# What the calls on the builder say

For every setting: the value a call gives it, if it does.
-/

namespace Tonbo.Spec.Settings
open Tonbo.Model Tonbo.Model.Settings

/-- The last value given by a list of calls. -/
def last {C α : Type} (f : C → Option α) (cs : List C) : Option α := (cs.filterMap f).getLast?

/-- The settings of the log, with their names in `WalConfig`. -/
def segBytesOf : Call → Option Nat
  | .walSegmentBytes n => some n
  | .walConfig o => o.segBytes
  | _ => none
def segAgeOf : Call → Option (Option Nat)
  | .walConfig o => o.segAge
  | _ => none
def flushOf : Call → Option Nat
  | .walFlush d => some d
  | .walConfig o => o.flush
  | _ => none
def syncOf : Call → Option WalT.TSync
  | .walSync p => some p
  | .walConfig o => o.sync
  | _ => none
def recoveryOf : Call → Option Mode
  | .walConfig o => o.recovery
  | _ => none
def retentionOf : Call → Option (Option Nat)
  | .walRetention r => some r
  | .walConfig o => o.retention
  | _ => none
def queueOf : Call → Option Nat
  | .walConfig o => o.queue
  | _ => none
def dirOf : Call → Option String
  | .walConfig o => o.dir
  | _ => none
def backendOf : Call → Option Nat
  | .walConfig o => o.backend
  | _ => none
def storeOf : Call → Option (Option Nat)
  | .walConfig o => o.store
  | _ => none

/-- The other settings. -/
def tableOf : Call → Option String
  | .table n => some n
  | _ => none
def ackOf : Call → Option Bool
  | .ack f => some f
  | _ => none
def minorOf : Call → Option (Option (Nat × Nat))
  | .minor t l => some (some (t, l))
  | .noMinor => some none
  | _ => none
def strategyOf : Call → Option Planner.PCfg
  | .comp c => some c.strategy
  | .strategy s => some s
  | _ => none
def compOf : Call → Option Comp
  | .comp c => some c
  | _ => none

/-- The settings of the compaction options. -/
def cStrategy : CompCall → Option Planner.PCfg
  | .strategy s => some s
  | _ => none
def cJobs : CompCall → Option Nat
  | .jobs n => some n
  | _ => none
def cQueue : CompCall → Option Nat
  | .queue n => some n
  | _ => none
def cRows : CompCall → Option Nat
  | .rows n => some n
  | _ => none
def cBytes : CompCall → Option Nat
  | .bytes n => some n
  | _ => none
def cTick : CompCall → Option Nat
  | .tick d => some d
  | _ => none
def cBack : CompCall → Option (Option Policy.Config)
  | .back b => some (some b)
  | .noBack => some none
  | _ => none
def cCascade : CompCall → Option Cascade
  | .cascade x => some x
  | _ => none
def cBackoff : CompCall → Option Guards.Backoff
  | .backoff b => some b
  | _ => none

/-- The call is about the log. -/
def aboutLog : Call → Bool
  | .walConfig _ | .walSegmentBytes _ | .walSync _ | .walFlush _ | .walRetention _ => true
  | _ => false

/-- Two calls are about different settings: none of them is given a value by both. -/
def Apart (a b : Call) : Prop :=
  (segBytesOf a = none ∨ segBytesOf b = none) ∧ (segAgeOf a = none ∨ segAgeOf b = none) ∧
  (flushOf a = none ∨ flushOf b = none) ∧ (syncOf a = none ∨ syncOf b = none) ∧
  (recoveryOf a = none ∨ recoveryOf b = none) ∧ (retentionOf a = none ∨ retentionOf b = none) ∧
  (queueOf a = none ∨ queueOf b = none) ∧ (dirOf a = none ∨ dirOf b = none) ∧
  (backendOf a = none ∨ backendOf b = none) ∧ (storeOf a = none ∨ storeOf b = none) ∧
  (tableOf a = none ∨ tableOf b = none) ∧ (ackOf a = none ∨ ackOf b = none) ∧
  (minorOf a = none ∨ minorOf b = none) ∧ (strategyOf a = none ∨ strategyOf b = none)

end Tonbo.Spec.Settings
