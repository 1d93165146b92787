import Verif.Spec.LsmView
import Verif.Model.Fleet

/-!
# One writer and its readers
-/

namespace Tonbo.Spec
open Tonbo.Model Tonbo.Model.Manifest Tonbo.Model.Planner Tonbo.Model.Lsm

variable {K R : Type}

/-- Process `p` opens the table, again and again, and reads. -/
def OnlyReads (p : Nat) (ops : List (Nat × Fleet.Act K R)) : Prop := ∀ o ∈ ops, o.1 = p → ∃ cap, o.2 = .enter cap

/-- Only process `w` writes, flushes and compacts. -/
def OneWriter (w : Nat) (ops : List (Nat × Fleet.Act K R)) : Prop := ∀ p, p ≠ w → OnlyReads p ops

/-- What process `p` does. -/
def doneBy (p : Nat) (ops : List (Nat × Fleet.Act K R)) : List (Fleet.Act K R) :=
  (ops.filter (fun o => o.1 = p)).map Prod.snd

/-- The process never ends. -/
def OneLife (p : Nat) (ops : List (Nat × Fleet.Act K R)) : Prop := ∀ cap, (p, Fleet.Act.enter cap) ∉ ops

/-- The steps of a process with their timestamps: they are numbered from zero in every life. -/
def timed (c : Nat) : List (Fleet.Act K R) → List (Lsm.Op K R)
  | [] => []
  | .put rows :: l => .write (.put (rows.map (fun r => (r, c)))) :: timed (c + 1) l
  | .del keys :: l => .write (.del (keys.map (fun k => (k, c)))) :: timed (c + 1) l
  | .enter cap :: l => .reopen cap :: timed 0 l
  | .freeze :: l => .write .freeze :: timed c l
  | .flush count refs :: l => .flushSome count refs :: timed c l
  | .publish :: l => .flushPublish :: timed c l
  | .drain :: l => .flushDrain :: timed c l
  | .start t head skip :: l => .start t head skip :: timed c l
  | .finish i :: l => .finish i :: timed c l
  | .setWal refs :: l => .setWal refs :: timed c l

/-- The writes of every life of a process, where `sofar` are those of its present life. -/
def sessionsFrom [DecidableEq K] (ext : R → Option K) (sofar : List (Ver K R)) : List (Lsm.Op K R) → List (List (Ver K R))
  | [] => [sofar]
  | .reopen _ :: os => sofar :: sessionsFrom ext [] os
  | .write op :: os => sessionsFrom ext (sofar ++ batchWrites ext op) os
  | _ :: os => sessionsFrom ext sofar os

/-- The writes of every life of process `p`, in order; the last is the present one. -/
def lives [DecidableEq K] (ext : R → Option K) (p : Nat) (ops : List (Nat × Fleet.Act K R)) : List (List (Ver K R)) :=
  sessionsFrom ext [] (timed 0 (doneBy p ops))

/-- Of every life a beginning. -/
def Beginnings (parts lives : List (List (Ver K R))) : Prop := List.Forall₂ (· <+: ·) parts lives

/-- The process has nothing in memory. -/
def NothingInMemory (p : Fleet.Proc K R) : Prop := p.runs.runs = [] ∧ p.runs.mem.index = []

/-- No part became shorter. -/
def Grows (parts parts' : List (List (Ver K R))) : Prop :=
  ∀ (i : Nat) (a : List (Ver K R)), parts[i]? = some a → ∃ b, parts'[i]? = some b ∧ a <+: b

end Tonbo.Spec
