import Verif.Spec.CalmView

/-!
# Histories whose crashes leave a log that ends with a payload or a commit record

`Calm` asks of a crash that numbers go on above those in the log, in terms of what opening the log
computes. Here the same is asked of the log alone.
-/

namespace Tonbo.Spec.Durable
open Tonbo.Model Tonbo.Model.Durable
open Tonbo.Model.Wal (Event)

variable {A K R : Type} [LinearOrder K]

/-- A payload or a commit record. -/
def Telling : Event A → Prop
  | .append .. | .delete .. | .commit .. => True
  | _ => False

/-- The log has no frames, or the last segment has and the last of them is a payload or a commit
record. -/
def Settled (segs : List (LSeg A)) : Prop :=
  (∀ g ∈ segs, g.frames = []) ∨
  ∃ g ∈ segs.getLast?, ∃ p ∈ g.frames.getLast?, Telling p.2

/-- The last frame of the log is a payload or a commit record, and no frame is of a transaction with a
larger number. -/
def Topped (segs : List (LSeg A)) : Prop :=
  ∃ g ∈ segs.getLast?, ∃ p ∈ g.frames.getLast?, Telling p.2 ∧ ∀ g' ∈ segs, ∀ q ∈ g'.frames, evId q.2 ≤ evId p.2

/-- A write begins while none is in flight. -/
def Alone (s : Sys A K R) : Durable.Op K R → Prop
  | .write .. => s.writers = []
  | _ => True

/-- Writes follow one another. -/
def AloneRun (c : Ctx A K R) : Sys A K R → List (Durable.Op K R) → Prop
  | _, [] => True
  | s, o :: os => Alone s o ∧ AloneRun c (Durable.step c s o) os

/-- `Calm`, for writes that follow one another, with `Settled` instead of the numbers. -/
def CalmEnd (c : Ctx A K R) (s : Sys A K R) : Durable.Op K R → Prop
  | .crash cap pol _ =>
    0 < cap ∧ Settled s.segs ∧
    ∀ r ∈ Wal.replay c.ext c.sch pol (Mem.Runs.new cap) (replayed (floorOf c s) s.segs), r.1.runs = []
  | o => Calm c s o ∧ Alone s o

/-- Every step of the history is. -/
def CalmEndRun (c : Ctx A K R) : Sys A K R → List (Durable.Op K R) → Prop
  | _, [] => True
  | s, o :: os => CalmEnd c s o ∧ CalmEndRun c (Durable.step c s o) os

end Tonbo.Spec.Durable
