import Verif.Model.Fence

/-!
# What the users of several handles see

Acknowledgements, in the order in which they are sent, and frames that are in some segment file.
-/

namespace Tonbo.Spec.FenceView
open Tonbo.Model.Fence

variable {F : Type}

/-- The acknowledgements sent during some steps. -/
def acksFrom (sf : Bool) (s : Sys F) : List (Op F) → List (Ack F)
  | [] => []
  | o :: r => (step sf s o).2 ++ acksFrom sf (step sf s o).1 r

/-- All acknowledgements of a history, whatever the handle. -/
def acks (sf : Bool) (ops : List (Op F)) : List (Ack F) := acksFrom sf Sys.new ops

/-- The frame number `n` with content `f` is in some segment file. -/
def InLog (l : Log F) (n : Nat) (f : F) : Prop := ∃ s ∈ l, (n, f) ∈ s.2

/-- An acknowledged command: all its frames are in the log, with consecutive numbers from the first to the last of
the acknowledgement; numbers begin at 1. -/
def Recorded (l : Log F) (a : Ack F) : Prop :=
  a.1.frames ≠ [] ∧ 1 ≤ a.2.1 ∧ a.2.2 + 1 = a.2.1 + a.1.frames.length ∧
    ∀ i f, a.1.frames[i]? = some f → InLog l (a.2.1 + i) f

end Tonbo.Spec.FenceView
