import Verif.Model.ReadErr

/-!
# What it means that a stream reads something

Written against the list of poll results of a stream, without reference to how scans work.
-/

namespace Tonbo.Spec.ReadE
open Tonbo.Model.ReadE

variable {α E : Type}

/-- The poll results `s` read `xs`: whenever the stream was not ready it said so; the items are those of `xs` in order; and it ends
after the last of them, unless it has reported an error. After an error anything may come. -/
inductive Reads : List α → List (Ev α E) → Prop
  | nil : Reads [] []
  | pending {xs s} : Reads xs s → Reads xs (.pending :: s)
  | item {x xs s} : Reads xs s → Reads (x :: xs) (.item x :: s)
  | err {xs e s} : Reads xs (.err e :: s)

/-- No error among the poll results. -/
def Clean (s : List (Ev α E)) : Prop := ∀ e, .err e ∉ s

/-- A row of a batch that cannot be decoded is an error. -/
def toEv : Except E α → Ev α E
  | .ok a => .item a
  | .error e => .err e

/-- The rows of a stream of batches. -/
def rows : List (Ev (List (Except E α)) E) → List (Ev α E)
  | [] => []
  | .pending :: s => .pending :: rows s
  | .err e :: s => .err e :: rows s
  | .item b :: s => b.map toEv ++ rows s

end Tonbo.Spec.ReadE
