import Verif.Model.WalQueue

/-!
# What callers of the log see

A history is a list of calls, turns of the task and so on. The calls are numbered in the order in which they are
made.
-/

namespace Tonbo.Spec.WalQ
open Tonbo.Model.WalW hiding Op run step
open Tonbo.Model.WalQ

variable {F : Type}

/-- The requests of a history, in the order of the calls. -/
def asked : List (Op F) → List (Msg F)
  | [] => []
  | .submit m :: os => m :: asked os
  | _ :: os => asked os

/-- The frames a request asks to be written. -/
def framesOf : Msg F → List F
  | .cmd c => c.frames
  | _ => []

/-- The frames of the calls that were told that theirs are written, in the order in which they were told. -/
def promised (calls : List (Msg F)) (answers : List (Nat × Ans)) : List F :=
  answers.flatMap (fun p => match p.2, calls[p.1]? with
    | .written _ _, some m => framesOf m
    | _, _ => [])

/-- The frames of the calls that were told of an error of the task. -/
def inDoubt (calls : List (Msg F)) (answers : List (Nat × Ans)) : List F :=
  answers.flatMap (fun p => match p.2, calls[p.1]? with
    | .failed, some m => framesOf m
    | _, _ => [])

/-- Frames with numbers from `n` on. -/
def numbered : Nat → List F → List (Nat × F)
  | _, [] => []
  | n, f :: fs => (n, f) :: numbered (n + 1) fs

/-- Every command has a frame. -/
def Encoded (calls : List (Msg F)) : Prop := ∀ c, Msg.cmd c ∈ calls → c.frames ≠ []

/-- No storage call fails. -/
def NoFaults : List (Op F) → Prop
  | [] => True
  | .turn _ f :: os => f = none ∧ NoFaults os
  | .timer _ _ f :: os => f = false ∧ NoFaults os
  | _ :: os => NoFaults os

/-- The channel stays open. -/
def StaysOpen (os : List (Op F)) : Prop := .close ∉ os ∧ .shutdown ∉ os

/-- How many turns the task gets. -/
def turns : List (Op F) → Nat
  | [] => 0
  | .turn _ _ :: os => turns os + 1
  | _ :: os => turns os

end Tonbo.Spec.WalQ
