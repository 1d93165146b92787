import Verif.Model.WalStats
import Verif.Spec.QueueView

/-!
# What the counters of the log ought to say
-/

namespace Tonbo.Spec.WalS
open Tonbo.Model.WalW hiding Op run step
open Tonbo.Model.WalQ hiding Op run step turn timer
open Tonbo.Model.WalS

variable {F : Type}

/-- The requests that were handed over, in the order of the calls. -/
def sent : List (Op F) → List (Msg F)
  | [] => []
  | .send m :: os => m :: sent os
  | _ :: os => sent os

/-- The bytes of frames. -/
def bytesOf (size : F → Nat) (fs : List F) : Nat := (fs.map size).sum

/-- The most a counter can say. -/
def upTo (n : Nat) : Nat := min n (2 ^ 64 - 1)

/-- How many commands are in a channel. -/
def waiting : List (Nat × Msg F) → Nat
  | [] => 0
  | (_, .cmd _) :: l => waiting l + 1
  | _ :: l => waiting l

/-- Callers do as the code does: who sends a command has arrived before, and who leaves was refused before. -/
def Orderly (cfg : Cfg) (size : F → Nat) : S F → List (Op F) → Prop
  | _, [] => True
  | s, o :: os =>
    (∀ c, o = .send (.cmd c) → 0 < s.door) ∧ (o = .leave → 0 < s.away) ∧ Orderly cfg size (step cfg size s o) os

end Tonbo.Spec.WalS
