import Verif.Model.WriteCall
import Verif.Spec.MemView

/-!
# What a call asks for, and what its answer says
-/

namespace Tonbo.Spec
open Tonbo.Model.WriteCall

variable {K R : Type}

/-- The versions a call asks for at timestamp `ts`: its rows, then its deletions. -/
def asksFor (ext : R → Option K) (ts : Nat) : Call K R → List (Ver K R)
  | .ingest _ rows => rows.filterMap (fun r => (ext r).map (fun k => ⟨k, ts, .put r⟩))
  | .ingestT _ rows flags =>
    ((rows.zip flags).filter (fun p => !p.2)).filterMap (fun p => (ext p.1).map (fun k => ⟨k, ts, .put p.1⟩)) ++
    ((rows.zip flags).filter (fun p => p.2)).filterMap (fun p => (ext p.1).map (fun k => ⟨k, ts, .del⟩))
  | .commit _ _ _ rows keys =>
    rows.filterMap (fun r => (ext r).map (fun k => ⟨k, ts, .put r⟩)) ++ keys.map (fun k => ⟨k, ts, .del⟩)

/-- The commit does not wait for the log. -/
def isFast : Call K R → Bool
  | .commit f _ _ _ _ => f
  | _ => false

/-- The answers after which readers see the write. -/
def Seen (a : Ans) : Bool := a == .ok || a == .flush || a == .publish

/-- The answers after which the write has left no trace. -/
def NoTrace (a : Ans) : Bool := a == .refused || a == .encode

/-- What readers see after calls with these answers. -/
def seen (ext : R → Option K) (h : List (Done K R)) : List (Ver K R) :=
  h.flatMap (fun d => if Seen d.ans then asksFor ext d.ts d.call else [])

/-- What a restart may find after calls with these answers: all of the write if its answer was a success
of a call that waits for the log, or an error behind the log; nothing if it was refused; otherwise one of
both. -/
inductive Logged (ext : R → Option K) : List (Done K R) → List (Ver K R) → Prop where
  | nil : Logged ext [] []
  | all {h d l} : Logged ext h l → NoTrace d.ans = false → Logged ext (h ++ [d]) (l ++ asksFor ext d.ts d.call)
  | nothing {h d l} : Logged ext h l → (NoTrace d.ans = true ∨ d.ans = .log ∨ isFast d.call = true) →
      Logged ext (h ++ [d]) l

end Tonbo.Spec
