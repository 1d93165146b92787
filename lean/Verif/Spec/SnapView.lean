import Verif.Model.WalSnap

/-!
# What a listing of the log should say
-/

namespace Tonbo.Spec.Snap
open Tonbo.Model.WalW Tonbo.Model.WalCut Tonbo.Model.WalSnap

variable {F : Type}

/-- The number of a segment and the numbers of its first and last frame; nothing if it has no frames. -/
def boundsOf (g : Seg F) : Option B :=
  match g.all.head?, g.all.getLast? with
  | some a, some b => some ⟨g.seq, a.1, b.1⟩
  | _, _ => none

/-- The segments that exist and have frames, oldest first. -/
def listing (w : W F) : List B := (segments w).filterMap boundsOf

/-- The power fails, between commands or inside one, only if segments are synced when they are sealed. -/
def Kept (cfg : Cfg) (ops : List (COp F)) : Prop :=
  ∀ o ∈ ops, (∃ c y, o = .cut c y) ∨ o = .op .powerLoss → cfg.sync ≠ .disabled

/-- The database deletes no segments. -/
def Unpruned (ops : List (COp F)) : Prop := ∀ n, COp.op (.prune n) ∉ ops

end Tonbo.Spec.Snap
