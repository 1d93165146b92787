import Verif.Model.WalStore

/-!
# What a listing of WAL segments means

Vocabulary for C34, C35: the files of a directory as a set, independent of how the store lists them.
-/

namespace Tonbo.Spec.Wal
open Tonbo.Model.Wal

/-- The file `f` is the segment number `n` written by the log: its name is `n` in 20 digits. -/
def IsSegmentFile (f : WFile) (n : Nat) : Prop := f.name = segName n ∧ n < 2 ^ 64

/-- A listing holds at most one content for each path. -/
def Consistent (files : List WFile) : Prop :=
  ∀ f g : WFile, f ∈ files → g ∈ files → f.path = g.path → f = g

/-- Each segment number has one path. -/
def OnePathPerNumber (files : List WFile) : Prop :=
  ∀ (f g : WFile) (n : Nat), f ∈ files → g ∈ files →
    segmentSequence f.name = some n → segmentSequence g.name = some n → f.path = g.path

end Tonbo.Spec.Wal
