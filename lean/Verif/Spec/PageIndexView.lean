import Verif.Model.PageIndex

/-!
# Page indexes: what is expected of a file
-/

namespace Tonbo.Spec.PageIndexView
open Tonbo.Model.PageIndex

variable {C : Type}

/-- The index has exactly one entry for every column chunk of the file, and nothing else. -/
def Fits (groups : List Nat) (index : List (List C)) : Prop := index.map List.length = groups

/-- Both indexes are there and fit. A file without row groups needs none. -/
def Indexed (m : Meta C) : Prop :=
  (∀ i, m.columns = some i → Fits m.groups i) ∧ (∀ i, m.offsets = some i → Fits m.groups i) ∧
    (m.groups ≠ [] → m.columns ≠ none ∧ m.offsets ≠ none)

end Tonbo.Spec.PageIndexView
