import Verif.Spec.SstView

/-!
# What a set of table files means
-/

namespace Tonbo.Spec
open Tonbo.Model Tonbo.Model.Sst

variable {K R : Type}

/-- The file stores this version. -/
def Holds (f : File K R) (w : Ver K R) : Prop :=
  match w.op with
  | .put r => (⟨w.key, w.ts⟩, r) ∈ f.data
  | .del => ⟨w.key, w.ts⟩ ∈ f.dels

/-- One of the files stores this version. -/
def FilesHold (fs : List (File K R)) (w : Ver K R) : Prop := ∃ f ∈ fs, Holds f w

/-- The versions a set of files stands for: those its members stand for. -/
def FilesMean (fs : List (File K R)) (w : Ver K R) : Prop := ∃ f ∈ fs, FileVersions f w

/-- Read `n` rows at a time, the file has rows only, or deletions only, or all its rows and deletions
are in the first batch, or only one kind goes on after the first batch and that kind also has the
greatest key of the first batch. -/
def Fits [LT K] (n : Nat) (f : File K R) : Prop :=
  f.dels = [] ∨ f.data = [] ∨ (f.data.length ≤ n ∧ f.dels.length ≤ n) ∨
  (f.dels.length ≤ n ∧ ∃ p, f.data[n - 1]? = some p ∧ ∀ x ∈ f.dels, x.key < p.1.key) ∨
  (f.data.length ≤ n ∧ ∃ x, f.dels[n - 1]? = some x ∧ ∀ p ∈ f.data, p.1.key < x.key)

end Tonbo.Spec
