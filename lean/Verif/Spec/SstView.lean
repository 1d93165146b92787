import Verif.Spec.Mvcc
import Verif.Model.SstScan

/-!
# What a table file means

A data row stands for an upsert, a sidecar entry for a deletion. If a file holds several rows for one
key and timestamp the first one counts, and a deletion beats an upsert of the same timestamp.
-/

namespace Tonbo.Spec
open Tonbo.Model Tonbo.Model.Sst

variable {K R : Type}

/-- The first row with its key and timestamp. -/
def FirstIn (data : List (KT K × R)) (kt : KT K) (r : R) : Prop :=
  ∃ pre post, data = pre ++ (kt, r) :: post ∧ ∀ p ∈ pre, p.1 ≠ kt

/-- The versions a file stands for. -/
def FileVersions (f : File K R) (w : Ver K R) : Prop :=
  match w.op with
  | .put r => FirstIn f.data ⟨w.key, w.ts⟩ r ∧ ⟨w.key, w.ts⟩ ∉ f.dels
  | .del => ⟨w.key, w.ts⟩ ∈ f.dels

/-- A well-formed file: data and sidecar in key order, newer versions first. -/
def FileSorted [LinearOrder K] (f : File K R) : Prop :=
  f.data.Pairwise (fun a b => a.1 ≤ b.1) ∧ f.dels.Pairwise (· ≤ ·)

end Tonbo.Spec
