import Verif.Model.Compact

/-!
# Where the outputs of a compaction are split
-/

namespace Tonbo.Spec.Split
open Tonbo.Model Tonbo.Model.Sst

variable {K R : Type}

/-- The bytes of a file in memory. -/
def weight (sizeRow : KT K × R → Nat) (sizeDel : KT K → Nat) (f : File K R) : Nat :=
  (f.data.map sizeRow).sum + (f.dels.map sizeDel).sum

/-- A limit, if there is one, is reached. -/
def Hits (limit : Option Nat) (n : Nat) : Prop := ∃ m, limit = some m ∧ m ≤ n

/-- The file has reached the limit of rows or that of bytes. -/
def Full (rows bytes : Option Nat) (sizeRow : KT K × R → Nat) (sizeDel : KT K → Nat) (f : File K R) : Prop :=
  Hits rows f.data.length ∨ Hits bytes (weight sizeRow sizeDel f)

/-- `g` is `f` without its last row or its last deletion. -/
def OneLess (f g : File K R) : Prop :=
  (∃ p, f.data = g.data ++ [p] ∧ f.dels = g.dels) ∨ (∃ x, f.dels = g.dels ++ [x] ∧ f.data = g.data)

/-- There is nothing in the file. -/
def Bare (f : File K R) : Prop := f.data = [] ∧ f.dels = []

/-- The file was not full before its last entry came. -/
def Tight (rows bytes : Option Nat) (sizeRow : KT K × R → Nat) (sizeDel : KT K → Nat) (f : File K R) : Prop :=
  ∃ g, OneLess f g ∧ (Bare g ∨ ¬ Full rows bytes sizeRow sizeDel g)

end Tonbo.Spec.Split
