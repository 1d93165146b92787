import Verif.Spec.SstView
import Verif.Model.Flush

/-!
# What the statistics of a table file mean
-/

namespace Tonbo.Spec
open Tonbo.Model Tonbo.Model.Sst

/-- `o` is the least element with property `P`, or `none` if there is no element. -/
def LeastIs {α : Type} [LE α] (P : α → Prop) : Option α → Prop
  | none => ∀ x, ¬ P x
  | some m => P m ∧ ∀ x, P x → m ≤ x

/-- `o` is the greatest element with property `P`, or `none` if there is no element. -/
def GreatestIs {α : Type} [LE α] (P : α → Prop) : Option α → Prop
  | none => ∀ x, ¬ P x
  | some m => P m ∧ ∀ x, P x → x ≤ m

variable {K R : Type} [LinearOrder K]

/-- A row or a deletion of the file carries this key and timestamp. -/
def Stored (f : File K R) (kt : KT K) : Prop := (∃ r, (kt, r) ∈ f.data) ∨ kt ∈ f.dels

/-- Key and commit bounds are exact: they enclose every row and every deletion of the file and are
attained. -/
def StatsExact (f : File K R) (minKey maxKey : Option K) (minTs maxTs : Option Nat) : Prop :=
  LeastIs (fun k => ∃ kt, Stored f kt ∧ kt.key = k) minKey ∧
  GreatestIs (fun k => ∃ kt, Stored f kt ∧ kt.key = k) maxKey ∧
  LeastIs (fun t => ∃ kt, Stored f kt ∧ kt.ts = t) minTs ∧
  GreatestIs (fun t => ∃ kt, Stored f kt ∧ kt.ts = t) maxTs

end Tonbo.Spec
