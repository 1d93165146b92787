import Verif.Spec.TxnView
import Verif.Spec.StoreView

/-!
# Vocabulary for queries inside a transaction
-/

namespace Tonbo.Spec
open Tonbo.Model Tonbo.Model.Txn Tonbo.Model.Pred Tonbo.Model.Keys

variable {K R : Type} [LinearOrder K]

/-- What a transaction that staged `muts`, in that order, sees for a key: the last mutation it staged for the key, or,
if there is none, what was visible at `rts` in the versions `H`. -/
def SeenIn (H : Ver K R → Prop) (muts : List (K × Stage R)) (rts : Nat) (k : K) (r : R) : Prop :=
  match lastFor muts k with
  | some (.up r') => r = r'
  | some .del => False
  | none => Visible H rts k r

/-- The rows a transaction sees that satisfy a predicate, by ascending key. -/
def IsTxnScan (H : Ver K Row → Prop) (muts : List (K × Stage Row)) (schema : Schema) (p : Expr) (rts : Nat)
    (out : List (K × Row)) : Prop :=
  out.Pairwise (fun a b => a.1 < b.1) ∧
    ∀ k r, (k, r) ∈ out ↔ SeenIn H muts rts k r ∧ meaning (envOf schema r) p = .t

end Tonbo.Spec
