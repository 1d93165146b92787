import Verif.Model.LsmQuery
import Verif.Model.Txn

/-!
# A query inside a transaction (src/transaction/mod.rs:139-333; src/db/scan.rs:1062-1210)

The staged mutations are one more source of the scan. The snapshot is that of the database at rest, as in
`Model/LsmQuery.lean`: nothing else runs between the start of the transaction and the end of the scan.
-/

namespace Tonbo.Model.Lsm
open Tonbo.Model Tonbo.Model.Mem Tonbo.Model.Keys Tonbo.Model.Pred
open Tonbo.Model.Txn (Stage)

variable {K : Type} [LinearOrder K]

/-- What is staged after these calls (transaction/mod.rs:164-172): a map by key. -/
def stage {R : Type} (muts : List (K × Stage R)) : List (K × Stage R) :=
  muts.foldl (fun st p => SMap.insert p.1 p.2 st) []

/-- One staged mutation as the scan sees it (transaction/mod.rs:289-325). -/
def stagedEntry {R : Type} (rts : Nat) : K × Stage R → Entry K R
  | (k, .up r) => .row ⟨k, rts⟩ r
  | (k, .del) => .tomb ⟨k, rts⟩

/-- `tx.scan().filter(p).projection(proj).limit(limit).collect()` (transaction/mod.rs:476-483,
db/scan.rs:1096-1141): without staged mutations the scan is that of the snapshot. -/
def queryTxn (x : Plan.Ext K) (c : Plan.Codec K) (base keys : Schema) (table : Nat) (s : Db K Row)
    (staged : List (K × Stage Row)) (p : Expr) (rts : Nat) (proj : Option Schema) (batchSize : Nat) (limit : Option Nat) :
    Option (Except Proj.Err (Option (List (List Row) × Option EvalErr))) :=
  (storeOf base table s).map (fun st =>
    Proj.scan x c base keys (if staged.isEmpty then none else some (staged.map (stagedEntry rts))) st p rts proj batchSize limit)

end Tonbo.Model.Lsm
