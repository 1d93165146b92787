import Verif.Model.Recovery
import Verif.Spec.MemView

/-!
# What a log of transactions means

Independent of how replay keeps its pending transactions: a commit record stands for the payloads of
its transaction since the transaction id was last finished.
-/

namespace Tonbo.Spec.Wal
open Tonbo.Model.Wal Tonbo.Spec

variable {A K R : Type}

/-- The event carries rows or deletes of transaction `id`. -/
def payloadOf (id : BitVec 64) : Event A → Bool
  | .append i _ _ _ => i == id
  | .delete i _ _ => i == id
  | _ => false

/-- The event finishes transaction `id`. -/
def finishes (id : BitVec 64) : Event A → Bool
  | .commit i _ => i == id
  | .abort i => i == id
  | _ => false

/-- The payloads of transaction `id` in the log `pre`, since `id` was last finished. -/
def bodyOf (id : BitVec 64) (pre : List (Event A)) : List (Event A) :=
  ((pre.reverse.takeWhile (fun e => !finishes id e)).reverse).filter (payloadOf id)

/-- The committed transactions of a log, in the order of their commit records: commit timestamp and
payloads. -/
def committedTxns (evs : List (Event A)) : List (BitVec 64 × List (Event A)) :=
  (List.range evs.length).filterMap (fun i : Nat =>
    match evs[i]? with
    | some (Event.commit id ts) => some (ts, bodyOf id (evs.take i))
    | _ => none)

/-- The versions one payload writes when its transaction commits at `ts`. -/
def payloadWrites (ext : R → Option K) (sch : Sch A K R) (ts : BitVec 64) : Event A → List (Ver K R)
  | .append _ b _ _ => ((sch.rows b).getD []).filterMap (fun r => (ext r).map (fun k => ⟨k, ts.toNat, .put r⟩))
  | .delete _ b _ => ((sch.keys b).getD []).filterMap (fun k => k.map (fun k => ⟨k, ts.toNat, .del⟩))
  | _ => []

/-- The versions a log stands for, in order. -/
def logWrites (ext : R → Option K) (sch : Sch A K R) (evs : List (Event A)) : List (Ver K R) :=
  (committedTxns evs).flatMap (fun p => p.2.flatMap (payloadWrites ext sch p.1))

/-- The same where only the last row of a key within one payload counts. -/
def logBatches [DecidableEq K] (ext : R → Option K) (sch : Sch A K R) (evs : List (Event A)) : List (Ver K R) :=
  (committedTxns evs).flatMap (fun p => p.2.flatMap (fun e => lastOnly (payloadWrites ext sch p.1 e)))

/-- A payload that can be applied at `ts`: the table's schema, at least one row, no null key, and a
commit column that holds `ts` for every row. -/
def GoodPayload (ext : R → Option K) (sch : Sch A K R) (ts : BitVec 64) : Event A → Prop
  | .append _ b _ col => ∃ rows, sch.rows b = some rows ∧ rows ≠ [] ∧ (∀ r ∈ rows, ext r ≠ none) ∧
      col = .u64 (List.replicate rows.length (some ts))
  | .delete _ b _ => ∃ ks : List K, sch.keys b = some (ks.map some) ∧ ks ≠ [] ∧
      ∃ f, b.cols.find? (·.name == commitCol) = some f ∧ f.col = .u64 (List.replicate ks.length (some ts))
  | _ => True

/-- Every committed transaction of the log can be applied. -/
def GoodLog (ext : R → Option K) (sch : Sch A K R) (evs : List (Event A)) : Prop :=
  ∀ p ∈ committedTxns evs, ∀ e ∈ p.2, GoodPayload ext sch p.1 e

end Tonbo.Spec.Wal
