import Verif.Model.Txn
import Verif.Spec.MemView

/-!
# Vocabulary for properties of transactions
-/

namespace Tonbo.Spec
open Tonbo.Model Tonbo.Model.Txn

variable {K R : Type} [LinearOrder K]

/-- The upserts of a write, at its commit timestamp; of several rows for one key the last. -/
def upsOf (ext : R → Option K) (w : Work K R) : List (Ver K R) :=
  batchWrites ext (.put ((w.ups.getD []).map (fun r => (r, w.ts))))

/-- The deletes of a write. -/
def delsOf (w : Work K R) : List (Ver K R) := lastOnly (delWrites ((w.dels.getD []).map (fun k => (k, w.ts))))

/-- All versions a write stands for. -/
def writesOf (ext : R → Option K) (w : Work K R) : List (Ver K R) := upsOf ext w ++ delsOf w

/-- The write of a thread that has its commit timestamp and has not returned. -/
def inFlight : Proc K R → Option (Work K R)
  | .stamped w | .logging w _ | .upserts w | .deletes w => some w
  | _ => none

/-- No write is between taking its commit timestamp and returning. -/
def Quiet (s : Sys K R) : Prop := ∀ p, inFlight (s.procs p) = none

/-- A thread is inside `commit` or `ingest`. -/
def Busy : Proc K R → Prop
  | .idle | .opening _ | .opened _ => False
  | _ => True

/-- A thread waits for the lock of a key. -/
def WaitsFor (s : Sys K R) (p : Nat) (k : K) : Prop :=
  ∃ t ks, s.procs p = .locking t (k :: ks) ∧ s.locks k ≠ none

/-- The keys a transaction writes. -/
def Writes (ext : R → Option K) (w : Work K R) (k : K) : Prop := ∃ v ∈ writesOf ext w, v.key = k

/-- `Q` holds of every operation of a history in the state where it happens. -/
def Along (e : Env K R) (Q : Sys K R → Txn.Op K R → Prop) (s : Sys K R) (ops : List (Txn.Op K R)) : Prop :=
  ∀ a o b, ops = a ++ o :: b → Q (Txn.run e s a) o

/-- If the operation opens a snapshot, then no write is on its way, and at least one timestamp has been
given out. -/
def OpensQuietly (s : Sys K R) : Txn.Op K R → Prop
  | .openTxn _ => Quiet s ∧ 0 < s.clock
  | _ => True

/-- The operation is not the last step of a flush, which takes the flushed runs out of memory. -/
def KeepsMemory : Txn.Op K R → Prop
  | .lsm .flushDrain => False
  | _ => True

/-- The operation is one of thread `p`. -/
def ofThread (p : Nat) : Txn.Op K R → Bool
  | .readVersion q | .openTxn q | .upsert q _ | .delete q _ | .abort q | .commit q | .ingest q _ | .advance q => q == p
  | .lsm _ => false

/-- `a` and `b` are transactions that both returned `Ok` and both write some key; the snapshot of the one
that returned later was opened before the other returned. -/
def LostUpdate (ext : R → Option K) (s : Sys K R) : Prop :=
  ∃ i j a b k, s.done[i]? = some a ∧ s.done[j]? = some b ∧ i < j ∧ a.snap.isSome = true ∧ b.snap.isSome = true ∧
    Writes ext a k ∧ Writes ext b k ∧ b.began ≤ i

/-- The versions written by the calls that have returned `Ok`. -/
def Finished (ext : R → Option K) (s : Sys K R) (v : Ver K R) : Prop := ∃ w ∈ s.done, v ∈ writesOf ext w

/-- The mutations thread `p` stages in a history, in order. -/
def staging (ext : R → Option K) (p : Nat) : List (Txn.Op K R) → List (K × Stage R)
  | [] => []
  | .upsert q r :: ops =>
    match if q = p then ext r else none with
    | some k => (k, .up r) :: staging ext p ops
    | none => staging ext p ops
  | .delete q k :: ops => if q = p then (k, .del) :: staging ext p ops else staging ext p ops
  | _ :: ops => staging ext p ops

/-- The last of a list of mutations for a key. -/
def lastFor (l : List (K × Stage R)) (k : K) : Option (Stage R) := (l.reverse.find? (fun p => p.1 = k)).map (·.2)

end Tonbo.Spec
