import Verif.Model.WalEvent

/-!
# Record batches in the log: what is valid, and what must come back
-/

namespace Tonbo.Spec
open Tonbo.Model.Wal

/-- What every Arrow record batch satisfies: at least one column, equal lengths, no null where the
field is not nullable. -/
def ValidBatch {A : Type} (b : Batch A) : Prop :=
  b.cols ≠ [] ∧ (∀ f ∈ b.cols, f.col.len = b.rows) ∧ (∀ f ∈ b.cols, f.nullable = false → f.col.hasNulls = false)

/-- A column of `n` equal timestamps. -/
def tsColumn {A : Type} (n : Nat) (t : BitVec 64) : Col A := .u64 (List.replicate n (some t))

/-- No column has one of the reserved names. -/
def NoReserved {A : Type} (b : Batch A) : Prop :=
  ∀ f ∈ b.cols, f.name ≠ "_commit_ts" ∧ f.name ≠ "_tombstone"

/-- The event a command must come back as. A command on a batch without rows carries no timestamp. -/
def eventOf {A : Type} : Cmd A → BitVec 64 → Event A
  | .begin id, _ => .begin id
  | .row id b ts, t => .append id b (if b.rows = 0 then none else some t) ts
  | .delete id b, t => .delete id b (if b.rows = 0 then none else some t)
  | .commit id ts, _ => .commit id ts
  | .abort id, _ => .abort id

end Tonbo.Spec
