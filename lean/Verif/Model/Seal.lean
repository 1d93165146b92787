import Verif.Model.Txn

/-!
# Freezing the mutable table in its two steps (src/db/wal.rs:133-155, 167-178)

`Runs.call` does both at once. Here a reader may come between.
-/

namespace Tonbo.Model.Seal
open Tonbo.Model Tonbo.Model.Mem

variable {K R : Type} [LinearOrder K]

/-- The first step: the memtable, under its own lock, is emptied and its content is returned as a run
(src/db/wal.rs:148 with src/inmem/mutable/memtable.rs `seal_now`). The run is held by the calling thread
only. -/
def take (ext : R → Option K) (t : Runs K R) : Except Err (Option (Imm K R)) × Runs K R :=
  let r := memCall ext t.mem .freeze
  (r.1, { t with mem := r.2 })

/-- The second step: `add_immutable` puts the run on the list, under another lock (src/db/wal.rs:150). -/
def add (t : Runs K R) (o : Option (Imm K R)) : Runs K R := { t with runs := addRun t.runs o }

/-- `seal_mutable_now` (src/db/wal.rs:147-155). -/
def sealNow (ext : R → Option K) (t : Runs K R) : Bool × Runs K R :=
  match take ext t with
  | (.error _, t') => (false, t')
  | (.ok o, t') => (true, add t' o)

end Tonbo.Model.Seal
