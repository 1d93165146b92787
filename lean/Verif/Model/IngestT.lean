import Verif.Model.Lsm

/-!
# Ingest with a tombstone bitmap (src/db/wal.rs:203-209, 426-513, 677-760)

The calls on the memtable that one ingest makes. The write-ahead log of the same ingest is in
`Model/Recovery.lean`; back-pressure and the compaction that may follow an ingest are other steps.
-/

namespace Tonbo.Model.IngestT
open Tonbo.Model Tonbo.Model.Mem

variable {K R : Type}

/-- `TombstoneLengthMismatch`, and the Arrow error for a delete of a null key (src/db/wal.rs:590-601,
721-750). -/
inductive TErr where
  | length
  | nullKey
deriving Repr, DecidableEq

/-- The loop over the bitmap in `partition_batch_for_mutations` (src/db/wal.rs:692-700): the rows to
upsert and the rows to delete, each in the order of the batch. -/
def split : List R → List Bool → List R × List R
  | r :: rows, b :: flags =>
    let p := split rows flags
    if b then (p.1, r :: p.2) else (r :: p.1, p.2)
  | _, _ => ([], [])

/-- `insert_dyn_wal_batch` (src/db/wal.rs:426-513) with `partition_batch_for_mutations`
(src/db/wal.rs:677-719) and `build_delete_batch` (src/db/wal.rs:721-750): the calls on the memtable.
Without deletes the batch is inserted as it is; an empty part makes no call. All upserts come first. -/
def calls (ext : R → Option K) (rows : List R) (flags : List Bool) (ts : Nat) : Except TErr (List (Mem.Op K R)) :=
  if rows.length ≠ flags.length then .error .length
  else if rows = [] then .ok []
  else
    if (split rows flags).2 = [] then .ok [.put (rows.map (fun r => (r, ts)))]
    else
      match (split rows flags).2.mapM ext with
      | none => .error .nullKey
      | some keys =>
        .ok ((if (split rows flags).1 = [] then [] else [.put ((split rows flags).1.map (fun r => (r, ts)))]) ++ [.del (keys.map (fun k => (k, ts)))])

end Tonbo.Model.IngestT
