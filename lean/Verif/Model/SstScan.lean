import Verif.Model.MergeStream

/-!
# Scanning one table file  (src/ondisk/scan.rs)

A table file is its data rows and the entries of its delete sidecar, each in file order. Parquet
decoding is trusted; record batches of a stream are concatenated (the iterators at scan.rs:557-730
only walk the rows of one batch after the other). Read and decode errors end the scan with an error;
the same code with errors is in `Model/ReadErr.lean`.
-/

namespace Tonbo.Model.Sst
open Tonbo.Model Tonbo.Model.Mem

/-- A table: rows with key and commit timestamp, and the delete sidecar. -/
structure File (K R : Type) where
  data : List (KT K × R)
  dels : List (KT K)
deriving Repr, DecidableEq

variable {K R : Type} [LinearOrder K]

/-- `process_data_entry` / `process_delete_entry` (scan.rs:406-454): whether the entry is emitted,
and the new `current_key`, `emitted_for_key`. -/
def process (k : K) (cur : Option K) (em : Bool) : Bool × Option K × Bool :=
  let isNew := decide (cur ≠ some k)
  let em' := if isNew then false else em
  if em' then (false, some k, true) else (true, some k, true)

/-- Emit the entry when `process` says so, then go on. -/
def emitIf (b : Bool) (e : Entry K R) (rest : Option (List (Entry K R))) :
    Option (List (Entry K R)) :=
  if b then rest.map (e :: ·) else rest

/-- The loop of `SstableScan::poll_next` (scan.rs:282-400) run to the end of both streams. The lists
are the entries not newer than the read timestamp that are still to come. The fuel bounds the
iterations. -/
def scanLoop : Nat → List (KT K × R) → List (KT K) → Option K → Bool → Option (List (Entry K R))
  | 0, _, _, _, _ => none
  | _ + 1, [], [], _, _ => some []
  | n + 1, (kt, r) :: d, [], cur, em =>
    let q := process kt.key cur em
    emitIf q.1 (.row kt r) (scanLoop n d [] q.2.1 q.2.2)
  | n + 1, [], kt :: x, cur, em =>
    let q := process kt.key cur em
    emitIf q.1 (.tomb kt) (scanLoop n [] x q.2.1 q.2.2)
  | n + 1, (kt, r) :: d, dt :: x, cur, em =>
    if kt.key < dt.key then
      let q := process kt.key cur em
      emitIf q.1 (.row kt r) (scanLoop n d (dt :: x) q.2.1 q.2.2)
    else if dt.key < kt.key then
      let q := process dt.key cur em
      emitIf q.1 (.tomb dt) (scanLoop n ((kt, r) :: d) x q.2.1 q.2.2)
    else if kt.ts ≤ dt.ts then
      let q := process dt.key cur em
      emitIf q.1 (.tomb dt) (scanLoop n d x q.2.1 q.2.2)
    else
      let q := process kt.key cur em
      emitIf q.1 (.row kt r) (scanLoop n d x q.2.1 q.2.2)

/-- `SstableScan` from start to end (scan.rs:228-402), with the visibility checks of
`poll_next_data_entry` and `poll_next_delete_entry` (scan.rs:472, 529). `keep` is the row filter
handed to the parquet reader for the data file (src/db/scan.rs:742-756); the sidecar is read without
a filter (src/db/scan.rs:766-771). -/
def scan (f : File K R) (keep : R → Bool) (rts : Nat) : Option (List (Entry K R)) :=
  let d := f.data.filter (fun e => keep e.2 && decide (e.1.ts ≤ rts))
  let x := f.dels.filter (fun kt => decide (kt.ts ≤ rts))
  scanLoop (d.length + x.length + 1) d x none false

end Tonbo.Model.Sst
