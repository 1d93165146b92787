import Verif.Model.MergeStream

/-!
# Packaging merged rows into batches  (src/query/stream/package.rs)

The upstream is the list of poll results of the merged stream (`Merge.trace`). Building an Arrow batch
from rows and projecting a row are trusted; a batch is the list of its projected rows.
-/

namespace Tonbo.Model.Package
open Tonbo.Model Tonbo.Model.Mem

/-- How the `while` loop of `poll_next` was left. -/
inductive Stop (E : Type) where
  | full | done | pending | err (e : E)
deriving Repr, DecidableEq

variable {K R Q E : Type}

/-- The `while` loop (package.rs:131-172). `eval` is the residual predicate, if any, `proj` the
projection, `eff` the effective batch size; the list is what the upstream will return, `buf` the
rows appended to the builder so far (`row_count` is its length). -/
def fill (eval : Option (R → Except E Bool)) (proj : R → Q) (eff : Nat) :
    List (Option (Entry K R)) → List Q → Stop E × List Q × List (Option (Entry K R))
  | [], buf => if buf.length < eff then (.done, buf, []) else (.full, buf, [])
  | none :: up, buf => if buf.length < eff then (.pending, buf, up) else (.full, buf, none :: up)
  | some (.tomb kt) :: up, buf =>
    if buf.length < eff then fill eval proj eff up buf else (.full, buf, some (.tomb kt) :: up)
  | some (.row kt r) :: up, buf =>
    if buf.length < eff then
      match eval with
      | none => fill eval proj eff up (buf ++ [proj r])
      | some ev =>
        match ev r with
        | .error e => (.err e, buf, up)
        | .ok false => fill eval proj eff up buf
        | .ok true => fill eval proj eff up (buf ++ [proj r])
    else (.full, buf, some (.row kt r) :: up)

/-- `PackageStream` (package.rs:22-43): the upstream, the builder and `total_emitted`. -/
structure St (K R Q : Type) where
  up : List (Option (Entry K R))
  buf : List Q
  total : Nat

/-- Result of one poll. -/
inductive Out (Q E : Type) where
  | pending | finished | batch (rows : List Q) | error (e : E)
deriving Repr, DecidableEq

/-- `effective_batch_size` (package.rs:124-129); without a limit `remaining_limit` is `usize::MAX`,
modelled as no bound. -/
def effective (batchSize : Nat) (limit : Option Nat) (total : Nat) : Nat :=
  match limit with
  | none => batchSize
  | some l => min batchSize (l - total)

/-- The limit has been reached (package.rs:115-120). -/
def reached (limit : Option Nat) (total : Nat) : Bool :=
  match limit with
  | none => false
  | some l => decide (l ≤ total)

/-- `PackageStream::poll_next` (package.rs:112-190). -/
def poll (eval : Option (R → Except E Bool)) (proj : R → Q) (batchSize : Nat) (limit : Option Nat)
    (st : St K R Q) : Out Q E × St K R Q :=
  if reached limit st.total then (.finished, st)
  else
    match fill eval proj (effective batchSize limit st.total) st.up st.buf with
    | (.err e, buf, up) => (.error e, { st with up := up, buf := buf })
    | (.done, buf, up) =>
      if buf = [] then (.finished, { st with up := up, buf := [] })
      else (.batch buf, { up := up, buf := [], total := st.total + buf.length })
    | (.pending, buf, up) =>
      if buf = [] then (.pending, { st with up := up, buf := [] })
      else (.batch buf, { up := up, buf := [], total := st.total + buf.length })
    | (.full, buf, up) =>
      if buf = [] then (.pending, { st with up := up, buf := [] })
      else (.batch buf, { up := up, buf := [], total := st.total + buf.length })

/-- Polling to the end or to the first error: the batches received, and the error if any. The fuel
bounds the number of polls. -/
def drive (eval : Option (R → Except E Bool)) (proj : R → Q) (batchSize : Nat)
    (limit : Option Nat) : Nat → St K R Q → Option (List (List Q) × Option E)
  | 0, _ => none
  | n + 1, st =>
    match poll eval proj batchSize limit st with
    | (.finished, _) => some ([], none)
    | (.error e, _) => some ([], some e)
    | (.pending, st') => drive eval proj batchSize limit n st'
    | (.batch b, st') => (drive eval proj batchSize limit n st').map (fun p => (b :: p.1, p.2))

/-- `PackageStream::with_limit` (package.rs:68-103) polled to the end over `up`. -/
def package (eval : Option (R → Except E Bool)) (proj : R → Q) (batchSize : Nat)
    (limit : Option Nat) (up : List (Option (Entry K R))) : Option (List (List Q) × Option E) :=
  drive eval proj batchSize limit (up.length + 1) { up := up, buf := [], total := 0 }

/-- `execute_scan` and `ScanBuilder::stream` from the streams on (src/db/scan.rs:612-658 and
1160-1210): the limit goes to the merge when there is no residual predicate, and to the packager
otherwise. No streams at all give an empty result. -/
def scanStreams [LinearOrder K] (eval : Option (R → Except E Bool)) (proj : R → Q)
    (batchSize : Nat) (limit : Option Nat)
    (streams : List (Merge.Prio × List (Option (Entry K R)))) :
    Option (List (List Q) × Option E) :=
  if streams = [] then some ([], none)
  else
    let limitMerge := if eval.isSome then none else limit
    let limitPackage := if eval.isSome then limit else none
    match Merge.mergeAll streams limitMerge with
    | none => none
    | some up => package eval proj batchSize limitPackage up

end Tonbo.Model.Package
