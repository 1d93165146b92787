import Verif.Model.Package
import Verif.Model.SstScan

/-!
# Scans whose reads fail (src/ondisk/scan.rs, src/query/stream/merge.rs, src/query/stream/package.rs)

The streams of `Model/SstScan.lean`, `Model/MergeStream.lean` and `Model/Package.lean` with errors. What a stream will
return is a list of poll results: not ready, an item, or an error; the end of the list is the end of the stream. A
consumer stops at the first error, as `?` and `try_collect` do; what comes behind is arbitrary.
-/

namespace Tonbo.Model.ReadE
open Tonbo.Model Tonbo.Model.Mem Tonbo.Model.Merge

/-- A result of `poll_next` other than the end of the stream. -/
inductive Ev (α E : Type) where
  | pending
  | item (a : α)
  | err (e : E)
deriving Repr, DecidableEq

variable {K R Q E α : Type}

/-! ## One file -/

/-- The loop over the rows of one record batch: the first row that is not newer than the read timestamp, or the first row that
cannot be decoded (scan.rs:466-486, 523-539; `DataBatchIterator`, scan.rs:605-664). -/
def skipRows (vis : α → Bool) : List (Except E α) → Option (Except E α) × List (Except E α)
  | [] => (none, [])
  | .error e :: rows => (some (.error e), rows)
  | .ok a :: rows => if vis a then (some (.ok a), rows) else skipRows vis rows

/-- `poll_next_data_entry` and `poll_next_delete_entry` (scan.rs:457-510, 513-557). `iter` is what is left of the current batch;
a batch that cannot be decoded is an error of the stream. -/
def nextEntry (vis : α → Bool) (iter : List (Except E α)) (stream : List (Ev (List (Except E α)) E)) :
    Poll (Option (Except E α)) × List (Except E α) × List (Ev (List (Except E α)) E) :=
  match skipRows vis iter with
  | (some r, rows) => (.ready (some r), rows, stream)
  | (none, _) =>
    match stream with
    | [] => (.ready none, [], [])
    | .pending :: s => (.pending, [], s)
    | .err e :: s => (.ready (some (.error e)), [], s)
    | .item b :: s => nextEntry vis b s

/-- `SstableScan` (scan.rs:203-226). Without a sidecar `dels` is empty (scan.rs:252-255), and so it is after the sidecar has
ended (scan.rs:323-326). -/
structure FSt (K R E : Type) where
  dataIter : List (Except E (KT K × R))
  data : List (Ev (List (Except E (KT K × R))) E)
  delIter : List (Except E (KT K))
  dels : List (Ev (List (Except E (KT K))) E)
  peekData : Option (KT K × R)
  peekDel : Option (KT K)
  cur : Option K
  em : Bool

/-- `SstableScan::new` (scan.rs:244-271). -/
def FSt.new (data : List (Ev (List (Except E (KT K × R))) E)) (dels : List (Ev (List (Except E (KT K))) E)) : FSt K R E :=
  ⟨[], data, [], dels, none, none, none, false⟩

/-- A result of polling a file. -/
abbrev FRes (K R E : Type) := Poll (Option (Except E (Entry K R)))

variable [LinearOrder K]

/-- Peeking the next data row (scan.rs:284-302): what is returned at once, if anything, and the state. -/
def peekRow (rts : Nat) (st : FSt K R E) : Option (FRes K R E) × FSt K R E :=
  match st.peekData with
  | some _ => (none, st)
  | none =>
    match nextEntry (fun p : KT K × R => decide (p.1.ts ≤ rts)) st.dataIter st.data with
    | (.pending, i, s) => (some .pending, { st with dataIter := i, data := s })
    | (.ready (some (.error e)), i, s) => (some (.ready (some (.error e))), { st with dataIter := i, data := s })
    | (.ready (some (.ok a)), i, s) => (none, { st with dataIter := i, data := s, peekData := some a })
    | (.ready none, i, s) => (none, { st with dataIter := i, data := s })

/-- Peeking the next deletion (scan.rs:304-330). -/
def peekTomb (rts : Nat) (st : FSt K R E) : Option (FRes K R E) × FSt K R E :=
  match st.peekDel with
  | some _ => (none, st)
  | none =>
    match nextEntry (fun p : KT K => decide (p.ts ≤ rts)) st.delIter st.dels with
    | (.pending, i, s) => (some .pending, { st with delIter := i, dels := s })
    | (.ready (some (.error e)), i, s) => (some (.ready (some (.error e))), { st with delIter := i, dels := s })
    | (.ready (some (.ok a)), i, s) => (none, { st with delIter := i, dels := s, peekDel := some a })
    | (.ready none, i, s) => (none, { st with delIter := i, dels := s })

/-- The choice between the two peeked entries (scan.rs:332-399): the entry that comes next, if there is one, and the state
without it (and without the one it beats). -/
def choose (st : FSt K R E) : Option (Entry K R) × FSt K R E :=
  match st.peekData, st.peekDel with
  | none, none => (none, st)
  | some (kt, r), none => (some (.row kt r), { st with peekData := none })
  | none, some dt => (some (.tomb dt), { st with peekDel := none })
  | some (kt, r), some dt =>
    if kt.key < dt.key then (some (.row kt r), { st with peekData := none })
    else if dt.key < kt.key then (some (.tomb dt), { st with peekDel := none })
    else if kt.ts ≤ dt.ts then (some (.tomb dt), { st with peekData := none, peekDel := none })
    else (some (.row kt r), { st with peekData := none, peekDel := none })

/-- The loop of `SstableScan::poll_next` (scan.rs:282-400). The fuel bounds its iterations. -/
def fileLoop (rts : Nat) : Nat → FSt K R E → Option (FRes K R E × FSt K R E)
  | 0, _ => none
  | n + 1, st =>
    match peekRow rts st with
    | (some r, st1) => some (r, st1)
    | (none, st1) =>
      match peekTomb rts st1 with
      | (some r, st2) => some (r, st2)
      | (none, st2) =>
        match choose st2 with
        | (none, st3) => some (.ready none, st3)
        | (some e, st3) =>
          if (Sst.process e.kt.key st3.cur st3.em).1 then
            some (.ready (some (.ok e)),
              { st3 with cur := (Sst.process e.kt.key st3.cur st3.em).2.1, em := (Sst.process e.kt.key st3.cur st3.em).2.2 })
          else
            fileLoop rts n
              { st3 with cur := (Sst.process e.kt.key st3.cur st3.em).2.1, em := (Sst.process e.kt.key st3.cur st3.em).2.2 }

/-- Rows and poll results still to come from one stream. -/
def weight : List (Ev (List (Except E α)) E) → Nat
  | [] => 0
  | .item b :: s => b.length + weight s
  | _ :: s => 1 + weight s

/-- Work left; bounds the loop. -/
def FSt.size (st : FSt K R E) : Nat :=
  st.dataIter.length + weight st.data + st.delIter.length + weight st.dels + st.peekData.toList.length + st.peekDel.toList.length

/-- `SstableScan::poll_next` (scan.rs:278-402). -/
def pollFile (rts : Nat) (st : FSt K R E) : Option (FRes K R E × FSt K R E) := fileLoop rts (st.size + 1) st

/-- All poll results of a file until its end or the first error. The fuel bounds the number of polls. -/
def fileTrace (rts : Nat) : Nat → FSt K R E → Option (List (Ev (Entry K R) E))
  | 0, _ => none
  | n + 1, st =>
    match pollFile rts st with
    | none => none
    | some (.pending, st') => (fileTrace rts n st').map (.pending :: ·)
    | some (.ready none, _) => some []
    | some (.ready (some (.error e)), _) => some [.err e]
    | some (.ready (some (.ok a)), st') => (fileTrace rts n st').map (.item a :: ·)

/-- Reading a file: the poll results of its scan (scan.rs:228-402). -/
def readFile (rts : Nat) (data : List (Ev (List (Except E (KT K × R))) E)) (dels : List (Ev (List (Except E (KT K))) E)) :
    Option (List (Ev (Entry K R) E)) :=
  fileTrace rts ((FSt.new data dels).size + 1) (FSt.new data dels)

/-- The first `n` poll results of a file, for a consumer that goes on after an error (scan.rs:278-402). -/
def pollsOn (rts : Nat) : Nat → FSt K R E → List (FRes K R E)
  | 0, _ => []
  | n + 1, st =>
    match pollFile rts st with
    | none => []
    | some (r, st') => r :: pollsOn rts n st'

/-! ## The merge -/

/-- `MergeStream` (merge.rs:17-30). -/
structure MSt (K R E : Type) where
  streams : List (Prio × List (Ev (Entry K R) E))
  heap : List (HE K R)
  buf : Option (Entry K R)
  limit : Option Nat

/-- `stream.next().await` (merge.rs:47). -/
def nextReady : List (Ev α E) → Except E (Option α × List (Ev α E))
  | [] => .ok (none, [])
  | .pending :: s => nextReady s
  | .item a :: s => .ok (some a, s)
  | .err e :: _ => .error e

/-- The loop of `from_vec` (merge.rs:44-50); `entry?` gives up. -/
def fromVecLoop : Nat → List (Prio × List (Ev (Entry K R) E)) → List (HE K R) →
    Except E (List (Prio × List (Ev (Entry K R) E)) × List (HE K R))
  | _, [], heap => .ok ([], heap)
  | i, (p, s) :: rest, heap =>
    match nextReady s with
    | .error e => .error e
    | .ok (x, s') =>
      match fromVecLoop (i + 1) rest (pushNext i p x heap) with
      | .error e => .error e
      | .ok (ss, h) => .ok ((p, s') :: ss, h)

/-- `ScanStream::poll_next` (src/query/stream/mod.rs:423-467). -/
def pollStream : List (Ev α E) → Poll (Option (Except E α)) × List (Ev α E)
  | [] => (.ready none, [])
  | .pending :: s => (.pending, s)
  | .item a :: s => (.ready (some (.ok a)), s)
  | .err e :: s => (.ready (some (.error e)), s)

/-- The drain at merge.rs:113-123. -/
def drain (st : MSt K R E) : FRes K R E × MSt K R E :=
  match st.buf with
  | none => (.ready none, st)
  | some e =>
    if e.isTomb then (.ready none, { st with buf := none })
    else (.ready (some (.ok e)), { st with buf := none, limit := decr st.limit })

/-- The `while` loop and the drain of `poll_next` (merge.rs:79-123). An error leaves the heap as it is
(`transpose()?` comes before `pop`, merge.rs:81-84). -/
def pollLoop : Nat → MSt K R E → Option (FRes K R E × MSt K R E)
  | 0, _ => none
  | n + 1, st =>
    match st.heap with
    | [] => some (drain st)
    | (_, i, e) :: rest =>
      match st.streams[i]? with
      | none => none
      | some (p, s) =>
        match pollStream s with
        | (.pending, s') => some (.pending, { st with streams := st.streams.set i (p, s') })
        | (.ready (some (.error x)), s') => some (.ready (some (.error x)), { st with streams := st.streams.set i (p, s') })
        | (.ready (some (.ok a)), s') =>
          match st.buf with
          | none => pollLoop n { st with streams := st.streams.set i (p, s'), heap := pushNext i p (some a) rest, buf := some e }
          | some b =>
            if b.kt.key = e.kt.key then
              pollLoop n { st with streams := st.streams.set i (p, s'), heap := pushNext i p (some a) rest }
            else if b.isTomb then
              pollLoop n { st with streams := st.streams.set i (p, s'), heap := pushNext i p (some a) rest, buf := some e }
            else
              some (.ready (some (.ok b)),
                { streams := st.streams.set i (p, s'), heap := pushNext i p (some a) rest, buf := some e, limit := decr st.limit })
        | (.ready none, s') =>
          match st.buf with
          | none => pollLoop n { st with streams := st.streams.set i (p, s'), heap := rest, buf := some e }
          | some b =>
            if b.kt.key = e.kt.key then pollLoop n { st with streams := st.streams.set i (p, s'), heap := rest }
            else if b.isTomb then pollLoop n { st with streams := st.streams.set i (p, s'), heap := rest, buf := some e }
            else
              some (.ready (some (.ok b)),
                { streams := st.streams.set i (p, s'), heap := rest, buf := some e, limit := decr st.limit })

/-- Heap entries and poll results left. -/
def MSt.size (st : MSt K R E) : Nat := st.heap.length + (st.streams.map (·.2.length)).sum

/-- `MergeStream::poll_next` (merge.rs:70-124). -/
def poll (st : MSt K R E) : Option (FRes K R E × MSt K R E) :=
  if st.limit = some 0 then some (.ready none, st) else pollLoop (st.size + 1) st

/-- All poll results of the merge until its end or the first error. -/
def trace : Nat → MSt K R E → Option (List (Ev (Entry K R) E))
  | 0, _ => none
  | n + 1, st =>
    match poll st with
    | none => none
    | some (.pending, st') => (trace n st').map (.pending :: ·)
    | some (.ready none, _) => some []
    | some (.ready (some (.error e)), _) => some [.err e]
    | some (.ready (some (.ok a)), st') => (trace n st').map (.item a :: ·)

/-- `MergeStream::from_vec` (merge.rs:36-61) and the poll results of what it returns. -/
def mergeAll (streams : List (Prio × List (Ev (Entry K R) E))) (limit : Option Nat) : Option (Except E (List (Ev (Entry K R) E))) :=
  match fromVecLoop 0 streams [] with
  | .error e => some (.error e)
  | .ok (ss, heap) => (trace ((MSt.mk ss heap none limit).size + 2) ⟨ss, heap, none, limit⟩).map .ok

/-! ## The packager -/

/-- The `while` loop (package.rs:131-172). -/
def fill (eval : Option (R → Except E Bool)) (proj : R → Q) (eff : Nat) :
    List (Ev (Entry K R) E) → List Q → Package.Stop E × List Q × List (Ev (Entry K R) E)
  | [], buf => if buf.length < eff then (.done, buf, []) else (.full, buf, [])
  | .pending :: up, buf => if buf.length < eff then (.pending, buf, up) else (.full, buf, .pending :: up)
  | .err e :: up, buf => if buf.length < eff then (.err e, buf, up) else (.full, buf, .err e :: up)
  | .item (.tomb kt) :: up, buf =>
    if buf.length < eff then fill eval proj eff up buf else (.full, buf, .item (.tomb kt) :: up)
  | .item (.row kt r) :: up, buf =>
    if buf.length < eff then
      match eval with
      | none => fill eval proj eff up (buf ++ [proj r])
      | some ev =>
        match ev r with
        | .error e => (.err e, buf, up)
        | .ok false => fill eval proj eff up buf
        | .ok true => fill eval proj eff up (buf ++ [proj r])
    else (.full, buf, .item (.row kt r) :: up)

/-- `PackageStream` (package.rs:22-43). -/
structure PSt (K R Q E : Type) where
  up : List (Ev (Entry K R) E)
  buf : List Q
  total : Nat

/-- `PackageStream::poll_next` (package.rs:112-190). -/
def pollP (eval : Option (R → Except E Bool)) (proj : R → Q) (batchSize : Nat) (limit : Option Nat) (st : PSt K R Q E) :
    Package.Out Q E × PSt K R Q E :=
  if Package.reached limit st.total then (.finished, st)
  else
    match fill eval proj (Package.effective batchSize limit st.total) st.up st.buf with
    | (.err e, buf, up) => (.error e, { st with up := up, buf := buf })
    | (.done, buf, up) =>
      if buf = [] then (.finished, { st with up := up, buf := [] })
      else (.batch buf, { up := up, buf := [], total := st.total + buf.length })
    | (.pending, buf, up) =>
      if buf = [] then (.pending, { st with up := up, buf := [] })
      else (.batch buf, { up := up, buf := [], total := st.total + buf.length })
    | (.full, buf, up) =>
      if buf = [] then (.pending, { st with up := up, buf := [] })
      else (.batch buf, { up := up, buf := [], total := st.total + buf.length })

/-- Polling to the end or to the first error. -/
def drive (eval : Option (R → Except E Bool)) (proj : R → Q) (batchSize : Nat) (limit : Option Nat) :
    Nat → PSt K R Q E → Option (List (List Q) × Option E)
  | 0, _ => none
  | n + 1, st =>
    match pollP eval proj batchSize limit st with
    | (.finished, _) => some ([], none)
    | (.error e, _) => some ([], some e)
    | (.pending, st') => drive eval proj batchSize limit n st'
    | (.batch b, st') => (drive eval proj batchSize limit n st').map (fun p => (b :: p.1, p.2))

/-- A scan over streams whose reads may fail (src/db/scan.rs:612-658, 1160-1210): the batches the caller gets, and the error if
there is one. -/
def scanStreams (eval : Option (R → Except E Bool)) (proj : R → Q) (batchSize : Nat) (limit : Option Nat)
    (streams : List (Prio × List (Ev (Entry K R) E))) : Option (List (List Q) × Option E) :=
  if streams = [] then some ([], none)
  else
    match mergeAll streams (if eval.isSome then none else limit) with
    | none => none
    | some (.error e) => some ([], some e)
    | some (.ok up) => drive eval proj batchSize (if eval.isSome then limit else none) (up.length + 1) ⟨up, [], 0⟩

end Tonbo.Model.ReadE
