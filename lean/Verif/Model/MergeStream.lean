import Verif.Model.Memtable
import Mathlib.Data.Prod.Lex
import Mathlib.Data.Nat.Basic

/-!
# K-way merge of scan sources  (src/query/stream/merge.rs, src/query/stream/mod.rs)

Every source is a list of poll results: `none` is `Poll::Pending`, `some e` is an entry, the end of
the list is the end of the stream. A source that returns an error ends the scan with that error; the
same code with errors is in `Model/ReadErr.lean`. `BinaryHeap<Reverse<_>>` is modelled as a list sorted by `HeapEntry::cmp`, of which
`peek`/`pop` return the head (trusted: std's heap returns a least entry; entries of one heap never
compare equal because stream indexes differ).
-/

namespace Tonbo.Model.Mem

/-- `StreamEntry::ts` / key access (src/query/stream/mod.rs:243-296). The six variants are collapsed
to row and tombstone. -/
def Entry.kt {K R : Type} : Entry K R → KT K
  | .row kt _ => kt
  | .tomb kt => kt

/-- `StreamEntry::is_tombstone` (src/query/stream/mod.rs:313-320). -/
def Entry.isTomb {K R : Type} : Entry K R → Bool
  | .row _ _ => false
  | .tomb _ => true

end Tonbo.Model.Mem

namespace Tonbo.Model.Merge
open Tonbo.Model Tonbo.Model.Mem

/-- `SourcePriority` (src/query/stream/mod.rs:46-56), derived `Ord`: declaration order. -/
inductive Prio where
  | txn | mutable | immutable | sstable
deriving Repr, DecidableEq

/-- The discriminants behind the derived `Ord` (src/query/stream/mod.rs:46-56). -/
def Prio.rank : Prio → Nat
  | .txn => 0 | .mutable => 1 | .immutable => 2 | .sstable => 3

/-- `Poll` (std). -/
inductive Poll (α : Type) where
  | pending
  | ready (a : α)
deriving Repr, DecidableEq

variable {K R : Type} [LinearOrder K]

/-- What `HeapEntry::cmp` compares (merge.rs:150-166): key ascending, timestamp descending, source
priority, stream index. -/
abbrev HKey (K : Type) := KT K ×ₗ Nat ×ₗ Nat

/-- `HeapEntry::new` (merge.rs:134-148), the comparison part. -/
def hkey (i : Nat) (p : Prio) (e : Entry K R) : HKey K := toLex (e.kt, toLex (p.rank, i))

/-- A heap entry: comparison key, stream index, entry (merge.rs:127-132). -/
abbrev HE (K R : Type) := HKey K × (Nat × Entry K R)

/-- `MergeStream` (merge.rs:17-30). `order` has only one value. -/
structure St (K R : Type) where
  streams : List (Prio × List (Option (Entry K R)))
  heap : List (HE K R)
  buf : Option (Entry K R)
  limit : Option Nat

/-- `stream.next().await` (merge.rs:47): polls until the source is ready. -/
def nextReady : List (Option (Entry K R)) → Option (Entry K R) × List (Option (Entry K R))
  | [] => (none, [])
  | none :: s => nextReady s
  | some e :: s => (some e, s)

/-- Pushing a stream's next entry, if any (merge.rs:47-49, 88-96). -/
def pushNext (i : Nat) (p : Prio) (nx : Option (Entry K R)) (heap : List (HE K R)) :
    List (HE K R) :=
  match nx with
  | none => heap
  | some e => SMap.insert (hkey i p e) (i, e) heap

/-- The loop of `from_vec` (merge.rs:44-50) from stream index `i` on. -/
def fromVecLoop : Nat → List (Prio × List (Option (Entry K R))) → List (HE K R) →
    List (Prio × List (Option (Entry K R))) × List (HE K R)
  | _, [], heap => ([], heap)
  | i, (p, s) :: rest, heap =>
    let r := nextReady s
    let q := fromVecLoop (i + 1) rest (pushNext i p r.1 heap)
    ((p, r.2) :: q.1, q.2)

/-- `MergeStream::from_vec` (merge.rs:36-61). -/
def fromVec (streams : List (Prio × List (Option (Entry K R)))) (limit : Option Nat) : St K R :=
  let q := fromVecLoop 0 streams []
  { streams := q.1, heap := q.2, buf := none, limit := limit }

/-- `ScanStream::poll_next` (src/query/stream/mod.rs:423-467). -/
def pollStream : List (Option (Entry K R)) → Poll (Option (Entry K R)) × List (Option (Entry K R))
  | [] => (.ready none, [])
  | none :: s => (.pending, s)
  | some e :: s => (.ready (some e), s)

/-- `decrement_limit` (merge.rs:182-186). -/
def decr : Option Nat → Option Nat
  | none => none
  | some n => some (n - 1)

/-- Work left: heap entries and unread poll results. Bounds the `while` loop of `poll_next`. -/
def St.size (st : St K R) : Nat := st.heap.length + (st.streams.map (·.2.length)).sum

/-- The drain at merge.rs:113-123. -/
def drain (st : St K R) : Poll (Option (Entry K R)) × St K R :=
  match st.buf with
  | none => (.ready none, st)
  | some e =>
    if e.isTomb then (.ready none, { st with buf := none })
    else (.ready (some e), { st with buf := none, limit := decr st.limit })

/-- The `while` loop and the drain of `poll_next` (merge.rs:79-123). The fuel is a bound on the
iterations; running out of it, and indexing out of range, give `none`. -/
def pollLoop : Nat → St K R → Option (Poll (Option (Entry K R)) × St K R)
  | 0, _ => none
  | n + 1, st =>
    match st.heap with
    | [] => some (drain st)
    | (_, i, e) :: rest =>
      match st.streams[i]? with
      | none => none
      | some (p, s) =>
        match pollStream s with
        | (.pending, s') => some (.pending, { st with streams := st.streams.set i (p, s') })
        | (.ready nx, s') =>
          let st1 := { st with streams := st.streams.set i (p, s'), heap := pushNext i p nx rest }
          match st.buf with
          | none => pollLoop n { st1 with buf := some e }
          | some b =>
            if b.kt.key = e.kt.key then pollLoop n st1
            else if b.isTomb then pollLoop n { st1 with buf := some e }
            else some (.ready (some b), { st1 with buf := some e, limit := decr st.limit })

/-- `MergeStream::poll_next` (merge.rs:70-124). -/
def poll (st : St K R) : Option (Poll (Option (Entry K R)) × St K R) :=
  if st.limit = some 0 then some (.ready none, st)
  else pollLoop (st.size + 1) st

/-- All poll results until the end of the merged stream: `none` is `Poll::Pending`. The fuel bounds
the number of polls. -/
def trace : Nat → St K R → Option (List (Option (Entry K R)))
  | 0, _ => none
  | n + 1, st =>
    match poll st with
    | none => none
    | some (.pending, st') => (trace n st').map (none :: ·)
    | some (.ready none, _) => some []
    | some (.ready (some e), st') => (trace n st').map (some e :: ·)

/-- The number of polls that always suffices (proved, not assumed). -/
def St.polls (st : St K R) : Nat := st.size + 2

/-- Merging `streams` to the end: the poll results a consumer sees. -/
def mergeAll (streams : List (Prio × List (Option (Entry K R)))) (limit : Option Nat) :
    Option (List (Option (Entry K R))) :=
  let st := fromVec streams limit
  trace st.polls st

end Tonbo.Model.Merge
