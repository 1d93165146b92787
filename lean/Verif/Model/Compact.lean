import Verif.Model.Flush

/-!
# Merging table files during compaction  (src/ondisk/merge.rs)

Parquet decoding is trusted: a source is the list of record batches its reader yields, with keys and
commit timestamps already extracted. Files written by this code base have no `_sequence` column, so
the sequence of a row is its number in the batch (merge.rs:883-913). Read and write errors are not
modelled.
-/

namespace Tonbo.Model.Compact
open Tonbo.Model Tonbo.Model.Mem Tonbo.Model.Sst Tonbo.Model.Flush

/-- `RowKind` (merge.rs:84-87). -/
inductive Kind where
  | data | del
deriving Repr, DecidableEq

/-- `SsTableStreamBatch` (merge.rs:37-42). -/
structure Batch (K R : Type) where
  data : List (KT K × R)
  del : Option (List (KT K))
deriving Repr, DecidableEq

/-- `HeapEntry` (merge.rs:90-97). -/
structure HEntry (K : Type) where
  kt : KT K
  seq : Nat
  kind : Kind
  src : Nat
  row : Nat
deriving Repr, DecidableEq

/-- `SourceCursor` (merge.rs:139-146): `rest` are the batches the reader has not yielded yet. -/
structure Cursor (K R : Type) where
  batch : Option (Batch K R)
  di : Nat
  xi : Nat
  rest : List (Batch K R)
deriving Repr, DecidableEq

variable {K R : Type} [LinearOrder K]

/-- One step of the reader (sstable.rs:1270-1300): the next data batch and the next sidecar batch are
read in lockstep. -/
def zipBatches : List (List (KT K × R)) → List (List (KT K)) → List (Batch K R)
  | [], xs => xs.map (fun x => ⟨[], some x⟩)
  | d :: ds, [] => ⟨d, none⟩ :: zipBatches ds []
  | d :: ds, x :: xs => ⟨d, some x⟩ :: zipBatches ds xs

/-- Record batches of at most `n` rows (the reader's batch size). The fuel is the number of rows. -/
def chunks {α : Type} (n : Nat) : Nat → List α → List (List α)
  | 0, _ => []
  | _ + 1, [] => []
  | m + 1, a :: l => (a :: l).take n :: chunks n m ((a :: l).drop n)

/-- The batches of a file when the reader's batch size is `n` (sstable.rs:1198-1303). -/
def fileBatches (n : Nat) (f : File K R) : List (Batch K R) :=
  zipBatches (chunks n f.data.length f.data) (chunks n f.dels.length f.dels)

/-- `Ord for HeapEntry` (merge.rs:112-131): `a` is not smaller than `b`. The heap is a max-heap. -/
def HEntry.ge (a b : HEntry K) : Prop :=
  a.kt < b.kt ∨ (a.kt = b.kt ∧ (b.seq < a.seq ∨ (a.seq = b.seq ∧ ¬ (a.kind = .data ∧ b.kind = .del))))

instance (a b : HEntry K) : Decidable (HEntry.ge a b) := by unfold HEntry.ge; infer_instance

/-- `BinaryHeap` (std), as far as its contract goes: `pop` removes an element than which none is
larger. Which of several such elements is not specified. -/
structure Heap (K : Type) [LinearOrder K] where
  pop : List (HEntry K) → Option (HEntry K × List (HEntry K))
  nil : pop [] = none
  cons : ∀ h, h ≠ [] → ∃ e h', pop h = some (e, h') ∧ h.Perm (e :: h') ∧ ∀ x ∈ h', e.ge x

/-- The keys and timestamps of the rows of one kind in a batch. -/
def Batch.kts (b : Batch K R) : Kind → List (KT K)
  | .data => b.data.map (·.1)
  | .del => b.del.getD []

/-- `data_idx` or `delete_idx` (merge.rs:144-145). -/
def Cursor.idx (c : Cursor K R) : Kind → Nat
  | .data => c.di
  | .del => c.xi

/-- Move one of the indices (merge.rs:248-251). -/
def Cursor.bump (c : Cursor K R) : Kind → Cursor K R
  | .data => { c with di := c.di + 1 }
  | .del => { c with xi := c.xi + 1 }

/-- `SourceCursor::new` (merge.rs:149-162). -/
def Cursor.new (batches : List (Batch K R)) : Cursor K R := ⟨none, 0, 0, batches⟩

/-- `ensure_batch` (merge.rs:164-171). -/
def Cursor.ensure (c : Cursor K R) : Cursor K R :=
  match c.batch with
  | some _ => c
  | none =>
    match c.rest with
    | [] => { c with di := 0, xi := 0 }
    | b :: rest => ⟨some b, 0, 0, rest⟩

/-- `advance` (merge.rs:247-265). -/
def Cursor.advance (c : Cursor K R) (k : Kind) : Cursor K R :=
  let c := c.bump k
  match c.batch with
  | none => c
  | some b =>
    if (b.kts .data).length ≤ c.di ∧ (b.kts .del).length ≤ c.xi then { c with batch := none, di := 0, xi := 0 }
    else c

/-- The loop of `enqueue` (merge.rs:179-244): the new cursor and the entry pushed, if any. The arms for
data and deletions read the same (merge.rs:186-209, 210-242); a missing delete batch acts like an
empty one. The fuel bounds the iterations. -/
def enqueueLoop (k : Kind) (src : Nat) (skip : Option K) : Nat → Cursor K R →
    Option (Cursor K R × Option (HEntry K))
  | 0, _ => none
  | n + 1, c =>
    let c := c.ensure
    match c.batch with
    | none => some (c, none)
    | some b =>
      match (b.kts k)[c.idx k]? with
      | none => some (c, none)
      | some kt =>
        if skip = some kt.key then enqueueLoop k src skip n (c.advance k)
        else some (c, some ⟨kt, c.idx k, k, src, c.idx k⟩)

/-- Rows and batches a cursor has left: bounds the iterations of `enqueue`. -/
def Cursor.left (c : Cursor K R) : Nat :=
  (match c.batch with
   | none => 0
   | some b => ((b.kts .data).length - c.di) + ((b.kts .del).length - c.xi)) +
  (c.rest.map (fun b => (b.kts .data).length + (b.kts .del).length)).sum

/-- `enqueue` (merge.rs:173-245). -/
def Cursor.enqueue (c : Cursor K R) (k : Kind) (src : Nat) (skip : Option K) :
    Option (Cursor K R × Option (HEntry K)) :=
  enqueueLoop k src skip (c.left + 1) c

/-- `OutputState` (merge.rs:291-303), without the bounds it collects but never uses. -/
structure Out (K R : Type) where
  batches : List (Batch K R)
  data : List (KT K × R)
  dels : List (KT K)
  pending : Nat
  rows : Nat
  tombs : Nat
  bytes : Nat

/-- `OutputState::new`, `reset_for_next` (merge.rs:306-320, 436-448). -/
def Out.new : Out K R := ⟨[], [], [], 0, 0, 0, 0⟩

/-- `push_data` (merge.rs:322-327); `n` is the memory size of the row. -/
def Out.pushData (o : Out K R) (p : KT K × R) (n : Nat) : Out K R :=
  { o with pending := o.pending + 1, rows := o.rows + 1, bytes := o.bytes + n, data := o.data ++ [p] }

/-- `push_delete` (merge.rs:329-334). -/
def Out.pushDel (o : Out K R) (kt : KT K) (n : Nat) : Out K R :=
  { o with pending := o.pending + 1, tombs := o.tombs + 1, bytes := o.bytes + n, dels := o.dels ++ [kt] }

/-- `flush_chunk` (merge.rs:362-392). -/
def Out.flushChunk (o : Out K R) : Out K R :=
  if o.data = [] ∧ o.dels = [] then o
  else { o with
    batches := o.batches ++ [⟨o.data, if o.dels = [] then none else some o.dels⟩]
    data := [], dels := [], pending := 0 }

/-- `has_pending` (merge.rs:394-400). -/
def Out.hasPending (o : Out K R) : Bool :=
  !o.batches.isEmpty || !o.data.isEmpty || !o.dels.isEmpty || decide (0 < o.rows) || decide (0 < o.tombs)

/-- `cap.map(|cap| n >= cap).unwrap_or(false)`. -/
def over (cap : Option Nat) (n : Nat) : Bool :=
  match cap with
  | none => false
  | some c => decide (c ≤ n)

/-- `exceeds_caps` (merge.rs:402-406). -/
def Out.exceeds (o : Out K R) (maxRows maxBytes : Option Nat) : Bool :=
  over maxRows o.rows || over maxBytes o.bytes

/-- A table written by the merge: its identifier, content, statistics and WAL identifiers. -/
structure OTable (K R : Type) where
  id : Nat
  file : File K R
  stats : Stats K
  wal : Option (List Nat)

/-- Key bounds from the first and last row (sstable.rs:592-594, 612-614). -/
def Stats.firstLast (s : Stats K) (l : List (KT K)) : Stats K :=
  match l.head?, l.getLast? with
  | some a, some b => s.updateKeys a.key b.key
  | _, _ => s

/-- `stage_stream_batch` (sstable.rs:581-651). -/
def stageStream (s : Stats K) (b : Batch K R) : Stats K :=
  if b.data.length = 0 ∧ (b.kts .del).length = 0 then s
  else
    let s := Stats.firstLast (Stats.firstLast s (b.kts .data)) (b.kts .del)
    let s := s.maybeTs (tsRange ((b.kts .data ++ b.kts .del).map (·.ts)))
    { s with
      segments := s.segments + 1
      rows := s.rows + b.data.length
      tombstones := s.tombstones + (b.kts .del).length }

/-- `Vec::dedup` (std): drops repeated neighbours. -/
def dedup : List Nat → List Nat
  | [] => []
  | [a] => [a]
  | a :: b :: l => if a = b then dedup (b :: l) else a :: dedup (b :: l)

/-- The WAL identifiers of the outputs (merge.rs:423-428). -/
def walIds (ids : List Nat) : Option (List Nat) :=
  if ids = [] then none else some (dedup (ids.insertionSort (· ≤ ·)))

/-- Why a merge fails (merge.rs:704, 717, 757, 798, 805; sstable.rs:659). `panic` is an index out of
range or a loop without end. -/
inductive Err where
  | emptyInput | budget | noTarget | emptyOutput | noAllocator | noSegments | panic
deriving Repr, DecidableEq

/-- `OutputState::finish` (merge.rs:408-434) and `ParquetTableWriter::finish` (sstable.rs:653-689):
nothing is sorted, as no run was staged. Batches without rows and deletions are not written. -/
def Out.finish (o : Out K R) (id : Nat) (wal : Option (List Nat)) : Except Err (OTable K R) :=
  let o := o.flushChunk
  let stats := o.batches.foldl stageStream (Stats.new : Stats K)
  if stats.segments = 0 then .error .noSegments
  else .ok {
    id := id
    file := { data := o.batches.flatMap (·.data), dels := o.batches.flatMap (·.kts .del) }
    stats := stats
    wal := wal }

/-- `SsTableMerger` (merge.rs:452-461). `size` is `get_array_memory_size` of one row. -/
structure Cfg (K R : Type) where
  target : Nat
  maxRows : Option Nat
  maxBytes : Option Nat
  chunkRows : Nat
  budget : Option Nat
  wal : Option (List Nat)
  sizeData : KT K × R → Nat
  sizeDel : KT K → Nat

/-- The variables of the main loop (merge.rs:687-713). `next` is the identifier allocator, used by
this merge alone while it runs; `cur` is `current_descriptor`. -/
structure St (K R : Type) where
  srcs : List (Cursor K R)
  heap : List (HEntry K)
  out : Out K R
  tables : List (OTable K R)
  cur : Option Nat
  next : Option Nat
  iters : Nat

/-- The inner `while` loop (merge.rs:721-727): all entries with key `g`. The fuel bounds the
iterations. -/
def takeGroup (H : Heap K) (g : K) : Nat → List (HEntry K) → List (HEntry K) × List (HEntry K)
  | 0, h => ([], h)
  | n + 1, h =>
    match H.pop h with
    | none => ([], h)
    | some (e, h') =>
      if e.kt.key = g then
        let r := takeGroup H g n h'
        (e :: r.1, r.2)
      else ([], h)

/-- `append_data` / `append_delete` (merge.rs:267-288, 736-743). -/
def append (cfg : Cfg K R) (srcs : List (Cursor K R)) (e : HEntry K) (o : Out K R) : Option (Out K R) :=
  match srcs[e.src]? with
  | none => none
  | some c =>
    match c.batch with
    | none => some o
    | some b =>
      match e.kind with
      | .data => (b.data[e.row]?).map (fun p => o.pushData p (cfg.sizeData p))
      | .del =>
        match b.del with
        | none => some o
        | some x => (x[e.row]?).map (fun kt => o.pushDel kt (cfg.sizeDel kt))

/-- The body of the loop over the group (merge.rs:745-750). -/
def refill (g : K) (srcs : List (Cursor K R)) (heap : List (HEntry K)) (e : HEntry K) :
    Option (List (Cursor K R) × List (HEntry K)) :=
  match srcs[e.src]? with
  | none => none
  | some c =>
    match (c.advance e.kind).enqueue e.kind e.src (some g) with
    | none => none
    | some (c', o) => some (srcs.set e.src c', o.toList ++ heap)

/-- The loop over the group (merge.rs:745-750). -/
def refillAll (g : K) : List (HEntry K) → List (Cursor K R) → List (HEntry K) →
    Option (List (Cursor K R) × List (HEntry K))
  | [], srcs, heap => some (srcs, heap)
  | e :: es, srcs, heap =>
    match refill g srcs heap e with
    | none => none
    | some (srcs', heap') => refillAll g es srcs' heap'

/-- Closing an output that has reached a cap (merge.rs:752-774), with `allocate_next_descriptor`
(merge.rs:803-812). -/
def rollOver (cfg : Cfg K R) (st : St K R) : Except Err (St K R) :=
  let o := if cfg.chunkRows ≤ st.out.pending then st.out.flushChunk else st.out
  if o.exceeds cfg.maxRows cfg.maxBytes then
    match st.cur with
    | none => .error .noTarget
    | some id =>
      match o.finish id cfg.wal with
      | .error e => .error e
      | .ok t =>
        match st.next with
        | none => .error .noAllocator
        | some n =>
          .ok { st with out := Out.new, tables := st.tables ++ [t], cur := some n, next := some (n + 1) }
  else .ok { st with out := o }

/-- The iteration budget is exceeded (merge.rs:716-718). -/
def overBudget (budget : Option Nat) (iters : Nat) : Bool :=
  match budget with
  | none => false
  | some m => decide (m < iters)

/-- One iteration of the main loop, after `heap.pop()` returned `e` (merge.rs:713-775). -/
def body (cfg : Cfg K R) (H : Heap K) (st : St K R) (e : HEntry K) (heap : List (HEntry K)) :
    Except Err (St K R) :=
  let iters := st.iters + 1
  if overBudget cfg.budget iters then .error .budget
  else
    let g := takeGroup H e.kt.key heap.length heap
    match append cfg st.srcs e st.out with
    | none => .error .panic
    | some o =>
      match refillAll e.kt.key (e :: g.1) st.srcs g.2 with
      | none => .error .panic
      | some (srcs, heap') => rollOver cfg { st with srcs := srcs, heap := heap', out := o, iters := iters }

/-- The main loop (merge.rs:713-775). The fuel bounds the iterations. -/
def loop (cfg : Cfg K R) (H : Heap K) : Nat → St K R → Except Err (St K R)
  | 0, _ => .error .panic
  | n + 1, st =>
    match H.pop st.heap with
    | none => .ok st
    | some (e, heap) =>
      match body cfg H st e heap with
      | .error err => .error err
      | .ok st' => loop cfg H n st'

/-- Opening the sources (merge.rs:683-700): a batch is fetched and the first entry of each kind is
pushed. -/
def openAll : Nat → List (List (Batch K R)) → Option (List (Cursor K R) × List (HEntry K))
  | _, [] => some ([], [])
  | i, bs :: rest =>
    match ((Cursor.new bs).ensure).enqueue .data i none with
    | none => none
    | some (c, o1) =>
      match c.enqueue .del i none with
      | none => none
      | some (c', o2) =>
        match openAll (i + 1) rest with
        | none => none
        | some (cs, h) => some (c' :: cs, o1.toList ++ o2.toList ++ h)

/-- The end of `execute_inner` (merge.rs:777-800). -/
def finishAll (cfg : Cfg K R) (st : St K R) : Except Err (List (OTable K R)) :=
  if st.out.hasPending then
    match st.cur with
    | none => .error .noTarget
    | some id =>
      match st.out.finish id cfg.wal with
      | .error e => .error e
      | .ok t => .ok (st.tables ++ [t])
  else if st.tables = [] then .error .emptyOutput
  else .ok st.tables

/-- `execute` (merge.rs:653-801). When it fails, the outputs written so far are removed
(merge.rs:662-665). -/
def execute (cfg : Cfg K R) (H : Heap K) (next : Option Nat) (inputs : List (List (Batch K R))) :
    Except Err (List (OTable K R)) :=
  match openAll 0 inputs with
  | none => .error .panic
  | some (srcs, heap) =>
    if heap = [] then .error .emptyInput
    else
      match loop cfg H ((inputs.flatten.map (fun b => b.data.length + (b.kts .del).length)).sum + 1)
        ⟨srcs, heap, Out.new, [], some cfg.target, next, 0⟩ with
      | .error e => .error e
      | .ok st => finishAll cfg st

/-- A heap kept as a list: the largest element is searched. -/
def listPop : List (HEntry K) → Option (HEntry K × List (HEntry K))
  | [] => none
  | e :: h =>
    match listPop h with
    | none => some (e, [])
    | some (m, r) => if e.ge m then some (e, m :: r) else some (m, e :: r)

end Tonbo.Model.Compact
