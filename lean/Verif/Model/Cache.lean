import Mathlib.Data.List.Sort
import Mathlib.Logic.Function.Basic

/-!
# The caches of table metadata and bloom filters, and batched reads of byte ranges
(src/ondisk/metadata.rs, src/ondisk/bloom.rs, src/db/scan.rs:62-95)

Both caches have the same code; the model has one, for any type of keys and values. A `HashMap` is a list of
pairs. The mutex around a cache makes each call one step.
-/

namespace Tonbo.Model.Cache

variable {K V : Type} [DecidableEq K]

/-- `ParquetMetadataCache` (metadata.rs:16-20), `BloomFilterCache` (bloom.rs:36-40). -/
structure Cache (K V : Type) where
  max : Nat
  order : List K
  entries : List (K × V)

/-- `new` (metadata.rs:23-29, bloom.rs:43-49). -/
def new (maxEntries : Nat) : Cache K V := ⟨max maxEntries 1, [], []⟩

/-- `HashMap::get`. -/
def find (m : List (K × V)) (k : K) : Option V := (m.find? (fun p => decide (p.1 = k))).map (·.2)

/-- `HashMap::remove`. -/
def remove (m : List (K × V)) (k : K) : List (K × V) := m.filter (fun p => decide (p.1 ≠ k))

/-- `HashMap::insert`. -/
def put (m : List (K × V)) (k : K) (v : V) : List (K × V) := (k, v) :: remove m k

/-- `get` (metadata.rs:35-38, bloom.rs:55-57). -/
def kget (c : Cache K V) (k : K) : Option V := find c.entries k

/-- The eviction loop (metadata.rs:50-54, bloom.rs:67-71). `none`: the queue is empty while there are too
many entries, the loop of the code would not end. -/
def evict (max : Nat) : List K → List (K × V) → Option (List K × List (K × V))
  | [], m => if max < m.length then none else some ([], m)
  | k :: ks, m => if max < m.length then evict max ks (remove m k) else some (k :: ks, m)

/-- `insert` (metadata.rs:40-55, bloom.rs:59-72). -/
def insert (c : Cache K V) (k : K) (v : V) : Option (Cache K V) :=
  if (find c.entries k).isSome then some { c with entries := put c.entries k v }
  else (evict c.max (c.order ++ [k]) (put c.entries k v)).map (fun p => ⟨c.max, p.1, p.2⟩)

/-- A sequence of insertions into a new cache. -/
def fill (max : Nat) (l : List (K × V)) : Option (Cache K V) :=
  l.foldl (fun c p => c.bind (fun c => insert c p.1 p.2)) (some (new max))

/-- `parquet_metadata_cached` (scan.rs:62-95): `load` stands for opening the file, reading its metadata and
checking the page indexes; `none` if any of this fails. Two tasks may load the same file at the same time:
`lookup` and `store` are separate steps. -/
def lookup (c : Cache K V) (k : K) : Option V := kget c k

/-- The second half of `parquet_metadata_cached`. -/
def store (c : Cache K V) (k : K) (v : V) : Option (Cache K V) := insert c k v

/-- Calls of `parquet_metadata_cached` (and of `SstBloomFilterProvider::bloom_filter`, bloom.rs:234-245)
by interleaved tasks. The argument of `finish` is the task that looked `k` up before. -/
inductive Op (K : Type) where
  | start (task : Nat) (k : K)
  | finish (task : Nat)

/-- What a task is doing, or what it returned. -/
inductive Slot (K V : Type) where
  | loading (k : K)
  | done (k : K) (v : Option V)

/-- The cache and the tasks. -/
structure St (K V : Type) where
  cache : Cache K V
  tasks : Nat → Option (Slot K V)

/-- One step of a task. `none`: the eviction loop did not end. -/
def step (load : K → Option V) (s : St K V) : Op K → Option (St K V)
  | .start t k =>
    match lookup s.cache k with
    | some v => some { s with tasks := Function.update s.tasks t (some (.done k (some v))) }
    | none => some { s with tasks := Function.update s.tasks t (some (.loading k)) }
  | .finish t =>
    match s.tasks t with
    | some (.loading k) =>
      match load k with
      | none => some { s with tasks := Function.update s.tasks t (some (.done k none)) }
      | some v =>
        match store s.cache k v with
        | none => none
        | some c => some ⟨c, Function.update s.tasks t (some (.done k (some v)))⟩
    | _ => some s

/-- A history of steps. -/
def run (load : K → Option V) (max : Nat) (ops : List (Op K)) : Option (St K V) :=
  ops.foldl (fun s o => s.bind (fun s => step load s o)) (some ⟨new max, fun _ => none⟩)

/-! ## Batched reads (bloom.rs:111-166) -/

/-- A byte range; the code's `Range<u64>`. -/
structure Range where
  start : Nat
  stop : Nat
deriving Repr, DecidableEq

/-- `get_bytes` of the reader below (fusio-parquet `AsyncReader`): the bytes of the range, an error if the
file is shorter. -/
def getBytes (file : List UInt8) (r : Range) : Option (List UInt8) :=
  if r.stop ≤ file.length then some ((file.drop r.start).take (r.stop - r.start)) else none

/-- `Batch` (bloom.rs:123-127). -/
structure Batch where
  start : Nat
  stop : Nat
  items : List (Nat × Range)
deriving Repr, DecidableEq

/-- `saturating_add` on `u64`. -/
def satAdd (a b : Nat) : Nat := min (a + b) (2 ^ 64 - 1)

/-- Adding a range to the last batch (bloom.rs:131-137). -/
def extend (b : Batch) (i : Nat) (r : Range) : Batch := ⟨b.start, max b.stop r.stop, b.items ++ [(i, r)]⟩

/-- The batches (bloom.rs:129-143); `cur` is `batches.last_mut()`. -/
def group (gap : Nat) (cur : Batch) : List (Nat × Range) → List Batch
  | [] => [cur]
  | (i, r) :: rest =>
    if r.start ≤ satAdd cur.stop gap then group gap (extend cur i r) rest
    else cur :: group gap ⟨r.start, r.stop, [(i, r)]⟩ rest

/-- The batches of a sorted list (bloom.rs:129-143). -/
def batches (gap : Nat) : List (Nat × Range) → List Batch
  | [] => []
  | (i, r) :: rest => group gap ⟨r.start, r.stop, [(i, r)]⟩ rest

/-- Cutting the ranges out of the bytes of a batch (bloom.rs:148-152). -/
def cut (b : Batch) (buf : List UInt8) (results : List (Option (List UInt8))) : List (Option (List UInt8)) :=
  b.items.foldl (fun res p =>
    res.set p.1 (some ((buf.drop (p.2.start - b.start)).take (p.2.stop - p.2.start)))) results

/-- Reading the batches (bloom.rs:145-153). -/
def readBatches (file : List UInt8) : List Batch → List (Option (List UInt8)) → Option (List (Option (List UInt8)))
  | [], res => some res
  | b :: bs, res =>
    match getBytes file ⟨b.start, b.stop⟩ with
    | none => none
    | some buf => readBatches file bs (cut b buf res)

/-- The loop at the end (bloom.rs:155-163). -/
def collectAll : List (Option (List UInt8)) → Option (List (List UInt8))
  | [] => some []
  | none :: _ => none
  | some x :: r => (collectAll r).map (x :: ·)

/-- `get_byte_ranges` (bloom.rs:111-166). -/
def getByteRanges (gap : Nat) (file : List UInt8) (ranges : List Range) : Option (List (List UInt8)) :=
  if ranges = [] then some []
  else
    (readBatches file
      (batches gap ((ranges.zipIdx.map (fun p => (p.2, p.1))).insertionSort (fun a b => a.2.start ≤ b.2.start)))
      (List.replicate ranges.length none)).bind collectAll

/-! ## Bloom filters of one file (bloom.rs:234-286)

`K` stands for the pairs of row group and column; the path, which is part of the key in the code, is the
same for all requests of a provider. `range` is `bloom_range` (bloom.rs:222-228), `parse` is
`Sbbf::from_bytes`. -/

/-- What the file itself answers (bloom.rs:240-242). -/
def readFilter (file : List UInt8) (range : K → Option Range) (parse : List UInt8 → Option V) (k : K) : Option V :=
  match range k with
  | none => none
  | some r =>
    match getBytes file r with
    | none => none
    | some b => parse b

/-- The first loop of `bloom_filters_batch` (bloom.rs:254-263): answers from the cache, and the misses. -/
def split (c : Cache K V) (range : K → Option Range) : List K → List (K × V) × List (K × Range)
  | [] => ([], [])
  | k :: ks =>
    match kget c k with
    | some v => (put (split c range ks).1 k v, (split c range ks).2)
    | none =>
      match range k with
      | some r => ((split c range ks).1, (k, r) :: (split c range ks).2)
      | none => split c range ks

/-- The last loop of `bloom_filters_batch` (bloom.rs:276-282). -/
def absorb (parse : List UInt8 → Option V) (c : Cache K V) (res : List (K × V)) :
    List (K × List UInt8) → Option (Cache K V × List (K × V))
  | [] => some (c, res)
  | (k, b) :: rest =>
    match parse b with
    | none => absorb parse c res rest
    | some v =>
      match insert c k v with
      | none => none
      | some c => absorb parse c (put res k v) rest

/-- `bloom_filters_batch` (bloom.rs:247-286). The result is a `HashMap`. Simplified: one step, while the
code releases the lock of the cache between requests. `none`: the eviction loop did not end. -/
def bloomBatch (gap : Nat) (file : List UInt8) (range : K → Option Range) (parse : List UInt8 → Option V)
    (c : Cache K V) (requests : List K) : Option (Cache K V × List (K × V)) :=
  if (split c range requests).2 = [] then some (c, (split c range requests).1)
  else
    match getByteRanges gap file ((split c range requests).2.map (·.2)) with
    | none => some (c, (split c range requests).1)
    | some bytes => absorb parse c (split c range requests).1 (((split c range requests).2.map (·.1)).zip bytes)

end Tonbo.Model.Cache
