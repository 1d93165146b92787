import Verif.Model.KeyTs
import Verif.Model.SMap

/-!
# Mutable and immutable memtables
(src/inmem/mutable/memtable.rs, src/inmem/immutable/memtable.rs)

A record batch is a list of rows of type `R`. `ext : R → Option K` is the key extractor
(`KeyProjection::project_view`); `none` stands for a row whose key column is null, for which the
extractor fails (src/extractor/extractors.rs:160-175). Schema validation and column projection are
not modelled (a projected row is the row itself).
The `RwLock` around the table (memtable.rs:598-604) makes each call atomic with respect to
seals; the calls here are the atomic steps. Slot reservation of two inserts that run at the same
time is the subject of `Model/Clock`-style interleavings only as far as the atomic cursor goes and
is not repeated here: insert calls are modelled as sequential (they hold the upgradable lock,
memtable.rs:680, 723, which excludes other inserts).
-/

namespace Tonbo.Model.Mem

/-- `Timestamp::MAX` = `u64::MAX` (src/mvcc/mod.rs:23). -/
def tsMax : Nat := 18446744073709551615

/-- `DynMutation<BatchRowLoc, DeleteRowLoc>` (src/inmem/mutable/memtable.rs:80-102, 110): where the
row or the deleted key is stored. -/
inductive Loc where
  | up (batch row : Nat)
  | dl (batch row : Nat)
deriving Repr, DecidableEq

/-- The ways a memtable call can fail. `panic` is a failed `expect`. -/
inductive Err where
  | key | tsColumn | capacity | panic
deriving Repr, DecidableEq

/-- `BatchAttachment` (memtable.rs:35-52). -/
structure Att (R : Type) where
  rows : List R
  ts : List Nat
deriving Repr, DecidableEq

/-- `DeleteAttachment` (memtable.rs:60-78). -/
structure DelAtt (K : Type) where
  keys : List K
  ts : List Nat
deriving Repr, DecidableEq

/-- `DynMemInner` (memtable.rs:108-121). The filled slots are a prefix, so the cursor is the list
length. A delete slot may be reserved but empty (memtable.rs:239-251). The metrics are in `Model/Meter.lean`. -/
structure Inner (K R : Type) where
  index : List (KT K × Loc)
  batches : List (Att R)
  dels : List (Option (DelAtt K))
  cap : Nat
deriving Repr, DecidableEq

/-- What a scan yields: `DynRowScanEntry` (memtable.rs:941-944) and `ImmutableVisibleEntry`
(immutable/memtable.rs:298-301). -/
inductive Entry (K R : Type) where
  | row (kt : KT K) (r : R)
  | tomb (kt : KT K)
deriving Repr, DecidableEq

/-- `MvccColumns`, `DeleteSidecar`, `ImmutableMemTable` (immutable/memtable.rs:18-35, 496-499).
The index maps to `some row` for `ImmutableIndexEntry::Row` and `none` for `Delete`. -/
structure Imm (K R : Type) where
  rows : List R
  ts : List Nat
  tomb : List Bool
  dkeys : List K
  dts : List Nat
  index : List (KT K × Option Nat)
deriving Repr, DecidableEq

variable {K R : Type} [LinearOrder K]

/-- `DynMemInner::new` (memtable.rs:124-137). -/
def Inner.new (cap : Nat) : Inner K R := { index := [], batches := [], dels := [], cap := cap }

/-- The loops at memtable.rs:169-188 and 267-287: index row `i`, `i+1`, ... in order. -/
def indexRows (mk : Nat → Loc) : Nat → List (K × Nat) → List (KT K × Loc) → List (KT K × Loc)
  | _, [], ix => ix
  | i, (k, t) :: rest, ix => indexRows mk (i + 1) rest (SMap.insert ⟨k, t⟩ (mk i) ix)

/-- Result of `try_insert_*`: `Err(())`, `Ok(Err(_))`, `Ok(Ok(()))` with the state left behind. -/
inductive TryRes (S : Type) where
  | full
  | err (e : Err) (s : S)
  | ok (s : S)

/-- `try_insert_batch` (memtable.rs:140-190). The slot is written before the keys are extracted. -/
def tryInsertBatch (ext : R → Option K) (s : Inner K R) (rows : List R) (ts : List Nat) :
    TryRes (Inner K R) :=
  if s.cap ≤ s.batches.length then .full
  else
    let s' := { s with batches := s.batches ++ [⟨rows, ts⟩] }
    match rows.mapM ext with
    | none => .err .key s'
    | some ks => .ok { s' with index := indexRows (.up s.batches.length) 0 (ks.zip ts) s.index }

/-- `try_insert_delete_batch` (memtable.rs:193-289). Rows of the batch are `(key, _commit_ts)`,
either of which may be null. The missing/mistyped `_commit_ts` column (memtable.rs:202-226) is
folded into the null check. -/
def tryInsertDelete (s : Inner K R) (batch : List (Option K × Option Nat)) : TryRes (Inner K R) :=
  if batch = [] then .ok s
  else
    match batch.mapM (·.2) with
    | none => .err .tsColumn s
    | some ts =>
      if s.cap ≤ s.dels.length then .full
      else
        match batch.mapM (·.1) with
        | none => .err .key { s with dels := s.dels ++ [none] }
        | some ks =>
          .ok { s with
            dels := s.dels ++ [some ⟨ks, ts⟩]
            index := indexRows (.dl s.dels.length) 0 (ks.zip ts) s.index }

/-- `batch_slots[b].get().expect(..)`, row `r` with its commit timestamp (memtable.rs:336-343). -/
def getUp (s : Inner K R) (b r : Nat) : Option (R × Nat) := do
  let a ← s.batches[b]?
  let row ← a.rows[r]?
  let t ← a.ts[r]?
  some (row, t)

/-- `delete_slots[b].get().expect(..)`, key `r` with its commit timestamp (memtable.rs:348-356). -/
def getDl (s : Inner K R) (b r : Nat) : Option (K × Nat) := do
  let a ← s.dels[b]?
  let a ← a
  let k ← a.keys[r]?
  let t ← a.ts[r]?
  some (k, t)

/-- Accumulators of the first pass of `seal` (memtable.rs:312-328). The metadata entry is the
timestamp and `true` for an upsert. -/
structure SealAcc (K R : Type) where
  rows : List R
  ts : List Nat
  dkeys : List K
  dts : List Nat
  meta_ : List (Nat × Bool)

/-- First pass of `seal` (memtable.rs:332-360). -/
def sealPass1 (s : Inner K R) : List (KT K × Loc) → SealAcc K R → Option (SealAcc K R)
  | [], a => some a
  | (kt, .up b r) :: rest, a =>
    match getUp s b r with
    | none => none
    | some (row, t) =>
      sealPass1 s rest { a with rows := a.rows ++ [row], ts := a.ts ++ [t],
                                meta_ := a.meta_ ++ [(kt.ts, true)] }
  | (kt, .dl b r) :: rest, a =>
    match getDl s b r with
    | none => none
    | some (k, t) =>
      sealPass1 s rest { a with dkeys := a.dkeys ++ [k], dts := a.dts ++ [t],
                                meta_ := a.meta_ ++ [(kt.ts, false)] }

/-- Second pass of `seal` (memtable.rs:408-434): rebuild the composite index from the keys of the
concatenated batches. `u`, `d` are `upsert_row`, `delete_row`. -/
def sealPass2 (uk dk : List K) :
    List (Nat × Bool) → Nat → Nat → List (KT K × Option Nat) → Option (List (KT K × Option Nat))
  | [], _, _, ix => some ix
  | (t, true) :: rest, u, d, ix =>
    match uk[u]? with
    | none => none
    | some k => sealPass2 uk dk rest (u + 1) d (SMap.insert ⟨k, t⟩ (some u) ix)
  | (t, false) :: rest, u, d, ix =>
    match dk[d]? with
    | none => none
    | some k => sealPass2 uk dk rest u (d + 1) (SMap.insert ⟨k, t⟩ none ix)

/-- `DynMemInner::seal` (memtable.rs:292-442). Note that an empty index returns before the slots
are reset (memtable.rs:297-299). Failure leaves the table without its index
(`std::mem::replace`, memtable.rs:312). -/
def sealInner (ext : R → Option K) (s : Inner K R) : Except Err (Option (Imm K R)) × Inner K R :=
  if s.index = [] then (.ok none, s)
  else
    match sealPass1 s s.index ⟨[], [], [], [], []⟩ with
    | none => (.error .panic, { s with index := [] })
    | some a =>
      let fresh : Inner K R := { index := [], batches := [], dels := [], cap := s.cap }
      match a.rows.mapM ext with
      | none => (.error .key, fresh)
      | some uk =>
        match sealPass2 uk a.dkeys a.meta_ 0 0 [] with
        | none => (.error .panic, fresh)
        | some ix =>
          (.ok (some { rows := a.rows, ts := a.ts, tomb := a.rows.map (fun _ => false),
                       dkeys := a.dkeys, dts := a.dts, index := ix }), fresh)

/-- `DynMem::insert_batch_with_mvcc` (memtable.rs:661-711): on a full table, seal and retry. If the
retry fails the sealed table is dropped (memtable.rs:702-710). -/
def insertBatchMvcc (ext : R → Option K) (s : Inner K R) (rows : List R) (ts : List (Option Nat)) :
    Except Err (Option (Imm K R)) × Inner K R :=
  if ts.length ≠ rows.length then (.error .tsColumn, s)
  else
    match ts.mapM id with
    | none => (.error .tsColumn, s)
    | some ts =>
      match tryInsertBatch ext s rows ts with
      | .ok s' => (.ok none, s')
      | .err e s' => (.error e, s')
      | .full =>
        match sealInner ext s with
        | (.error e, s') => (.error e, s')
        | (.ok sealed, s') =>
          match tryInsertBatch ext s' rows ts with
          | .ok s'' => (.ok sealed, s'')
          | .err e s'' => (.error e, s'')
          | .full => (.error .capacity, s')

/-- `DynMem::insert_batch` (memtable.rs:647-656): one commit timestamp for all rows. -/
def insertBatch (ext : R → Option K) (s : Inner K R) (rows : List R) (t : Nat) :
    Except Err (Option (Imm K R)) × Inner K R :=
  insertBatchMvcc ext s rows (rows.map (fun _ => some t))

/-- `DynMem::insert_delete_batch` (memtable.rs:716-743). -/
def insertDeleteBatch (ext : R → Option K) (s : Inner K R) (batch : List (Option K × Option Nat)) :
    Except Err (Option (Imm K R)) × Inner K R :=
  match tryInsertDelete s batch with
  | .ok s' => (.ok none, s')
  | .err e s' => (.error e, s')
  | .full =>
    match sealInner ext s with
    | (.error e, s') => (.error e, s')
    | (.ok sealed, s') =>
      match tryInsertDelete s' batch with
      | .ok s'' => (.ok sealed, s'')
      | .err e s'' => (.error e, s'')
      | .full => (.error .capacity, s')

/-! ## Range bounds -/

/-- `std::ops::Bound`. -/
inductive Bnd (α : Type) where
  | incl (a : α) | excl (a : α) | unb
deriving Repr, DecidableEq

/-- `lower_bound_for_mutable` / `lower_bound_for_immutable` (memtable.rs:914-920,
immutable/memtable.rs:248-271). -/
def lowerKT : Bnd K → Bnd (KT K)
  | .incl k => .incl ⟨k, tsMax⟩
  | .excl k => .excl ⟨k, 0⟩
  | .unb => .unb

/-- `upper_bound_for_mutable` / `upper_bound_for_immutable` (memtable.rs:922-928,
immutable/memtable.rs:273-296). -/
def upperKT : Bnd K → Bnd (KT K)
  | .incl k => .incl ⟨k, 0⟩
  | .excl k => .excl ⟨k, tsMax⟩
  | .unb => .unb

/-- `x` satisfies a start bound (`std::ops::Bound`). -/
def aboveLo {α : Type} [LinearOrder α] (lo : Bnd α) (x : α) : Bool :=
  match lo with | .incl a => decide (a ≤ x) | .excl a => decide (a < x) | .unb => true

/-- `x` satisfies an end bound (`std::ops::Bound`). -/
def belowHi {α : Type} [LinearOrder α] (hi : Bnd α) (x : α) : Bool :=
  match hi with | .incl a => decide (x ≤ a) | .excl a => decide (x < a) | .unb => true

/-- `RangeBounds::contains` for a pair of bounds, as used by `SkipMap::range` and
`BTreeMap::range`. -/
def inBounds {α : Type} [LinearOrder α] (lo hi : Bnd α) (x : α) : Bool :=
  aboveLo lo x && belowHi hi x

/-- `BTreeMap::range` panics on these bounds (std documentation: start > end, or start = end and
both excluded). -/
def rangePanics {α : Type} [LinearOrder α] (lo hi : Bnd α) : Bool :=
  match lo, hi with
  | .incl a, .incl b => decide (b < a)
  | .incl a, .excl b => decide (b < a)
  | .excl a, .incl b => decide (b < a)
  | .excl a, .excl b => decide (b ≤ a)
  | _, _ => false

/-! ## Scans -/

/-- `DynRowScan::next` run to the end (memtable.rs:987-1034). `cur` is `current_key`, `em` is
`emitted_for_key`. `none` is a panic. -/
def scanLoop (s : Inner K R) (rts : Nat) :
    List (KT K × Loc) → Option K → Bool → Option (List (Entry K R))
  | [], _, _ => some []
  | (kt, loc) :: rest, cur, em =>
    let same := cur = some kt.key
    if same ∧ em = true then scanLoop s rts rest cur em
    else
      let em' := if same then em else false
      if rts < kt.ts then scanLoop s rts rest (some kt.key) em'
      else
        match loc with
        | .dl _ _ =>
          (scanLoop s rts rest (some kt.key) true).map (Entry.tomb kt :: ·)
        | .up b r =>
          match getUp s b r with
          | none => none
          | some (row, _) => (scanLoop s rts rest (some kt.key) true).map (Entry.row kt row :: ·)

/-- `scan_visible` / `scan_visible_in_range` (memtable.rs:445-496). `SkipMap::range` never
panics. -/
def scan (s : Inner K R) (bounds : Option (Bnd K × Bnd K)) (rts : Nat) :
    Option (List (Entry K R)) :=
  match bounds with
  | none => scanLoop s rts s.index none false
  | some (lo, hi) =>
    scanLoop s rts (s.index.filter (fun e => inBounds (lowerKT lo) (upperKT hi) e.1)) none false

/-- `DynMemInner::has_conflict` (memtable.rs:499-507). -/
def hasConflict (s : Inner K R) (k : K) (snap : Nat) : Bool :=
  match s.index.filter (fun e => inBounds (.incl ⟨k, tsMax⟩) (.incl ⟨k, 0⟩) e.1) with
  | [] => false
  | e :: _ => decide (snap < e.1.ts)

/-- `DynMemInner::key_bounds` (memtable.rs:527-539). -/
def keyBounds (s : Inner K R) : Option K × Option K :=
  (s.index.head?.map (·.1.key), s.index.getLast?.map (·.1.key))

/-- The folding loops of `commit_ts_bounds` (memtable.rs:541-556,
immutable/memtable.rs:150-164). -/
def tsBounds : List Nat → Option (Nat × Nat)
  | [] => none
  | t :: ts => some (ts.foldl (fun a x => if x < a.1 then (x, if x > a.2 then x else a.2)
      else (a.1, if x > a.2 then x else a.2)) (t, t))

/-- `DynMemInner::commit_ts_bounds` (memtable.rs:541-556): over all index entries. -/
def commitTsBounds (s : Inner K R) : Option (Nat × Nat) := tsBounds (s.index.map (·.1.ts))

/-- `ImmutableVisibleScan::next` run to the end (immutable/memtable.rs:363-415). -/
def Imm.scanLoop (m : Imm K R) (rts : Nat) :
    List (KT K × Option Nat) → Option K → Bool → Option (List (Entry K R))
  | [], _, _ => some []
  | (kt, e) :: rest, cur, em =>
    let same := cur = some kt.key
    if same ∧ em = true then Imm.scanLoop m rts rest cur em
    else
      let em' := if same then em else false
      if rts < kt.ts then Imm.scanLoop m rts rest (some kt.key) em'
      else
        match e with
        | none => (Imm.scanLoop m rts rest (some kt.key) true).map (Entry.tomb kt :: ·)
        | some i =>
          match m.ts[i]?, m.tomb[i]? with
          | some t, some tb =>
            if rts < t then Imm.scanLoop m rts rest (some kt.key) em'
            else if tb then (Imm.scanLoop m rts rest (some kt.key) true).map (Entry.tomb kt :: ·)
            else
              match m.rows[i]? with
              | none => none
              | some row => (Imm.scanLoop m rts rest (some kt.key) true).map (Entry.row kt row :: ·)
          | _, _ => none

/-- `ImmutableMemTable::scan_visible` / `scan_visible_in_range` (immutable/memtable.rs:171-187,
323-357). `none` is a panic, from `BTreeMap::range` or from an index out of range. -/
def Imm.scan (m : Imm K R) (bounds : Option (Bnd K × Bnd K)) (rts : Nat) :
    Option (List (Entry K R)) :=
  match bounds with
  | none => m.scanLoop rts m.index none false
  | some (lo, hi) =>
    if rangePanics (lowerKT lo) (upperKT hi) then none
    else m.scanLoop rts (m.index.filter (fun e => inBounds (lowerKT lo) (upperKT hi) e.1)) none false

/-- `ImmutableMemTable::has_conflict` (immutable/memtable.rs:119-125). -/
def Imm.hasConflict (m : Imm K R) (k : K) (snap : Nat) : Bool :=
  (m.index.filter (fun e => inBounds (.incl ⟨k, tsMax⟩) (.incl ⟨k, 0⟩) e.1)).any
    (fun e => decide (snap < e.1.ts))

/-- `ImmutableMemTable::min_key`, `max_key` (immutable/memtable.rs:135-144). -/
def Imm.keyBounds (m : Imm K R) : Option K × Option K :=
  (m.index.head?.map (·.1.key), m.index.getLast?.map (·.1.key))

/-- `ImmutableMemTable::commit_ts_bounds` (immutable/memtable.rs:150-164): only the MVCC columns
of the upserts. -/
def Imm.commitTsBounds (m : Imm K R) : Option (Nat × Nat) := tsBounds m.ts

/-! ## The mutable table together with the frozen runs -/

/-- `DbInner::mem` and `SealState::immutables` (src/db/wal.rs:88-92), oldest run first. -/
structure Runs (K R : Type) where
  runs : List (Imm K R)
  mem : Inner K R
deriving Repr, DecidableEq

/-- One call on the pair. -/
inductive Op (K R : Type) where
  /-- upsert rows with their commit timestamps -/
  | put (rows : List (R × Nat))
  /-- delete keys with their commit timestamps -/
  | del (keys : List (K × Nat))
  /-- freeze the mutable table -/
  | freeze
deriving Repr, DecidableEq

/-- `add_immutable` when the memtable call returned a sealed table (src/db/wal.rs:138-144, 147-155,
171-177, 387-391). The WAL range bookkeeping is in `Model/Durable.lean`. -/
def addRun (runs : List (Imm K R)) : Option (Imm K R) → List (Imm K R)
  | none => runs
  | some m => runs ++ [m]

/-- The memtable call made for an operation (src/db/wal.rs:138, 148, 171). -/
def memCall (ext : R → Option K) (m : Inner K R) :
    Op K R → Except Err (Option (Imm K R)) × Inner K R
  | .put rows => insertBatchMvcc ext m (rows.map (·.1)) (rows.map (fun p => some p.2))
  | .del keys => insertDeleteBatch ext m (keys.map (fun p => (some p.1, some p.2)))
  | .freeze => sealInner ext m

/-- `insert_into_mutable`, `apply_committed_deletes`, `seal_mutable_now`
(src/db/wal.rs:133-155, 167-178). The flag is `true` when the call returned `Ok`. -/
def Runs.call (ext : R → Option K) (t : Runs K R) (op : Op K R) : Bool × Runs K R :=
  match memCall ext t.mem op with
  | (.error _, m) => (false, { t with mem := m })
  | (.ok o, m) => (true, { runs := addRun t.runs o, mem := m })

/-- A sequence of calls; the flag says that all of them returned `Ok`. -/
def Runs.calls (ext : R → Option K) : Runs K R → List (Op K R) → Bool × Runs K R
  | t, [] => (true, t)
  | t, op :: ops =>
    let r := t.call ext op
    let r' := Runs.calls ext r.2 ops
    (r.1 && r'.1, r'.2)

/-- A new table (src/inmem/mutable/memtable.rs:608-630). -/
def Runs.new (cap : Nat) : Runs K R := { runs := [], mem := Inner.new cap }

end Tonbo.Model.Mem
