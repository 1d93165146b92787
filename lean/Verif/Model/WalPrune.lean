import Verif.Model.WalStats

/-!
# What pruning the log counts
(src/wal/metrics.rs:13-20, 38-57, src/compaction/driver.rs:197-248, src/wal/manifest_ext.rs:96-115,
src/transaction/mod.rs:1361-1370)

Files of the log that are below the floor of the manifest are deleted by a flush and by a transaction that changes the
list of files in the manifest; the writer itself deletes files when the log is larger than its limit
(writer.rs:980-1002). Only the flush counts.

The files are their numbers in ascending order, as `list_segments_with_hint` gives them. Simplified: what else the
transaction and the flush do, and that they and the writer act at the same time.
-/

namespace Tonbo.Model.WalP
open Tonbo.Model.WalS (satAdd)

/-- The counters of pruning (metrics.rs:13-20). -/
structure Counts where
  floors : Nat
  pruned : Nat
  dryRuns : Nat
  failures : Nat
deriving Repr, DecidableEq

/-- `prune_wal_segments` (manifest_ext.rs:96-115) with `prune_below` (storage.rs:154-168): the files left, and the number
returned. `fault`: the listing fails (`0`), or removing a file does after so many were removed. -/
def pruneFiles (dryRun : Bool) (floor : Nat) (files : List Nat) (fault : Option Nat) : List Nat × Option Nat :=
  let below := files.filter (fun f => decide (f < floor))
  if dryRun then
    if fault = some 0 then (files, none) else (files, some below.length)
  else if floor = 0 then (files, some 0)
  else
    match fault with
    | some j =>
      if j = 0 ∨ j < below.length then (below.drop j ++ files.filter (fun f => decide (floor ≤ f)), none)
      else (files.filter (fun f => decide (floor ≤ f)), some below.length)
    | none => (files.filter (fun f => decide (floor ≤ f)), some below.length)

/-- The files, the floor in the manifest, the counters. -/
structure P where
  files : List Nat
  floor : Option Nat
  c : Counts
deriving Repr, DecidableEq

/-- The recording in `prune_wal_below_floor` (driver.rs:207-240, metrics.rs:38-57). -/
def record (dryRun : Bool) (c : Counts) : Option Nat → Counts
  | some n =>
    if dryRun then { c with floors := satAdd c.floors 1, dryRuns := satAdd c.dryRuns n }
    else { c with floors := satAdd c.floors 1, pruned := satAdd c.pruned n }
  | none => { c with failures := satAdd c.failures 1 }

/-- `prune_wal_below_floor` (driver.rs:197-248, db/compaction.rs:54-56), called at the end of a flush (db/mod.rs:1180). -/
def flush (dryRun : Bool) (p : P) (fault : Option Nat) : P :=
  match p.floor with
  | none => p
  | some f =>
    { p with files := (pruneFiles dryRun f p.files fault).1, c := record dryRun p.c (pruneFiles dryRun f p.files fault).2 }

/-- The same in a transaction (transaction/mod.rs:1361-1370): an error is printed. -/
def txn (dryRun : Bool) (p : P) (fault : Option Nat) : P :=
  match p.floor with
  | none => p
  | some f => { p with files := (pruneFiles dryRun f p.files fault).1 }

/-- What happens: the writer opens a file (writer.rs:805-812), the manifest gets another floor, a flush, a transaction, the
writer deletes its oldest file (writer.rs:980-1002). -/
inductive Op where
  | file (seq : Nat)
  | floor (f : Option Nat)
  | flush (fault : Option Nat)
  | txn (fault : Option Nat)
  | evict
deriving Repr, DecidableEq

/-- One step (driver.rs:197-248, transaction/mod.rs:1361-1370, writer.rs:980-1002). -/
def step (dryRun : Bool) (p : P) : Op → P
  | .file n => { p with files := p.files ++ [n] }
  | .floor f => { p with floor := f }
  | .flush fault => flush dryRun p fault
  | .txn fault => txn dryRun p fault
  | .evict => { p with files := p.files.tail }

/-- A run. -/
def run (dryRun : Bool) : P → List Op → P
  | p, [] => p
  | p, o :: os => run dryRun (step dryRun p o) os

/-- A log opened with fresh metrics (writer.rs:123-164). -/
def P.new (files : List Nat) (floor : Option Nat) : P := ⟨files, floor, ⟨0, 0, 0, 0⟩⟩

end Tonbo.Model.WalP
