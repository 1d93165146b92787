import Verif.Model.Cache

/-!
# Page indexes of table files
(src/ondisk/sstable.rs:1589-1680, 1764-1790, src/db/scan.rs:62-93)

The metadata of a Parquet file, as far as the check of the page indexes looks at it. `C` is what an index says of a
column chunk.
-/

namespace Tonbo.Model.PageIndex
open Tonbo.Model

/-- `ParquetMetaData` (parquet): the number of columns of each row group, the column index and the offset index: for each
row group a list over its columns. -/
structure Meta (C : Type) where
  groups : List Nat
  columns : Option (List (List C))
  offsets : Option (List (List C))
deriving Repr, DecidableEq

/-- The reasons of `SsTableError::MissingPageIndex`. -/
inductive Reason where
  | columnsMissing | offsetsMissing
  | columnGroups (expected got : Nat)
  | offsetGroups (expected got : Nat)
  | columnCount (group expected got : Nat)
  | offsetCount (group expected got : Nat)
deriving Repr, DecidableEq

variable {C : Type}

/-- The loop over the row groups (sstable.rs:1655-1677). An index out of range would be a panic; the lengths are compared
before, so that the last case is the end of all three lists. -/
def checkGroups : Nat → List Nat → List (List C) → List (List C) → Except Reason Unit
  | i, n :: ns, c :: cs, o :: os =>
    if c.length ≠ n then .error (.columnCount i n c.length)
    else if o.length ≠ n then .error (.offsetCount i n o.length)
    else checkGroups (i + 1) ns cs os
  | _, _, _, _ => .ok ()

/-- The case of no row groups (sstable.rs:1597-1621). -/
def checkEmpty (m : Meta C) : Except Reason Unit :=
  match m.columns with
  | some (c :: cs) => .error (.columnGroups 0 (c :: cs).length)
  | _ =>
    match m.offsets with
    | some (o :: os) => .error (.offsetGroups 0 (o :: os).length)
    | _ => .ok ()

/-- `validate_page_indexes` (sstable.rs:1589-1680). -/
def validate (m : Meta C) : Except Reason Unit :=
  if m.groups = [] then checkEmpty m
  else
    match m.columns with
    | none => .error .columnsMissing
    | some cs =>
      match m.offsets with
      | none => .error .offsetsMissing
      | some os =>
        if cs.length ≠ m.groups.length then .error (.columnGroups m.groups.length cs.length)
        else if os.length ≠ m.groups.length then .error (.offsetGroups m.groups.length os.length)
        else checkGroups 0 m.groups cs os

/-- Opening a file, reading its metadata and checking it (scan.rs:76-88, sstable.rs:1775-1787). `stored`: what the file
holds; `none` if it cannot be opened or is not a Parquet file. -/
def load {P : Type} (stored : P → Option (Meta C)) (path : P) : Option (Meta C) :=
  match stored path with
  | none => none
  | some m =>
    match validate m with
    | .ok _ => some m
    | .error _ => none

/-- Tasks that call `parquet_metadata_cached` (scan.rs:62-93). -/
def run {P : Type} [DecidableEq P] (stored : P → Option (Meta C)) (capacity : Nat) (ops : List (Cache.Op P)) :
    Option (Cache.St P (Meta C)) :=
  Cache.run (load stored) capacity ops

end Tonbo.Model.PageIndex
