import Verif.Model.Planner

/-!
# From a finished merge to manifest edits  (src/compaction/executor.rs, src/compaction/orchestrator.rs)
-/

namespace Tonbo.Model.Outcome
open Tonbo.Model.Manifest Tonbo.Model.Planner

/-- `CompactionOutcome` (executor.rs:60-79). -/
structure Outcome (K : Type) where
  add : List (Entry (Info K))
  remove : List (Desc K)
  target : Nat
  wal : Option (List WalRef)
  watermark : Option Nat
  outputs : List (Desc K)
  obsolete : List Nat
  floor : Option WalRef
  obsoleteWal : List WalRef
deriving Repr, DecidableEq

variable {K : Type}

/-- The largest commit timestamp so far (executor.rs:147-154). -/
def maxCommit (cur : Option Nat) (d : Desc K) : Option Nat :=
  match d.stats.bind (·.maxTs) with
  | none => cur
  | some ts =>
    match cur with
    | some c => if ts ≤ c then some c else some ts
    | none => some ts

/-- The loop of `from_outputs` (executor.rs:141-163); `none`: an output without data path. -/
def addEntries : List (Desc K) → Option (List (Entry (Info K)))
  | [] => some []
  | d :: ds =>
    match d.data with
    | none => none
    | some p =>
      match addEntries ds with
      | none => none
      | some es => some (⟨d.id, d.wal, ⟨d.stats, p, d.del⟩⟩ :: es)

/-- `from_outputs` (executor.rs:133-175). `none` is `MissingPath`. -/
def fromOutputs (outputs remove : List (Desc K)) (target : Nat) : Option (Outcome K) :=
  match addEntries outputs with
  | none => none
  | some es => some ⟨es, remove, target, none, outputs.foldl maxCommit none, outputs, [], none, []⟩

/-- Collecting the identifiers to remove per level (executor.rs:85-106): an entry is appended to its
level's list. -/
def pushLevel (l : Nat) (id : Nat) : List (Nat × List Nat) → List (Nat × List Nat)
  | [] => [(l, [id])]
  | (k, ids) :: r => if k = l then (k, ids ++ [id]) :: r else (k, ids) :: pushLevel l id r

/-- `level_for_sst` (executor.rs:85-88): the last descriptor with the identifier decides. -/
def levelFor (ds : List (Desc K)) (id : Nat) : Option Nat :=
  (ds.reverse.find? (fun d => decide (d.id = id))).map (·.level)

/-- `remove_by_level` (executor.rs:90-106). -/
def removeByLevel (o : Outcome K) : List (Nat × List Nat) :=
  o.obsolete.foldl (fun m id => match levelFor o.remove id with
      | some l => pushLevel l id m
      | none => m)
    (o.remove.foldl (fun m d => pushLevel d.level d.id m) [])

/-- `Vec::dedup` (std): drops repeated neighbours. -/
def dedup : List Nat → List Nat
  | [] => []
  | [a] => [a]
  | a :: b :: l => if a = b then dedup (b :: l) else a :: dedup (b :: l)

/-- One `RemoveSsts` edit per level (executor.rs:108-114). -/
def removeEdits (m : List (Nat × List Nat)) : List (Edit (Info K)) :=
  m.filterMap (fun p =>
    let ids := dedup (p.2.insertionSort (· ≤ ·))
    if ids = [] then none else some (.removeSsts p.1 ids))

/-- `to_version_edits` (executor.rs:83-130). A `HashMap` yields the levels in any order: `order` is the
one it uses. -/
def toEdits (order : List (Nat × List Nat) → List (Nat × List Nat)) (o : Outcome K) : List (Edit (Info K)) :=
  removeEdits (order (removeByLevel o))
    ++ (if o.add = [] then [] else [.addSsts o.target o.add])
    ++ (match o.wal.or (o.floor.map (fun f => [f])) with
        | some s => [.setWal s]
        | none => [])
    ++ (match o.watermark with
        | some w => [.setWatermark w]
        | none => [])

/-- `wal_ids_for_remaining_ssts` (orchestrator.rs:87-113), as a list of all identifiers met; `none`
when some table lacks them. -/
def remainingWal (v : Version (Info K)) (removed : List Nat) (added : List (Desc K)) : Option (List Nat) :=
  let kept := v.ssts.flatten.filter (fun e => decide (e.id ∉ removed))
  match (kept.map (·.wal) ++ added.map (·.wal)).mapM id with
  | none => none
  | some ls => some ls.flatten

/-- Some neighbouring segments are not consecutive (orchestrator.rs:141-143). -/
def hasGaps : List WalRef → Bool
  | a :: b :: l => decide (a.seq + 1 < b.seq) || hasGaps (b :: l)
  | _ => false

/-- `wal_segments_after_compaction` (orchestrator.rs:119-160). -/
def walAfterCompaction (v : Version (Info K)) (removed added : List (Desc K)) : Option (List WalRef) :=
  match remainingWal v (removed.map (·.id)) added with
  | none => none
  | some ids =>
    if v.wal = [] then none
    else
      let filtered := v.wal.filter (fun s => decide (s.file ∈ ids))
      if filtered = v.wal then none
      else
        match filtered with
        | [] => some []
        | first :: _ =>
          if hasGaps v.wal then
            match v.wal.findIdx? (fun s => decide (s.file = first.file)) with
            | some i => if 0 < i then some (v.wal.take i ++ filtered) else some v.wal
            | none => some v.wal
          else some filtered

/-- `reconcile_wal_segments` (orchestrator.rs:165-197), with the segments of the version itself as
`existing_wal_segments` (driver.rs:691, 752-757). -/
def reconcile (v : Version (Info K)) (floor : Option WalRef) (o : Outcome K) : Outcome K :=
  match walAfterCompaction v o.remove o.outputs with
  | some filtered =>
    { o with
      wal := some filtered
      floor := if filtered = [] then floor else floor.or filtered.head?
      obsoleteWal := v.wal.filter (fun s => decide (s ∉ filtered)) }
  | none =>
    { o with
      wal := some v.wal
      floor := if v.wal = [] then floor else floor.or v.wal.head?
      obsoleteWal := [] }

/-- `GcSstRef` (domain.rs:527-538). -/
structure GcSst where
  id : Nat
  level : Nat
  data : Path
  del : Option Path
deriving Repr, DecidableEq

/-- `GcPlanState` (domain.rs:518-523). -/
structure GcPlan where
  ssts : List GcSst
  wal : List WalRef
deriving Repr, DecidableEq

/-- The loop of `gc_plan_from_outcome` (orchestrator.rs:209-220); `none`: a missing data path. -/
def gcRefs : List (Desc K) → Option (List GcSst)
  | [] => some []
  | d :: ds =>
    match d.data with
    | none => none
    | some p =>
      match gcRefs ds with
      | none => none
      | some rs => some (⟨d.id, d.level, p, d.del⟩ :: rs)

/-- `gc_plan_from_outcome` (orchestrator.rs:202-225). The outer `none` is `MissingPath`. -/
def gcPlan (o : Outcome K) : Option (Option GcPlan) :=
  if o.remove = [] ∧ o.obsoleteWal = [] then some none
  else
    match gcRefs o.remove with
    | none => none
    | some rs => some (some ⟨rs, o.obsoleteWal⟩)

end Tonbo.Model.Outcome
