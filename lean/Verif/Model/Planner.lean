import Verif.Model.Manifest
import Mathlib.Data.List.Sort

/-!
# Planning compactions  (src/compaction/planner.rs, src/compaction/orchestrator.rs)

Keys are any linear order (C45 is about the order itself). Numbers are unbounded.
-/

namespace Tonbo.Model.Planner
open Tonbo.Model.Manifest

/-- `SsTableStats` (sstable.rs:323-339). -/
structure SStats (K : Type) where
  rows : Nat
  bytes : Nat
  tombstones : Nat
  minKey : Option K
  maxKey : Option K
  minTs : Option Nat
  maxTs : Option Nat
deriving Repr, DecidableEq

/-- A path below the directory of the table files: level and identifier (sstable.rs:1131-1161); the
data file and the delete sidecar differ only in their suffix. -/
structure Path where
  level : Nat
  id : Nat
deriving Repr, DecidableEq

/-- The statistics and paths of an `SstEntry` (domain.rs:413-421). -/
structure Info (K : Type) where
  stats : Option (SStats K)
  data : Path
  del : Option Path
deriving Repr, DecidableEq

/-- `LevelFile` (planner.rs:155-160). -/
structure LFile (K : Type) where
  id : Nat
  stats : Option (SStats K)
deriving Repr, DecidableEq

/-- `LevelInfo` (planner.rs:109-112). -/
structure LInfo (K : Type) where
  level : Nat
  files : List (LFile K)
deriving Repr, DecidableEq

/-- `LeveledPlannerConfig` (planner.rs:171-187). -/
structure PCfg where
  l0Trigger : Nat
  l0MaxInputs : Nat
  l0MaxBytes : Option Nat
  thresholds : List Nat
  maxBytes : List (Option Nat)
  maxInputs : Nat
  maxTaskBytes : Option Nat
deriving Repr, DecidableEq

/-- `LeveledPlannerConfig::default` (planner.rs:189-201). -/
def PCfg.default : PCfg := ⟨8, 6, none, [10, 12, 14], [], 10, none⟩

/-- `CompactionInput` (planner.rs:205-210). -/
structure Input where
  level : Nat
  id : Nat
deriving Repr, DecidableEq

/-- `CompactionTask` (planner.rs:214-223). -/
structure PTask (K : Type) where
  source : Nat
  target : Nat
  input : List Input
  range : Option (K × K)
deriving Repr, DecidableEq

variable {K : Type} [LinearOrder K]

/-- The loop of `From<&VersionState> for CompactionSnapshot` (planner.rs:137-150), from level `l`. -/
def levelsFrom : Nat → List (List (Entry (Info K))) → List (LInfo K)
  | _, [] => []
  | l, b :: bs =>
    if b = [] then levelsFrom (l + 1) bs
    else ⟨l, b.map (fun e => ⟨e.id, e.info.stats⟩)⟩ :: levelsFrom (l + 1) bs

/-- `CompactionSnapshot::level` (planner.rs:97-99). -/
def levelOf (s : List (LInfo K)) (l : Nat) : Option (LInfo K) := s.find? (fun i => decide (i.level = l))

/-- `CompactionSnapshot::is_empty` (planner.rs:102-104). -/
def isEmpty (s : List (LInfo K)) : Bool := s.all (fun i => i.files.isEmpty)

/-- `total_bytes` (planner.rs:435-441). -/
def totalBytes (fs : List (LFile K)) : Nat := ((fs.filterMap (·.stats)).map (·.bytes)).sum

/-- The smallest key of a file, if its statistics have one (planner.rs:399-407). -/
def LFile.minKey (f : LFile K) : Option K := f.stats.bind (·.minKey)

/-- `compare_key(a, b)` is not `Greater` (planner.rs:399-407). -/
def keyLe (a b : LFile K) : Prop :=
  match a.minKey, b.minKey with
  | some x, some y => x ≤ y
  | _, _ => True

instance (a b : LFile K) : Decidable (keyLe a b) := by
  unfold keyLe; cases a.minKey <;> cases b.minKey <;> infer_instance

/-- `sort_by(compare_key)` (planner.rs:379). `compare_key` is no order when some files have no smallest
key; the result is then some rearrangement (`std` also allows a panic), so the model leaves it open. -/
structure Sorter (K : Type) [LinearOrder K] where
  sort : List (LFile K) → List (LFile K)
  perm : ∀ l, (sort l).Perm l
  sorted : ∀ l, (∀ f ∈ l, f.minKey ≠ none) → (sort l).Pairwise keyLe

/-- `stats.bytes` or zero (planner.rs:386). -/
def LFile.bytes (f : LFile K) : Nat := (f.stats.map (·.bytes)).getD 0

/-- Adding the file would exceed the byte cap of a task that has inputs already (planner.rs:387-392). -/
def capped (cap : Option Nat) (empty : Bool) (bytes : Nat) : Bool :=
  match cap with
  | none => false
  | some c => !empty && decide (c < bytes)

/-- The loop of `select_compaction_run` (planner.rs:382-395). `sel` is what was selected so far. -/
def selectLoop (take : Nat) (cap : Option Nat) : List (LFile K) → List (LFile K) → Nat → List (LFile K)
  | sel, [], _ => sel
  | sel, f :: fs, bytes =>
    if take ≤ sel.length then sel
    else if capped cap sel.isEmpty (bytes + f.bytes) then sel
    else selectLoop take cap (sel ++ [f]) fs (bytes + f.bytes)

/-- `select_compaction_run` (planner.rs:370-397). -/
def select (S : Sorter K) (files : List (LFile K)) (take : Nat) (cap : Option Nat) : List (LFile K) :=
  if files = [] then [] else selectLoop take cap [] (S.sort files) 0

/-- The smaller of the key kept and the candidate (planner.rs:416-419). -/
def lowerKey (cur cand : Option K) : Option K :=
  match cand with
  | none => cur
  | some c =>
    match cur with
    | some k => if k ≤ c then some k else some c
    | none => some c

/-- The larger of the key kept and the candidate (planner.rs:422-425). -/
def raiseKey (cur cand : Option K) : Option K :=
  match cand with
  | none => cur
  | some c =>
    match cur with
    | some k => if c ≤ k then some k else some c
    | none => some c

/-- The loop of `aggregate_key_range` (planner.rs:412-427); `none` when a file has no statistics. -/
def rangeLoop : Option K → Option K → List (LFile K) → Option (Option K × Option K)
  | lo, hi, [] => some (lo, hi)
  | lo, hi, f :: fs =>
    match f.stats with
    | none => none
    | some s => rangeLoop (lowerKey lo s.minKey) (raiseKey hi s.maxKey) fs

/-- `aggregate_key_range` (planner.rs:409-433). -/
def keyRange (fs : List (LFile K)) : Option (K × K) :=
  match rangeLoop none none fs with
  | some (some lo, some hi) => some (lo, hi)
  | _ => none

/-- A total of bytes reaches a cap (planner.rs:247-251, 287-289). -/
def overBytes (cap : Option Nat) (fs : List (LFile K)) : Bool :=
  match cap with
  | none => false
  | some c => decide (c ≤ totalBytes fs)

/-- `plan_l0` (planner.rs:245-271). -/
def planL0 (S : Sorter K) (cfg : PCfg) (s : List (LInfo K)) : Option (PTask K) :=
  match levelOf s 0 with
  | none => none
  | some l0 =>
    if l0.files.length < cfg.l0Trigger ∧ overBytes cfg.l0MaxBytes l0.files = false then none
    else
      let selected := select S l0.files (max (min cfg.l0MaxInputs l0.files.length) 1) cfg.maxTaskBytes
      some ⟨0, 1, selected.map (fun f => ⟨0, f.id⟩), keyRange selected⟩

/-- The file overlaps the range (planner.rs:317-330); without both bounds it is passed over. -/
def overlaps (lo hi : K) (f : LFile K) : Bool :=
  match f.stats with
  | none => false
  | some s =>
    match s.minKey, s.maxKey with
    | some a, some b => decide (a ≤ hi) && decide (lo ≤ b)
    | _, _ => false

/-- The files of the next level pulled into the task (planner.rs:308-331). -/
def pulled (s : List (LInfo K)) (level : Nat) (range : Option (K × K)) : List (LFile K) :=
  match levelOf s (level + 1), range with
  | some next, some (lo, hi) => next.files.filter (overlaps lo hi)
  | _, _ => []

/-- The level is over its limits (planner.rs:281-292). `none`: it has no limit and is passed over. -/
def due (cfg : PCfg) (i : LInfo K) : Bool :=
  match cfg.thresholds[i.level - 1]? with
  | none => false
  | some limit =>
    decide (limit < i.files.length) || overBytes (cfg.maxBytes[i.level - 1]?.join) i.files

/-- The task for a level over its limits (planner.rs:293-339); `none`: nothing selected. -/
def planLevel (S : Sorter K) (cfg : PCfg) (s : List (LInfo K)) (i : LInfo K) : Option (PTask K) :=
  let selected := select S i.files (max (min cfg.maxInputs i.files.length) 1) cfg.maxTaskBytes
  if selected = [] then none
  else
    let range := keyRange selected
    let more := pulled s i.level range
    some ⟨i.level, i.level + 1,
      selected.map (fun f => ⟨i.level, f.id⟩) ++ more.map (fun f => ⟨i.level + 1, f.id⟩),
      if more = [] then range else keyRange (selected ++ more)⟩

/-- The loop of `plan_leveled_from` (planner.rs:277-341) over the levels left. -/
def leveledLoop (S : Sorter K) (cfg : PCfg) (s : List (LInfo K)) : List (LInfo K) → Option (PTask K)
  | [] => none
  | i :: is =>
    if due cfg i then
      match planLevel S cfg s i with
      | some t => some t
      | none => leveledLoop S cfg s is
    else leveledLoop S cfg s is

/-- `plan_leveled_from` (planner.rs:273-342). -/
def planLeveled (S : Sorter K) (cfg : PCfg) (s : List (LInfo K)) (minLevel : Nat) : Option (PTask K) :=
  leveledLoop S cfg s (s.filter (fun i => decide (max minLevel 1 ≤ i.level)))

/-- `plan` (planner.rs:238-243). -/
def plan (S : Sorter K) (cfg : PCfg) (s : List (LInfo K)) : Option (PTask K) :=
  match planL0 S cfg s with
  | some t => some t
  | none => planLeveled S cfg s 1

/-- `plan_with_min_level` (planner.rs:344-353). -/
def planMin (S : Sorter K) (cfg : PCfg) (s : List (LInfo K)) (minLevel : Nat) : Option (PTask K) :=
  if minLevel = 0 then plan S cfg s else planLeveled S cfg s minLevel

/-- `plan_from_version_with_min_level` (orchestrator.rs:35-48); with `0` also `plan_from_version`
(orchestrator.rs:21-30). -/
def planVersion (S : Sorter K) (cfg : PCfg) (v : Version (Info K)) (minLevel : Nat) : Option (PTask K) :=
  let s := levelsFrom 0 v.ssts
  if isEmpty s then none else planMin S cfg s minLevel

/-- `SsTableDescriptor` (sstable.rs:240-252), without the MVCC path, which nothing sets. -/
structure Desc (K : Type) where
  id : Nat
  level : Nat
  stats : Option (SStats K)
  wal : Option (List Nat)
  data : Option Path
  del : Option Path
deriving Repr, DecidableEq

/-- The two invariant errors of `resolve_inputs` (orchestrator.rs:60-69). -/
inductive Err where
  | missingLevel | missingSst
deriving Repr, DecidableEq

/-- `resolve_inputs` (orchestrator.rs:54-81). -/
def resolve (v : Version (Info K)) : List Input → Except Err (List (Desc K))
  | [] => .ok []
  | i :: is =>
    match v.ssts[i.level]? with
    | none => .error .missingLevel
    | some bucket =>
      match bucket.find? (fun e => decide (e.id = i.id)) with
      | none => .error .missingSst
      | some e =>
        match resolve v is with
        | .error err => .error err
        | .ok ds => .ok (⟨e.id, i.level, e.info.stats, e.wal, some e.info.data, e.info.del⟩ :: ds)

end Tonbo.Model.Planner
