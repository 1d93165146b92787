import Mathlib.Data.List.Sort
import Mathlib.Data.Nat.Basic

/-!
# The manifest  (src/manifest/domain.rs, driver.rs, version.rs, codec.rs)

`fusio-manifest` is trusted to run a write session as one atomic step on a key/value map and to give a
read session one consistent map. Its own errors (I/O, leases) are not modelled; a session that ends
without `commit` changes nothing. Numbers are unbounded.
-/

namespace Tonbo.Model.Manifest

/-- `WalSegmentRef` (domain.rs:469-478). File identifiers (ULIDs) are numbers. -/
structure WalRef where
  seq : Nat
  file : Nat
  first : Nat
  last : Nat
deriving Repr, DecidableEq

/-- `WalSegmentRef::cmp` (domain.rs:490-496): `a` is not larger than `b`. -/
def WalRef.le (a b : WalRef) : Prop :=
  a.seq < b.seq ∨ (a.seq = b.seq ∧ (a.first < b.first ∨ (a.first = b.first ∧
    (a.last < b.last ∨ (a.last = b.last ∧ a.file ≤ b.file)))))

instance (a b : WalRef) : Decidable (WalRef.le a b) := by unfold WalRef.le; infer_instance

/-- `SstEntry` (domain.rs:413-421). `info` stands for the statistics and the paths. -/
structure Entry (P : Type) where
  id : Nat
  wal : Option (List Nat)
  info : P
deriving Repr, DecidableEq

/-- `VersionState` (domain.rs:270-284). -/
structure Version (P : Type) where
  table : Nat
  ts : Nat
  ssts : List (List (Entry P))
  wal : List WalRef
  floor : Option WalRef
  watermark : Option Nat
deriving Repr, DecidableEq

/-- `VersionEdit` (version.rs:7-32). -/
inductive Edit (P : Type) where
  | addSsts (level : Nat) (entries : List (Entry P))
  | removeSsts (level : Nat) (ids : List Nat)
  | setWal (segments : List WalRef)
  | setWatermark (w : Nat)
deriving Repr, DecidableEq

/-- `ManifestError` (driver.rs:35-48), without the errors of the storage below. -/
inductive Err where
  | noEdits | noHead | dangling | missingLevel | casConflict | mismatch
deriving Repr, DecidableEq

variable {P : Type}

/-- `VersionState::empty` (domain.rs:287-296). -/
def Version.empty (table : Nat) : Version P := ⟨table, 0, [], [], none, none⟩

/-- `ensure_level` (domain.rs:347-353): `resize_with`. -/
def ensureLevel (ssts : List (List (Entry P))) (level : Nat) : List (List (Entry P)) :=
  if ssts.length ≤ level then ssts ++ List.replicate (level + 1 - ssts.length) [] else ssts

/-- The loop of `add_ssts` (domain.rs:324-327). -/
def addEntry (bucket : List (Entry P)) (e : Entry P) : List (Entry P) :=
  bucket.filter (fun x => decide (x.id ≠ e.id)) ++ [e]

/-- `add_ssts` (domain.rs:319-329). -/
def addSsts (ssts : List (List (Entry P))) (level : Nat) (entries : List (Entry P)) :
    List (List (Entry P)) :=
  if entries = [] then ssts
  else (ensureLevel ssts level).modify level (fun b => entries.foldl addEntry b)

/-- `remove_ssts` (domain.rs:331-345). -/
def removeSsts (ssts : List (List (Entry P))) (level : Nat) (ids : List Nat) :
    Except Err (List (List (Entry P))) :=
  if ids = [] then .ok ssts
  else if ssts.length ≤ level then .error .missingLevel
  else .ok (ssts.modify level (fun b => b.filter (fun e => decide (e.id ∉ ids))))

/-- One edit (domain.rs:299-308). -/
def applyEdit (v : Version P) : Edit P → Except Err (Version P)
  | .addSsts l es => .ok { v with ssts := addSsts v.ssts l es }
  | .removeSsts l ids =>
    match removeSsts v.ssts l ids with
    | .error e => .error e
    | .ok s => .ok { v with ssts := s }
  | .setWal w => .ok { v with wal := w }
  | .setWatermark w => .ok { v with watermark := some w }

/-- The loop over the edits (domain.rs:299-308). -/
def applyLoop (v : Version P) : List (Edit P) → Except Err (Version P)
  | [] => .ok v
  | e :: es =>
    match applyEdit v e with
    | .error err => .error err
    | .ok v' => applyLoop v' es

/-- `trim_trailing_empty_levels` (domain.rs:355-359). -/
def trim : List (List (Entry P)) → List (List (Entry P))
  | [] => []
  | b :: bs =>
    match trim bs with
    | [] => if b = [] then [] else [b]
    | c :: cs => b :: c :: cs

/-- `sort_by_key(id)` (domain.rs:310-312), a stable sort. -/
def sortBucket (b : List (Entry P)) : List (Entry P) := b.insertionSort (fun a b => a.id ≤ b.id)

/-- `normalise_wal_segments` (domain.rs:399-408). -/
def normaliseWal (v : Version P) : Version P :=
  if v.wal = [] then { v with floor := none }
  else
    let w := v.wal.insertionSort WalRef.le
    { v with wal := w, floor := w.head? }

/-- `apply_edits` (domain.rs:298-317). On an error the caller drops the half edited copy
(driver.rs:246, `?`). -/
def applyEdits (v : Version P) (edits : List (Edit P)) : Except Err (Version P) :=
  match applyLoop v edits with
  | .error e => .error e
  | .ok v => .ok (normaliseWal { v with ssts := trim (v.ssts.map sortBucket) })

/-- `TableHead` (domain.rs:257-266). -/
structure Head where
  table : Nat
  schemaVersion : Nat
  floor : Option WalRef
  last : Option Nat
deriving Repr, DecidableEq

/-- `VersionKey` (domain.rs:68-86). -/
inductive Key where
  | head (table : Nat)
  | version (table : Nat) (ts : Nat)
  | walFloor (table : Nat)
deriving Repr, DecidableEq

/-- `VersionValue` (domain.rs:91-98). -/
inductive Val (P : Type) where
  | head (h : Head)
  | version (v : Version P)
  | walFloor (w : WalRef)
deriving Repr, DecidableEq

/-- The key/value map of the version manifest. -/
abbrev Kv (P : Type) := List (Key × Val P)

/-- `session.get`. -/
def kget (m : Kv P) (k : Key) : Option (Val P) := (m.find? (fun p => decide (p.1 = k))).map (·.2)

/-- `session.delete`. -/
def del (m : Kv P) (k : Key) : Kv P := m.filter (fun p => decide (p.1 ≠ k))

/-- `session.put`. -/
def put (m : Kv P) (k : Key) (v : Val P) : Kv P := (k, v) :: del m k

/-- `validate_key_value` and `TryFrom<VersionValue> for TableHead` (codec.rs:44-51,
domain.rs:142-151). -/
def asHead : Val P → Except Err Head
  | .head h => .ok h
  | _ => .error .mismatch

/-- `validate_key_value` and `TryFrom<VersionValue> for VersionState` (domain.rs:153-162). -/
def asVersion : Val P → Except Err (Version P)
  | .version v => .ok v
  | _ => .error .mismatch

/-- `validate_key_value` and `TryFrom<VersionValue> for WalSegmentRef` (domain.rs:164-173). -/
def asWal : Val P → Except Err WalRef
  | .walFloor w => .ok w
  | _ => .error .mismatch

/-- The state the edits start from (driver.rs:223-244). -/
def baseVersion (m : Kv P) (table : Nat) (h : Head) : Except Err (Version P) :=
  match h.last with
  | none => .ok (Version.empty table)
  | some t =>
    match kget m (.version table t) with
    | none => .error .dangling
    | some val => asVersion val

/-- Publishing an edited state (driver.rs:248-282). -/
def publish (m : Kv P) (table : Nat) (h : Head) (v : Version P) : Kv P × Nat :=
  let t := v.ts + 1
  let m := put m (.version table t) (.version { v with ts := t })
  let m := put m (.head table) (.head { h with last := some t, floor := v.floor })
  let m := match v.floor with
    | some f => put m (.walFloor table) (.walFloor f)
    | none => del m (.walFloor table)
  (m, t)

/-- `apply_version_edits_inner` (driver.rs:176-283), with the map it leaves behind. `expected` is
`none` for `apply_version_edits` and the expected head for `apply_version_edits_cas`
(driver.rs:146-164). -/
def apply (m : Kv P) (table : Nat) (edits : List (Edit P)) (expected : Option (Option Nat)) :
    Kv P × Except Err Nat :=
  if edits = [] then (m, .error .noEdits)
  else
    match kget m (.head table) with
    | none => (m, .error .noHead)
    | some val =>
      match asHead val with
      | .error e => (m, .error e)
      | .ok h =>
        if expected.any (fun e => decide (h.last ≠ e)) then (m, .error .casConflict)
        else
          match baseVersion m table h with
          | .error e => (m, .error e)
          | .ok v =>
            match applyEdits v edits with
            | .error e => (m, .error e)
            | .ok v' => ((publish m table h v').1, .ok (publish m table h v').2)

/-- `init_table_head` (driver.rs:389-403). -/
def initHead (m : Kv P) (table : Nat) (h : Head) : Kv P :=
  match kget m (.head table) with
  | some _ => m
  | none => put m (.head table) (.head h)

/-- The head `register_table` installs (bootstrap.rs:198-207). -/
def newHead (table schemaVersion : Nat) : Head := ⟨table, schemaVersion, none, none⟩

/-- A value read as a version, if there is one. -/
def readVersion (m : Kv P) (table ts : Nat) : Except Err (Option (Version P)) :=
  match kget m (.version table ts) with
  | none => .ok none
  | some val =>
    match asVersion val with
    | .error e => .error e
    | .ok v => .ok (some v)

/-- The head, which must exist (driver.rs:295-306, 350-363). -/
def readHead (m : Kv P) (table : Nat) : Except Err Head :=
  match kget m (.head table) with
  | none => .error .noHead
  | some val => asHead val

/-- `snapshot_latest` (driver.rs:290-329). -/
def snapshotLatest (m : Kv P) (table : Nat) : Except Err (Head × Option (Version P)) :=
  match readHead m table with
  | .error e => .error e
  | .ok h =>
    match h.last with
    | none => .ok (h, none)
    | some t =>
      match readVersion m table t with
      | .error e => .error e
      | .ok v => .ok (h, v)

/-- `snapshot_at_version` (driver.rs:341-382). -/
def snapshotAt (m : Kv P) (table ts : Nat) : Except Err (Head × Option (Version P)) :=
  match readHead m table with
  | .error e => .error e
  | .ok h =>
    match readVersion m table ts with
    | .error e => .error e
    | .ok v => .ok (h, v)

/-- The entries of `scan_range` over the versions of a table (driver.rs:423-434). -/
def versionEntries (m : Kv P) (table : Nat) : List (Val P) :=
  m.filterMap (fun p =>
    match p.1 with
    | .version t _ => if t = table then some p.2 else none
    | _ => none)

/-- The loop that collects the versions (driver.rs:442-447). -/
def collect : List (Val P) → Except Err (List (Version P))
  | [] => .ok []
  | val :: vs =>
    match asVersion val with
    | .error e => .error e
    | .ok v =>
      match collect vs with
      | .error e => .error e
      | .ok l => .ok (v :: l)

/-- `list_versions` (driver.rs:414-457): newest first; a limit of zero means all. -/
def listVersions (m : Kv P) (table limit : Nat) : Except Err (List (Version P)) :=
  match collect (versionEntries m table) with
  | .error e => .error e
  | .ok vs =>
    let vs := vs.insertionSort (fun a b => b.ts ≤ a.ts)
    .ok (if 0 < limit ∧ limit < vs.length then vs.take limit else vs)

/-- `wal_floor` (driver.rs:465-477). -/
def walFloor (m : Kv P) (table : Nat) : Except Err (Option WalRef) :=
  match kget m (.walFloor table) with
  | none => .ok none
  | some val =>
    match asWal val with
    | .error e => .error e
    | .ok w => .ok (some w)

/-- The calls that write to the version manifest. -/
inductive Op (P : Type) where
  | init (table schemaVersion : Nat)
  | apply (table : Nat) (edits : List (Edit P)) (expected : Option (Option Nat))

/-- One call. -/
def step (m : Kv P) : Op P → Kv P
  | .init t s => initHead m t (newHead t s)
  | .apply t es x => (apply m t es x).1

/-- A history of calls from an empty manifest. -/
def run (ops : List (Op P)) : Kv P := ops.foldl step []

end Tonbo.Model.Manifest
