import Verif.Model.Manifest
import Verif.Model.SMap

/-!
# Table registration  (src/manifest/driver.rs:532-692, src/manifest/bootstrap.rs:192-219, domain.rs)

As in `Model/Manifest.lean`, a write session of `fusio-manifest` is one atomic step on a key/value map.
The identifier a new table gets (`TableId::new(file_ids)`, a ULID) is an argument of the call.
-/

namespace Tonbo.Model.Catalog
open Tonbo.Model.Manifest (initHead newHead)

/-- `TableDefinition` (domain.rs:223-234). `retention` is `TableRetionConfig`
(`max_versions`, `max_ttl` in nanoseconds; domain.rs:239-244). -/
structure Def where
  name : String
  fingerprint : String
  pk : List String
  retention : Option (Nat × Nat)
  version : Nat
deriving Repr, DecidableEq

/-- `TableMeta` (domain.rs:206-219). -/
structure Meta where
  id : Nat
  name : String
  fingerprint : String
  pk : List String
  retention : Option (Nat × Nat)
  version : Nat
deriving Repr, DecidableEq

/-- `CatalogState` (domain.rs:188-193): `tables` is a `BTreeMap`, so a list ordered by identifier; an
entry is the name (domain.rs:198-201). -/
structure State where
  tables : List (Nat × String)
  ordinal : Nat
deriving Repr, DecidableEq

/-- `CatalogKey` (domain.rs:45-53). -/
inductive Key where
  | root
  | table (id : Nat)
deriving Repr, DecidableEq

/-- `CatalogValue` (domain.rs:59-64). -/
inductive Val where
  | catalog (s : State)
  | table (m : Meta)
deriving Repr, DecidableEq

/-- `ManifestError` (driver.rs:35-48). `conflict` is `CatalogConflict`. -/
inductive Err where
  | conflict
  | missingMeta
  | mismatch
deriving Repr, DecidableEq

/-- The key/value map of the catalog manifest. -/
abbrev Kv := List (Key × Val)

/-- `session.get`. -/
def cget (m : Kv) (k : Key) : Option Val := (m.find? (fun p => decide (p.1 = k))).map (·.2)

/-- `session.put`. -/
def cput (m : Kv) (k : Key) (v : Val) : Kv := (k, v) :: m.filter (fun p => decide (p.1 ≠ k))

/-- `TryFrom<CatalogValue> for CatalogState` (domain.rs:120-129). -/
def asState : Val → Except Err State
  | .catalog s => .ok s
  | .table _ => .error .mismatch

/-- `TryFrom<CatalogValue> for TableMeta` (domain.rs:131-140). -/
def asMeta : Val → Except Err Meta
  | .table m => .ok m
  | .catalog _ => .error .mismatch

/-- `init_catalog_root` (driver.rs:544-554). -/
def initRoot (m : Kv) : Kv :=
  match cget m .root with
  | some _ => m
  | none => cput m .root (.catalog ⟨[], 0⟩)

/-- `find_table_by_name` (driver.rs:659-664). -/
def findByName (s : State) (name : String) : Option Nat :=
  (s.tables.find? (fun p => decide (p.2 = name))).map (·.1)

/-- `ensure_table_compat` (driver.rs:666-692). The texts of the errors are not modelled. -/
def compat (t : Meta) (d : Def) : Except Err Unit :=
  if t.fingerprint ≠ d.fingerprint then .error .conflict
  else if t.pk ≠ d.pk then .error .conflict
  else if t.version ≠ d.version then .error .conflict
  else if t.retention ≠ d.retention then .error .conflict
  else .ok ()

/-- The metadata of a new table (driver.rs:594-601). -/
def newMeta (d : Def) (id : Nat) : Meta := ⟨id, d.name, d.fingerprint, d.pk, d.retention, d.version⟩

/-- `saturating_add(1)` on a `u64` (driver.rs:609). -/
def bump (n : Nat) : Nat := min (n + 1) (2 ^ 64 - 1)

/-- The catalog state a registration starts from (driver.rs:568-574). -/
def readRoot (m : Kv) : Except Err State :=
  match cget m .root with
  | some v => asState v
  | none => .ok ⟨[], 0⟩

/-- The metadata behind a catalog entry (driver.rs:577-585). -/
def readMeta (m : Kv) (id : Nat) : Except Err Meta :=
  match cget m (.table id) with
  | some v => asMeta v
  | none => .error .missingMeta

/-- Creating a table (driver.rs:593-616). -/
def create (m : Kv) (s : State) (d : Def) (id : Nat) : Kv :=
  cput (cput m .root (.catalog ⟨SMap.insert id d.name s.tables, bump s.ordinal⟩))
    (.table id) (.table (newMeta d id))

/-- `register_table` of the catalog (driver.rs:561-617), with the map it leaves behind. -/
def registerCatalog (m : Kv) (d : Def) (id : Nat) : Kv × Except Err Meta :=
  match readRoot m with
  | .error e => (m, .error e)
  | .ok s =>
    match findByName s d.name with
    | some t =>
      match readMeta m t with
      | .error e => (m, .error e)
      | .ok t =>
        match compat t d with
        | .error e => (m, .error e)
        | .ok () => (m, .ok t)
    | none => (create m s d id, .ok (newMeta d id))

/-- `table_meta` (driver.rs:624-640). -/
def tableMeta (m : Kv) (id : Nat) : Except Err Meta := readMeta m id

/-- Both manifests (bootstrap.rs:75-84; the garbage collection plans are not touched here). -/
structure Both (P : Type) where
  cat : Kv
  ver : Manifest.Kv P

variable {P : Type}

/-- `TonboManifest::register_table` (bootstrap.rs:197-219): the catalog first, then the head. -/
def register (b : Both P) (d : Def) (id : Nat) : Both P × Except Err Meta :=
  match registerCatalog b.cat d id with
  | (c, .error e) => (⟨c, b.ver⟩, .error e)
  | (c, .ok t) => (⟨c, initHead b.ver t.id (newHead t.id t.version)⟩, .ok t)

/-- Calls on the manifests by any number of processes. `half` is a registration that stopped (a crash,
or the second session failed) between its two sessions; `edit` is a write to the version manifest. -/
inductive Op (P : Type) where
  | init
  | register (d : Def) (id : Nat)
  | half (d : Def) (id : Nat)
  | edit (table : Nat) (edits : List (Manifest.Edit P)) (expected : Option (Option Nat))

/-- One call. -/
def step (b : Both P) : Op P → Both P
  | .init => { b with cat := initRoot b.cat }
  | .register d id => (register b d id).1
  | .half d id => { b with cat := (registerCatalog b.cat d id).1 }
  | .edit t es x => { b with ver := (Manifest.apply b.ver t es x).1 }

/-- A history of calls. -/
def run (ops : List (Op P)) : Both P := ops.foldl step ⟨[], []⟩

end Tonbo.Model.Catalog
