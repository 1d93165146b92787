import Verif.Model.Policy
import Verif.Model.Guards
import Verif.Model.Planner
import Verif.Model.WalTimer

/-!
# Settings: from the calls on the builder to what the database works with
(src/db/builder.rs:36-335, 413-425, 776-880, 940-1200, 1205-1345, 1449-1473, 1529-1593, 1650-1775,
src/wal/mod.rs:74-141, src/wal/replay.rs:53-70)

File systems and state stores are known by a number. Durations are counted in nanoseconds.
-/

namespace Tonbo.Model.Settings

/-- `WalRecoveryMode` (wal/mod.rs:78-96). -/
inductive Mode where
  | pointInTime | tolerateTail | absolute | skip
deriving Repr, DecidableEq

/-- `WalConfig` of the builder (builder.rs:36-48): what was given. -/
structure Over where
  segBytes : Option Nat := none
  segAge : Option (Option Nat) := none
  flush : Option Nat := none
  sync : Option WalT.TSync := none
  recovery : Option Mode := none
  retention : Option (Option Nat) := none
  queue : Option Nat := none
  dir : Option String := none
  backend : Option Nat := none
  store : Option (Option Nat) := none
deriving Repr, DecidableEq

/-- `WalConfig`, elsewhere `RuntimeWalConfig` (wal/mod.rs:98-122). -/
structure Wal where
  dir : String
  segBytes : Nat
  segAge : Option Nat
  flush : Nat
  sync : WalT.TSync
  recovery : Mode
  retention : Option Nat
  queue : Nat
  backend : Nat
  store : Option Nat
  dryRun : Bool
deriving Repr, DecidableEq

/-- `WalConfig::default` (wal/mod.rs:124-141). -/
def Wal.default : Wal :=
  ⟨"wal", 64 * 1024 * 1024, none, 10000000, .time 50000000, .pointInTime, none, 65536, 0, none, false⟩

/-- `WalConfig::apply` (builder.rs:129-160). -/
def Over.apply (o : Over) (w : Wal) : Wal :=
  { dir := o.dir.getD w.dir
    segBytes := o.segBytes.getD w.segBytes
    segAge := o.segAge.getD w.segAge
    flush := o.flush.getD w.flush
    sync := o.sync.getD w.sync
    recovery := o.recovery.getD w.recovery
    retention := o.retention.getD w.retention
    queue := o.queue.getD w.queue
    backend := o.backend.getD w.backend
    store := o.store.getD w.store
    dryRun := w.dryRun }

/-- `WalConfig::merge` (builder.rs:162-193). -/
def Over.merge (a b : Over) : Over :=
  { segBytes := if b.segBytes.isSome then b.segBytes else a.segBytes
    segAge := if b.segAge.isSome then b.segAge else a.segAge
    flush := if b.flush.isSome then b.flush else a.flush
    sync := if b.sync.isSome then b.sync else a.sync
    recovery := if b.recovery.isSome then b.recovery else a.recovery
    retention := if b.retention.isSome then b.retention else a.retention
    queue := if b.queue.isSome then b.queue else a.queue
    dir := if b.dir.isSome then b.dir else a.dir
    backend := if b.backend.isSome then b.backend else a.backend
    store := if b.store.isSome then b.store else a.store }

/-- `CascadeConfig` (builder.rs:1449-1473). -/
structure Cascade where
  followUps : Nat
  cooldown : Nat
deriving Repr, DecidableEq

/-- `CascadeConfig::default` (builder.rs:1456-1463). -/
def Cascade.default : Cascade := ⟨1, 500000000⟩

/-- `CasBackoffConfig::default` (builder.rs:1491-1498). -/
def backoffDefault : Guards.Backoff := ⟨50000000, 1000000000⟩

/-- `CompactionOptions` (builder.rs:1195-1206) without the metrics. -/
structure Comp where
  strategy : Planner.PCfg
  jobs : Nat
  queue : Nat
  rows : Option Nat
  bytes : Option Nat
  tick : Option Nat
  back : Option Policy.Config
  cascade : Cascade
  backoff : Guards.Backoff
deriving Repr, DecidableEq

/-- `CompactionOptions::default` (builder.rs:1208-1222). -/
def Comp.default : Comp :=
  ⟨Planner.PCfg.default, 1, 1, none, none, none, some Policy.Config.default, Cascade.default, backoffDefault⟩

/-- The calls on `CompactionOptions` (builder.rs:1233-1306). -/
inductive CompCall where
  | strategy (s : Planner.PCfg)
  | jobs (n : Nat)
  | queue (n : Nat)
  | rows (n : Nat)
  | bytes (n : Nat)
  | tick (d : Nat)
  | back (c : Policy.Config)
  | noBack
  | cascade (c : Cascade)
  | backoff (b : Guards.Backoff)
deriving Repr, DecidableEq

/-- One call (builder.rs:1233-1306). -/
def Comp.call (c : Comp) : CompCall → Comp
  | .strategy s => { c with strategy := s }
  | .jobs n => { c with jobs := max n 1 }
  | .queue n => { c with queue := max n 1 }
  | .rows n => { c with rows := some (max n 1) }
  | .bytes n => { c with bytes := some (max n 1) }
  | .tick d => { c with tick := if d = 0 then none else some d }
  | .back b => { c with back := some b }
  | .noBack => { c with back := none }
  | .cascade x => { c with cascade := x }
  | .backoff b => { c with backoff := b }

/-- A chain of calls, from `new`. -/
def Comp.make (cs : List CompCall) : Comp := cs.foldl Comp.call Comp.default

/-- `DbBuilder` with its `StorageConfig` (builder.rs:219-226, 443-448). -/
structure Builder where
  root : String
  durable : Bool
  table : Option String
  over : Option Over
  comp : Option Comp
  minor : Option (Nat × Nat)
  fastAck : Bool
deriving Repr, DecidableEq

/-- `DbBuilder::new` and the choice of a storage (builder.rs:233-247, 776-880): `in_memory` is volatile,
all others are durable. -/
def Builder.new (root : String) (durable : Bool) : Builder :=
  ⟨root, durable, none, if durable then some {} else none, none, some (4, 0), false⟩

/-- The calls on the builder (builder.rs:943-975, 1003-1007, 1183-1189, 1548-1593). -/
inductive Call where
  | walConfig (o : Over)
  | walSegmentBytes (n : Nat)
  | walSync (p : WalT.TSync)
  | walFlush (d : Nat)
  | walRetention (r : Option Nat)
  | comp (c : Comp)
  | strategy (s : Planner.PCfg)
  | minor (threshold level : Nat)
  | noMinor
  | table (name : String)
  | ack (fast : Bool)
deriving Repr, DecidableEq

/-- One call. -/
def Builder.call (b : Builder) : Call → Builder
  | .walConfig o =>
    match b.over with
    | some e => { b with over := some (e.merge o) }
    | none => if b.durable then { b with over := some o } else b
  | .walSegmentBytes n => { b with over := b.over.map (fun e => { e with segBytes := some n }) }
  | .walSync p => { b with over := b.over.map (fun e => { e with sync := some p }) }
  | .walFlush d => { b with over := b.over.map (fun e => { e with flush := some d }) }
  | .walRetention r => { b with over := b.over.map (fun e => { e with retention := some r }) }
  | .comp c => { b with comp := some c }
  | .strategy s => { b with comp := some { b.comp.getD Comp.default with strategy := s } }
  | .minor t l => { b with minor := some (t, l) }
  | .noMinor => { b with minor := none }
  | .table n => { b with table := some n }
  | .ack f => { b with fastAck := f }

/-- A chain of calls. -/
def Builder.make (root : String) (durable : Bool) (cs : List Call) : Builder :=
  cs.foldl Builder.call (Builder.new root durable)

/-- The background worker (builder.rs:1154-1176, 1741-1766; `effective_*` 1316-1326). -/
structure Worker where
  planner : Planner.PCfg
  rows : Option Nat
  bytes : Option Nat
  tick : Option Nat
  queue : Nat
  jobs : Nat
  cascade : Cascade
deriving Repr, DecidableEq

/-- What the database works with. -/
structure Settings where
  wal : Option Wal
  table : String
  fastAck : Bool
  minor : Option (Nat × Nat)
  worker : Option Worker
  back : Option Policy.Config
  backoff : Guards.Backoff
deriving Repr, DecidableEq

/-- `apply_wal_defaults` (builder.rs:689-698): the directory, file system and state store of the storage,
here with the number 1. -/
def walDefaults (root : String) : Wal := { Wal.default with dir := root ++ "/wal", backend := 1, store := some 1 }

/-- The worker of some options (builder.rs:1154-1176). -/
def Comp.worker (c : Comp) : Worker :=
  { planner := c.strategy
    rows := c.rows.map (max · 1)
    bytes := c.bytes.map (max · 1)
    tick := c.tick.filter (· ≠ 0)
    queue := max (max c.queue (max c.jobs 1)) 1
    jobs := max c.jobs 1
    cascade := c.cascade }

/-- `build_with_layout` and the recovery (builder.rs:1049-1181, 1650-1775), as far as settings go; both
agree. The threshold of the flushes is at least one (compaction/minor.rs:38-48). -/
def Builder.settings (b : Builder) : Settings :=
  { wal := if b.durable then
        some (match b.over with
          | some o => o.apply (walDefaults b.root)
          | none => walDefaults b.root)
      else none
    table := b.table.getD "tonbo-default"
    fastAck := b.fastAck
    minor := b.minor.map (fun p => (max p.1 1, p.2))
    worker := b.comp.map Comp.worker
    back := b.comp.bind Comp.back
    backoff := (b.comp.map Comp.backoff).getD backoffDefault }

/-- How opening ends. -/
inductive Opened where
  | ok (s : Settings)
  /-- the root is empty -/
  | root
  /-- the recovery mode is not implemented -/
  | mode
deriving Repr, DecidableEq

/-- `open_with_executor` (builder.rs:1038-1047, 1650-1690, 316-326, replay.rs:53-70), with `segments` telling
whether there are segments of the log already. Errors of the storage, the manifest and the log are not
part of this. -/
def Builder.open' (b : Builder) (segments : Bool) : Opened :=
  if b.root = "" then .root
  else
    match b.settings.wal with
    | none => .ok b.settings
    | some w =>
      if segments && (w.recovery == .absolute || w.recovery == .skip) then .mode else .ok b.settings

/-- `S3Spec` (builder.rs:515-534) without credentials. -/
structure S3 where
  bucket : String
  prefix' : String
  kmsKey : Option String
  endpoint : Option String
  region : Option String
  signPayload : Option Bool
  checksum : Option Bool
  versioned : Option Bool
deriving Repr, DecidableEq

/-- What reaches the client of the object store. -/
structure Client where
  bucket : String
  region : String
  endpoint : Option String
  signPayload : Option Bool
  checksum : Option Bool
deriving Repr, DecidableEq

/-- `build_s3_fs` (builder.rs:702-739): the client and the root. -/
def S3.build (s : S3) : Client × String :=
  (⟨s.bucket, s.region.getD "us-east-1", s.endpoint, s.signPayload, s.checksum⟩, s.prefix')

end Tonbo.Model.Settings
