import Verif.Model.Durable

/-!
# Power losses
(src/ondisk/sstable.rs:1016-1110, src/db/mod.rs:1117-1204, src/compaction/executor.rs, src/wal/manifest_ext.rs:96-115)

A table file is written, closed and opened again for its size; it is never synced (sstable.rs:1093-1110), and neither
is its directory. The manifest lists it right after, and the log is pruned. What the operating system has not written
to the device by then is gone when the power fails.

The device is a second set of table files: a file gets there when the operating system writes it back. In the worst
case, which is the one modelled, a file that was not written back is not there at all. The log is synced with every
acknowledgement here (`SyncPolicy::Always`; for the other policies see C31, C64 and C88), and what the manifest has published is
on the device (the manifest is written by another crate). Deleting a file does not delete it on the device.
-/

namespace Tonbo.Model.Power
open Tonbo.Model Tonbo.Model.Lsm Tonbo.Model.Planner
open Tonbo.Model.Wal (WState)
open Tonbo.Model.Sst (File)

/-- The running system, and the table files on the device. -/
structure St (A K R : Type) where
  sys : Durable.Sys A K R
  device : Path → Option (File K R)

variable {A K R : Type} [LinearOrder K]

/-- What can happen. -/
inductive Op (K R : Type) where
  /-- the database does something, or its process ends and starts again (`Model/Durable.lean`) -/
  | live (o : Durable.Op K R)
  /-- the operating system writes a file back -/
  | writeback (p : Path)
  /-- the power fails, and the database is opened again -/
  | power (cap : Nat) (pol : Nat → Bool) (st : Option WState)

/-- The files of a database that was opened after a power loss are those of the device. Opening reads no table file
(db/builder.rs:1595-1647, db/mod.rs:704-763). -/
def withFiles (s : Durable.Sys A K R) (files : Path → Option (File K R)) : Durable.Sys A K R :=
  { s with db := { s.db with files := files } }

/-- One step. -/
def step (c : Durable.Ctx A K R) (s : St A K R) : Op K R → St A K R
  | .live o => { s with sys := Durable.step c s.sys o }
  | .writeback p => { s with device := setFile s.device p (s.sys.db.files p) }
  | .power cap pol st => { s with sys := withFiles (Durable.step c s.sys (.crash cap pol st)) s.device }

/-- A history. -/
def run (c : Durable.Ctx A K R) (s : St A K R) (ops : List (Op K R)) : St A K R := ops.foldl (step c) s

/-- A new table on an empty device. -/
def St.new (cap table schemaVersion : Nat) : St A K R := ⟨Durable.Sys.new cap table schemaVersion, fun _ => none⟩

end Tonbo.Model.Power
