import Verif.Model.WalStore

/-!
# Looking at the tail of a log that is in use
(src/wal/storage.rs:46-95, 261-314, 316-398, 400-430, src/wal/manifest_ext.rs:15-67, src/wal/mod.rs:946-953,
src/wal/writer.rs:501-540, 704-728, src/db/mod.rs:1114-1120, src/transaction/mod.rs:1344-1350)

Every flush and every commit of a transaction lists the segments of the log, and so does every opening. For this the active
segment is read as a whole, and if its last frame is incomplete the file is emptied and written anew up to the last
complete one. Nothing keeps these steps apart from the writer task, whose frames reach the same file in pieces
(`write_all` hands them to a file that writes them later), nor from each other.

One segment is modelled; its frames are byte strings (`Model/Frame.lean`). The writer's handle appends
(storage.rs:80-91), the handle of the repair writes from the start of the file. A crash is the end of the process: what
reached the file stays, what was handed over is gone. The repaired file is never synced, so a power loss can take it
even after the repair: `Model/RepairPower.lean`.
-/

namespace Tonbo.Model.Repair
open Tonbo.Model.Wal

/-- A look at the tail under way: it found an incomplete frame behind `safe` and is about to empty the file
(storage.rs:294-304), it has emptied it and is about to write `safe` (storage.rs:413-430), or it is done. -/
inductive Scan where
  | found (safe : Bytes) (last : Option TailMeta)
  | emptied (safe : Bytes) (last : Option TailMeta)
  | done (r : Except WErr (Option TailMeta))
deriving Repr, DecidableEq

/-- Reading the file (storage.rs:269-293): the bytes behind the last complete frame are what makes a tail incomplete
(storage.rs:334-388). -/
def look (file : Bytes) : Scan :=
  match scanTail file with
  | .error e => .done (.error e)
  | .ok last =>
    let safe := match last with | some m => m.endOffset | none => 0
    if safe < file.length then .found (file.take safe) last else .done (.ok last)

/-- It still has to do something to the file. -/
def Scan.busy : Scan → Bool
  | .found _ _ => true
  | .emptied _ _ => true
  | .done _ => false

/-- It succeeded. -/
def Scan.fine : Scan → Bool
  | .done (.ok _) => true
  | _ => false

/-- The file; what the writer handed over and is not in the file yet; whether the database is open; the frames the
writer acknowledged, and those it wrote and did not acknowledge; the looks at the tail since the start of the
process. -/
structure St where
  file : Bytes
  pending : Bytes
  up : Bool
  acked : List RawFrame
  unacked : List RawFrame
  scans : List Scan
deriving Repr

/-- A new log (storage.rs:266-268: there is nothing to look at). -/
def St.new : St := ⟨[], [], true, [], [], []⟩

/-- What can happen. -/
inductive Op where
  /-- the writer hands over a frame (writer.rs:704-713) -/
  | write (f : RawFrame)
  /-- up to `n` bytes of what was handed over reach the file -/
  | move (n : Nat)
  /-- `flush` has returned: everything handed over is in the file, and the commands are answered (writer.rs:715-728) -/
  | ack
  /-- a flush, a commit or the opening reads the file -/
  | scan
  /-- the `i`-th look goes on -/
  | go (i : Nat)
  /-- the opening is over: its look succeeded (mod.rs:953, writer.rs:513-540) -/
  | resume
  /-- the process ends -/
  | crash
deriving Repr

/-- The bytes of a frame (frame.rs:122-128). -/
def frameBytes (f : RawFrame) : Bytes := Frame.bytes ⟨f.1, f.2.2⟩ f.2.1

/-- One step. -/
def step (s : St) : Op → St
  | .write f => if s.up then { s with pending := s.pending ++ frameBytes f, unacked := s.unacked ++ [f] } else s
  | .move n => { s with file := s.file ++ s.pending.take n, pending := s.pending.drop n }
  | .ack => if s.pending = [] then { s with acked := s.acked ++ s.unacked, unacked := [] } else s
  | .scan => { s with scans := s.scans ++ [look s.file] }
  | .go i =>
    match s.scans[i]? with
    | some (.found safe last) => { s with file := [], scans := s.scans.set i (.emptied safe last) }
    | some (.emptied safe last) =>
      { s with file := safe ++ s.file.drop safe.length, scans := s.scans.set i (.done (.ok last)) }
    | _ => s
  | .resume => if s.scans.any Scan.fine && !s.scans.any Scan.busy then { s with up := true } else s
  | .crash => { s with pending := [], up := false, unacked := [], scans := [] }

/-- A history. -/
def run (s : St) (ops : List Op) : St := ops.foldl step s

end Tonbo.Model.Repair
