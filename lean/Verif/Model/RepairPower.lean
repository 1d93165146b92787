import Verif.Model.Repair

/-!
# A log that is synced, repaired, and met by power losses
(src/wal/storage.rs:294-304, 400-430, src/wal/writer.rs:730-775, 886-893, 1237-1281)

One segment, as in `Model/Repair.lean`. A sync of the writer brings the whole file to the device. What a repair writes is
flushed and not synced (storage.rs:422-428), and neither is the emptying of the file. A power loss leaves the bytes that
are on the device for sure, and any number of those that follow. If the file was rewritten since the last sync, none are
there for sure.

Simplified: the bytes that are left are a beginning of the file. A device could also bring back what the file held before
it was emptied, or a part with zeros in it (C26).
-/

namespace Tonbo.Model.RepairPower
open Tonbo.Model.Wal Tonbo.Model.Repair

/-- The log; how many bytes the last sync found in the file; whether the file was emptied or rewritten since; the frames
that were acknowledged when it returned. -/
structure P where
  st : St
  synced : Nat
  rewritten : Bool
  safe : List RawFrame
deriving Repr

/-- A new log. -/
def P.new : P := ⟨St.new, 0, false, []⟩

/-- What can happen. -/
inductive POp where
  /-- a step without syncs and power losses -/
  | op (o : Op)
  /-- `sync_data` or `sync_all` returns (writer.rs:886-893, 1237-1281) -/
  | sync
  /-- the power fails; of what is not on the device for sure, up to `n` bytes are -/
  | power (n : Nat)
deriving Repr

/-- The step empties or rewrites the file (storage.rs:407-428). -/
def rewrites (s : St) : Op → Bool
  | .go i => match s.scans[i]? with | some c => c.busy | none => false
  | _ => false

/-- The bytes that are left when the power fails. -/
def left (s : P) (n : Nat) : Bytes := s.st.file.take (if s.rewritten then n else max n s.synced)

/-- One step. After a power loss only the frames that were acknowledged by the last sync count as acknowledged. -/
def pstep (s : P) : POp → P
  | .op o => { s with st := step s.st o, rewritten := s.rewritten || rewrites s.st o }
  | .sync => { s with synced := s.st.file.length, rewritten := false, safe := s.st.acked }
  | .power n =>
    { s with
      st := ⟨left s n, [], false, s.safe, [], []⟩
      synced := (left s n).length
      rewritten := false }

/-- A history. -/
def prun (s : P) (ops : List POp) : P := ops.foldl pstep s

end Tonbo.Model.RepairPower
