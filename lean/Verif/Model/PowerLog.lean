import Verif.Model.Durable

/-!
# A power loss that cuts the log (src/wal/writer.rs:730-813)

Only `SyncPolicy::Always` syncs the log before every acknowledgement; `IntervalBytes` and `IntervalTime` sync now and
then, and whenever a segment is finished (writer.rs:794-801); `Disabled` never does. What the operating system had not
written to the device is gone when the power fails. Here any set of frames may be left. The scan of a segment stops at
the first frame it cannot read, so what it finds is the beginning of each segment, but nothing depends on that: a
segment may lose its end while later ones are there, and recovery does not look for gaps in the numbers of frames
(replay.rs:60-149). A frame of which only a part is there is not read either. The tables and the manifest are on the
device (`Model/Power.lean` is about tables that are not). A segment file that lost all of its frames may be there or not.

Not modelled: a segment that ends inside of a frame while later ones are there. The scan ends there, at this recovery
and at all later ones (`C28.torn_segment_hides_later_segments`).
-/

namespace Tonbo.Model.PowerLog
open Tonbo.Model.Durable
open Tonbo.Model.Wal (WState)

variable {A K R : Type} [LinearOrder K]

/-- What is left of the segments when the frames are left whose numbers `keep` has. Of the segments without frames those are
there of which `there` says so: the directory is not synced when a file is created (storage.rs:79-90, writer.rs:794-813). -/
def cut (keep there : Nat → Bool) (segs : List (LSeg A)) : List (LSeg A) :=
  (segs.map (fun g => { g with frames := g.frames.filter (fun p => keep p.1) })).filter
    (fun g => there g.seq || !g.frames.isEmpty)

/-- The power fails, only the frames of `keep` are left, and the database is opened again
(db/mod.rs:704-763, wal/mod.rs:946-999). -/
def powerLoss (c : Ctx A K R) (s : Sys A K R) (keep there : Nat → Bool) (cap : Nat) (pol : Nat → Bool)
    (st : Option WState) : Sys A K R :=
  crash c { s with segs := cut keep there s.segs } cap pol st

/-- The same, when the files of the segments from number `j` on are not in the directory: `sync_data` of a file says
nothing about the directory it is in (writer.rs:886-893, 1245-1275). -/
def directoryLoss (c : Ctx A K R) (s : Sys A K R) (j cap : Nat) (pol : Nat → Bool) (st : Option WState) : Sys A K R :=
  crash c { s with segs := s.segs.filter (fun g => decide (g.seq < j)) } cap pol st

end Tonbo.Model.PowerLog
