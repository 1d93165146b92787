import Verif.Model.Durable

/-!
# Opening a table whose log is gone
(src/db/builder.rs:741-745, 1668-1780, 1053-1160, src/wal/mod.rs:946-999, src/wal/writer.rs:496-545)

The log has a directory of its own. If it holds no segment when the database is opened, recovery is skipped and the
database is built as a new one would be: the memory is empty, the clock starts at 0 (mvcc/mod.rs:126-130), and the log
starts with segment 0. The manifest is as it was, with the floor of the log that is gone.
-/

namespace Tonbo.Model.LostLog
open Tonbo.Model Tonbo.Model.Lsm Tonbo.Model.Durable
open Tonbo.Model.Wal (WState resume)

variable {A K R : Type} [LinearOrder K]

/-- The process ends, the segments of the log are removed, and the database is opened again: `wal_segments_exist` is
false (builder.rs:741-745, 1668), so `build_with_layout` (builder.rs:1053-1160) makes the state; the numbers of the log
come from `enable_wal` and `WriterContext::new` with no tail (wal/mod.rs:946-999, writer.rs:496-545). `st` is what the state
file of the log holds, if that is still there. -/
def lose (c : Ctx A K R) (s : Sys A K R) (cap : Nat) (st : Option WState) : Sys A K R :=
  match reopen cap c.table s.db with
  | .error _ => { s with dead := true }
  | .ok db =>
    { s with
      db := db
      clock := 0
      nextId := (resume none st).nextId
      segs := [⟨(resume none st).segment, []⟩]
      nextFrame := (resume none st).nextFrame
      nextSeg := (resume none st).nextSegment
      range := none
      ranges := []
      writers := []
      flushCount := none }

end Tonbo.Model.LostLog
