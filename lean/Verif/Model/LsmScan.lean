import Verif.Model.Lsm
import Verif.Model.MergeStream

/-!
# A full scan of a database at rest (src/db/scan.rs:185-373, 612-809)

All sources are read without predicate: the mutable table, the frozen runs and the files of the latest
version. Planning and reading are one step here; see `Model/ScanPlan.lean` for the plan with a predicate
and for what may happen in between.
-/

namespace Tonbo.Model.Lsm
open Tonbo.Model Tonbo.Model.Mem Tonbo.Model.Merge
open Tonbo.Model.Sst (File)

variable {K R : Type} [LinearOrder K]

/-- The stream over the mutable table (db/scan.rs:671-688). An empty table gives an empty stream,
where the code opens none. -/
def memStream (m : Inner K R) (rts : Nat) : Option (List (Prio × List (Option (Mem.Entry K R)))) :=
  (Mem.scan m none rts).map (fun o => [(Prio.mutable, o.map some)])

/-- The streams over the frozen runs (db/scan.rs:690-713). -/
def immStreams (ms : List (Imm K R)) (rts : Nat) : Option (List (Prio × List (Option (Mem.Entry K R)))) :=
  ms.mapM (fun m => (m.scan none rts).map (fun o => (Prio.immutable, o.map some)))

/-- The streams over the files (db/scan.rs:715-806). -/
def sstStreams (fs : List (File K R)) (rts : Nat) : Option (List (Prio × List (Option (Mem.Entry K R)))) :=
  fs.mapM (fun f => (Sst.scan f (fun _ => true) rts).map (fun o => (Prio.sstable, o.map some)))

/-- `build_scan_streams` without transaction and predicate (db/scan.rs:660-809). -/
def allStreams (table : Nat) (s : Db K R) (rts : Nat) : Option (List (Prio × List (Option (Mem.Entry K R)))) :=
  match latestFiles table s with
  | none => none
  | some fs =>
    match memStream s.runs.mem rts, immStreams s.runs.runs rts, sstStreams fs rts with
    | some a, some b, some c => some (a ++ b ++ c)
    | _, _, _ => none

/-- The entries the merge of all streams delivers (db/scan.rs:612-658, query/stream/merge.rs). -/
def scanAll (table : Nat) (s : Db K R) (rts : Nat) : Option (List (Mem.Entry K R)) :=
  match allStreams table s rts with
  | none => none
  | some ss => (mergeAll ss none).map (fun tr => tr.filterMap id)

end Tonbo.Model.Lsm
