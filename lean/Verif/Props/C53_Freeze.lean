import Verif.Model.Seal
import Verif.Props.C19_C23_Snapshot

/-!
# C53: reads that overlap a freeze

A scan first notes which sources it will read (`plan_scan`) and later opens them (`build_scan_streams`).
-/

set_option synthInstance.maxSize 1000
set_option synthInstance.maxHeartbeats 200000

namespace Tonbo.Props.C53
open Tonbo.Model Tonbo.Model.Txn Tonbo.Model.Lsm Tonbo.Model.Manifest Tonbo.Model.Planner
open Tonbo.Spec Tonbo.Lemmas.Txn
open Tonbo.Props.C19

variable {K R : Type} [LinearOrder K]

/-- The two steps together are the freeze of the other files. -/
theorem seal_in_two_steps (ext : R → Option K) (t : Mem.Runs K R) : Seal.sealNow ext t = t.call ext .freeze := by
  unfold Seal.sealNow Seal.take Mem.Runs.call
  cases h : Mem.memCall ext t.mem .freeze with
  | mk r m => cases r <;> rfl

/-- **C53, partial.** A scan that is planned after the history `b` and opened after a further history `c` returns
exactly the rows visible in the writes that had returned when its snapshot was opened, if in between no run was
frozen and the first write into an empty mutable table did not come. Missing: a freeze in between, for
which the claim is false (theorems below), and the conditions of `Setting`. -/
theorem a_scan_in_two_steps_partial {e : Env K R} {cap sv : Nat} {a m b c : List (Txn.Op K R)} {p : Nat}
    (h : Setting e cap sv a m (b ++ c) p)
    (hr : (later e cap sv a m b p).db.runs.runs.length = (later e cap sv a m (b ++ c) p).db.runs.runs.length)
    (hm : (later e cap sv a m b p).db.runs.mem.index.isEmpty = (later e cap sv a m (b ++ c) p).db.runs.mem.index.isEmpty) :
    ∃ t, (later e cap sv a m [] p).procs p = .opened t ∧
      ∃ out, runScan (later e cap sv a m (b ++ c) p).db (planScan (later e cap sv a m b p).db t.snap) none = some out ∧
        IsScan (Finished e.ext (atOpen e cap sv a m p)) t.snap.rts (rowsOf out) := by
  obtain ⟨t, h1, out, h2, h3⟩ := a_snapshot_shows_what_was_committed_partial h
  refine ⟨t, h1, out, ?_, h3⟩
  have : planScan (later e cap sv a m b p).db t.snap = planScan (later e cap sv a m (b ++ c) p).db t.snap := by
    unfold planScan
    rw [hr, hm]
  rw [this]
  exact h2

section Example
open C21 C38

/-- A commit between planning and opening. -/
example : (later exE 4 0 exA exM [] 1).db.runs.runs.length = (later exE 4 0 exA exM (begin' 2) 1).db.runs.runs.length ∧
    (later exE 4 0 exA [] [] 1).db.runs.mem.index.isEmpty = false ∧
    (later exE 4 0 exA [] (ingest' 0 [13]) 1).db.runs.mem.index.isEmpty = false ∧
    (later exE 4 0 exA [] (ingest' 0 [13]) 1).db.runs.runs.length = (later exE 4 0 exA [] [] 1).db.runs.runs.length := by
  decide +kernel

/-- Planned in one state, opened in another, for the snapshot of a thread. -/
def exRead (s plan «at» : Sys Nat Nat) (p : Nat) : Option (List (Nat × Nat)) :=
  match s.procs p with
  | .opened t => (runScan «at».db (planScan plan.db t.snap) none).map rowsOf
  | _ => none

/-- **C53 is false** when the mutable table is frozen between planning and opening: the plan has the mutable
table, which is now empty, and no index for the new run (db/scan.rs:212-259, 690-713). The scan returns `Ok`
and no rows. -/
theorem a_freeze_between_plan_and_open_hides_rows : ∃ a b : List (Txn.Op Nat Nat), (later exE 4 0 a [] b 1).ok = true ∧
    Quiet (atOpen exE 4 0 a [] 1) ∧ (∀ o ∈ b, KeepsMemory o) ∧
    exRead (later exE 4 0 a [] [] 1) (later exE 4 0 a [] [] 1) (later exE 4 0 a [] [] 1) 1 = some [(1, 11), (2, 21)] ∧
    exRead (later exE 4 0 a [] [] 1) (later exE 4 0 a [] [] 1) (later exE 4 0 a [] b 1) 1 = some [] ∧
    exRead (later exE 4 0 a [] [] 1) (later exE 4 0 a [] b 1) (later exE 4 0 a [] b 1) 1 = some [(1, 11), (2, 21)] :=
  ⟨ingest' 0 [11, 21], [.lsm (.write .freeze)], by decide +kernel,
    quiet_of (n := 3) (finite_run _ _ (fun _ _ => rfl) (by decide)) (by decide +kernel),
    fun o ho => exKeeps_iff ((by decide : ∀ o ∈ [(.lsm (.write .freeze) : Txn.Op Nat Nat)], exKeeps o = true) o ho),
    by decide +kernel, by decide +kernel, by decide +kernel⟩

/-- The state of the database in the middle of a freeze. -/
def exMid (ops : List (Txn.Op Nat Nat)) : Sys Nat Nat :=
  { exR ops with db := { (exR ops).db with runs := (Seal.take exExt (exR ops).db.runs).2 } }

/-- **C53 is false** between the two steps of a freeze: the rows are in no place a reader looks at. A snapshot
opened before or in the middle reads nothing, and a transaction looking for conflicts finds none. -/
theorem the_middle_of_a_freeze_hides_rows : ∃ ops : List (Txn.Op Nat Nat), (exR ops).ok = true ∧ Quiet (exR ops) ∧
    (scanSnap (exR ops).db ⟨1, none⟩).map rowsOf = some [(1, 12), (2, 21)] ∧
    (scanSnap (exMid ops).db ⟨1, none⟩).map rowsOf = some [] ∧
    conflict (exR ops) 1 0 = true ∧ conflict (exMid ops) 1 0 = false :=
  ⟨ingest' 0 [11, 21] ++ ingest' 0 [12], by decide +kernel,
    quiet_of (n := 3) (finite_run _ _ (fun _ _ => rfl) (by decide)) (by decide +kernel),
    by decide +kernel, by decide +kernel, by decide +kernel, by decide +kernel⟩

end Example
end Tonbo.Props.C53
