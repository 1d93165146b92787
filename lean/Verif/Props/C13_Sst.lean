import Verif.Lemmas.SstScan

/-!
# C13: scanning one table file
-/

set_option linter.unusedSectionVars false

namespace Tonbo.Props.C13
open Tonbo.Model Tonbo.Model.Mem Tonbo.Spec Tonbo.Lemmas.Sst
open Tonbo.Model.Sst (File)

variable {K R : Type} [LinearOrder K]

/-- **C13.** Scanning a sorted table file at `rts` reports, per key, exactly its newest version not
newer than `rts`, as a row or as a tombstone, in strictly ascending key order. -/
theorem sst_scan (f : File K R) (hs : FileSorted f) (rts : Nat) :
    ∃ out, Sst.scan f (fun _ => true) rts = some out ∧
      IsVersionScan (FileVersions f) rts (fun _ => True) (out.map toVer) := by
  have := scan_spec f hs (fun _ => true) rts
  have hf : filtered f (fun _ => true) = f := by
    cases f
    simp only [filtered, File.mk.injEq, and_true]
    exact List.filter_eq_self.2 (fun _ _ => rfl)
  rwa [hf] at this

/-! Key 1 has three versions, key 2 is deleted at 7 (with a row of the same timestamp) and has an older row, key 3
exists only as a deletion. -/
def exFile : File Nat Nat :=
  { data := [(⟨1, 9⟩, 11), (⟨1, 5⟩, 10), (⟨1, 2⟩, 9), (⟨2, 7⟩, 21), (⟨2, 3⟩, 20)],
    dels := [⟨1, 4⟩, ⟨2, 7⟩, ⟨3, 1⟩] }

example : FileSorted exFile ∧
    Sst.scan exFile (fun _ => true) 9 = some [.row ⟨1, 9⟩ 11, .tomb ⟨2, 7⟩, .tomb ⟨3, 1⟩] ∧
    Sst.scan exFile (fun _ => true) 6 = some [.row ⟨1, 5⟩ 10, .row ⟨2, 3⟩ 20, .tomb ⟨3, 1⟩] ∧
    Sst.scan exFile (fun _ => true) 4 = some [.tomb ⟨1, 4⟩, .row ⟨2, 3⟩ 20, .tomb ⟨3, 1⟩] := by
  unfold FileSorted
  decide

end Tonbo.Props.C13
