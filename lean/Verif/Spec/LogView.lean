import Verif.Spec.WalView
import Verif.Model.WalStore

/-!
# What a log of several segments holds, and what a floor cuts off
-/

namespace Tonbo.Spec.Wal
open Tonbo.Model.Wal Tonbo.Spec

/-- The frames of segment `n` that a recovery starting at `floor` has to read: none of an older segment,
those from the floor's frame on in the floor's segment, all of a newer one. -/
def aboveFloor (floor : Option Floor) (n : Nat) (fs : List RawFrame) : List RawFrame :=
  match floor with
  | none => fs
  | some f =>
    if n < f.seq then []
    else if n = f.seq then fs.filter (fun g => decide (f.firstFrame ≤ g.2.1.toNat))
    else fs

/-- A segment as written: its number, path and frames. -/
structure SegLog where
  num : Nat
  path : List Char
  frames : List RawFrame

/-- The file of a segment that is intact. -/
def SegLog.file (s : SegLog) : Seg := ⟨s.num, s.path, logBytes s.frames⟩

/-- The file of a segment of which only the first `n` bytes are there. -/
def SegLog.cut (s : SegLog) (n : Nat) : Seg := ⟨s.num, s.path, (logBytes s.frames).take n⟩

/-- The frames of a log that recovery has to read. -/
def framesAbove (floor : Option Floor) (segs : List SegLog) : List RawFrame :=
  segs.flatMap (fun s => aboveFloor floor s.num s.frames)

end Tonbo.Spec.Wal
