import Verif.Model.Frame

/-!
# What a log of frames is, independently of how it is decoded
-/

namespace Tonbo.Spec
open Tonbo.Model.Wal

/-- The bytes of a log: its frames one after the other. -/
def logBytes : List RawFrame → Bytes
  | [] => []
  | (t, seq, p) :: fs => Frame.bytes ⟨t, p⟩ seq ++ logBytes fs

/-- Every frame has a non-zero sequence number and a payload below 4 GiB. -/
def WellFormed (fs : List RawFrame) : Prop :=
  ∀ f ∈ fs, f.2.1 ≠ 0 ∧ f.2.2.length < 4294967296

/-- The frames that lie completely within the first `n` bytes of a log. A frame occupies 24 bytes and
its payload. -/
def framesWithin : Nat → List RawFrame → List RawFrame
  | _, [] => []
  | n, (t, seq, p) :: fs =>
    if 24 + p.length ≤ n then (t, seq, p) :: framesWithin (n - (24 + p.length)) fs else []

/-- Bit `i` of a byte string, least significant bit of the first byte first. -/
def bitAt (p : Bytes) (i : Nat) : Bool := (p.getD (i / 8) 0).getLsbD (i % 8)

/-- `q` is `p` with some bits changed, all of them among 32 consecutive ones. -/
def Burst (p q : Bytes) : Prop :=
  p.length = q.length ∧ p ≠ q ∧ ∃ a, ∀ i, i < a ∨ a + 32 ≤ i → bitAt p i = bitAt q i

/-- `q` is `p` with exactly bit `i` changed. -/
def FlipOne (p q : Bytes) (i : Nat) : Prop :=
  p.length = q.length ∧ bitAt p i ≠ bitAt q i ∧ ∀ j, j ≠ i → bitAt p j = bitAt q j

end Tonbo.Spec
