import Verif.Model.Manifest

/-!
# What version edits mean

Independent of how versions are stored: a version maps a level and a table identifier to an entry.
-/

namespace Tonbo.Spec
open Tonbo.Model.Manifest

variable {P : Type}

/-- Which entry a version has for an identifier on a level. -/
abbrev LevelMap (P : Type) := Nat → Nat → Option (Entry P)

/-- The last of several entries with one identifier. -/
def lastEntry (es : List (Entry P)) (i : Nat) : Option (Entry P) :=
  es.reverse.find? (fun e => decide (e.id = i))

/-- What one edit does to the tables of a version. -/
def editMeans (f : LevelMap P) : Edit P → LevelMap P
  | .addSsts l es => fun l' i => if l' = l then (lastEntry es i).or (f l' i) else f l' i
  | .removeSsts l ids => fun l' i => if l' = l ∧ i ∈ ids then none else f l' i
  | .setWal _ => f
  | .setWatermark _ => f

/-- Edits are refused if one removes tables from a level that does not exist at that moment; `n` is
the number of levels before. -/
def Refused : Nat → List (Edit P) → Prop
  | _, [] => False
  | n, .addSsts l es :: r => Refused (if es = [] then n else max n (l + 1)) r
  | n, .removeSsts l ids :: r => (ids ≠ [] ∧ n ≤ l) ∨ Refused n r
  | n, .setWal _ :: r => Refused n r
  | n, .setWatermark _ :: r => Refused n r

/-- The segments of the last `SetWalSegments`, or those from before. -/
def walAfter (w : List WalRef) : List (Edit P) → List WalRef
  | [] => w
  | .setWal s :: r => walAfter s r
  | _ :: r => walAfter w r

/-- The last watermark set, or the one from before. -/
def watermarkAfter (w : Option Nat) : List (Edit P) → Option Nat
  | [] => w
  | .setWatermark x :: r => watermarkAfter (some x) r
  | _ :: r => watermarkAfter w r

/-- The level lists of a version list exactly the entries of `f`. -/
def Lists (ssts : List (List (Entry P))) (f : LevelMap P) : Prop :=
  ∀ l e, e ∈ ssts.getD l [] ↔ f l e.id = some e

/-- `w` is a least segment of the list: smallest sequence number, then smallest first frame. -/
def LeastWal (l : List WalRef) (w : WalRef) : Prop :=
  w ∈ l ∧ ∀ x ∈ l, w.seq < x.seq ∨ (w.seq = x.seq ∧ w.first ≤ x.first)

/-- The form every published version has: no identifier twice on a level, ascending; no empty last
level; segments by sequence number; the floor is a least segment. -/
structure VersionOk (v : Version P) : Prop where
  asc : ∀ b ∈ v.ssts, b.Pairwise (fun a c => a.id < c.id)
  last : v.ssts.getLast? ≠ some []
  walAsc : v.wal.Pairwise (fun a b => a.seq ≤ b.seq)
  floorNone : v.floor = none ↔ v.wal = []
  floor : ∀ w, v.floor = some w → LeastWal v.wal w

end Tonbo.Spec
