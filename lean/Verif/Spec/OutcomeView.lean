import Verif.Model.Outcome

/-!
# Which WAL segments the tables left by a compaction still name
-/

namespace Tonbo.Spec
open Tonbo.Model.Manifest Tonbo.Model.Planner Tonbo.Model.Outcome

variable {K : Type}

/-- The WAL identifiers of a table that exists once `o` is published on `v`: a listed table that `o`
does not remove, or an output. -/
def TableWal (v : Version (Info K)) (o : Outcome K) (wal : Option (List Nat)) : Prop :=
  (∃ l, ∃ e ∈ v.ssts.getD l [], (∀ d ∈ o.remove, d.id ≠ e.id) ∧ e.wal = wal) ∨ ∃ d ∈ o.outputs, d.wal = wal

/-- Some such table names the segment file. -/
def Needed (v : Version (Info K)) (o : Outcome K) (file : Nat) : Prop :=
  ∃ ids, TableWal v o (some ids) ∧ file ∈ ids

/-- Every such table says which segments it needs. -/
def AllKnown (v : Version (Info K)) (o : Outcome K) : Prop := ¬ TableWal v o none

/-- Two neighbours in the list of segments whose sequence numbers are not consecutive. -/
def Gap (wal : List WalRef) : Prop :=
  ∃ i a b, wal[i]? = some a ∧ wal[i + 1]? = some b ∧ a.seq + 1 < b.seq

/-- What may be published as segment list `L` and declared obsolete. -/
structure SegmentsOk (v : Version (Info K)) (o : Outcome K) (L obsolete : List WalRef) : Prop where
  /-- a part of the present list, in its order -/
  sub : L.Sublist v.wal
  /-- no needed segment is dropped -/
  keeps : ∀ s ∈ v.wal, Needed v o s.file → s ∈ L
  /-- and the first one is not past any needed one -/
  first : ∀ f, L.head? = some f → ∀ s ∈ v.wal, Needed v o s.file → f.seq ≤ s.seq
  /-- with gaps in the numbering, everything before the first needed segment stays -/
  gaps : Gap v.wal → ∀ pre s post, v.wal = pre ++ s :: post → Needed v o s.file →
    (∀ t ∈ pre, ¬ Needed v o t.file) → ∀ t ∈ pre, t ∈ L
  /-- without them, only needed segments stay -/
  only : ¬ Gap v.wal → AllKnown v o → ∀ s ∈ L, Needed v o s.file
  /-- if some table does not say what it needs, nothing changes -/
  unknown : ¬ AllKnown v o → L = v.wal
  /-- obsolete is what is no longer listed -/
  obsolete : ∀ s, s ∈ obsolete ↔ s ∈ v.wal ∧ s ∉ L

end Tonbo.Spec
