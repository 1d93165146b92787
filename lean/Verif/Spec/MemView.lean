import Verif.Model.Memtable
import Verif.Spec.Mvcc

/-!
# How memtable calls and scan entries read as versions

The bridge between the vocabulary of `Spec/Mvcc.lean` and the data types of the memtable model.
-/

namespace Tonbo.Spec
open Tonbo.Model Tonbo.Model.Mem

variable {K R : Type}

/-- A scan entry as a version. -/
def toVer : Entry K R → Ver K R
  | .row kt r => ⟨kt.key, kt.ts, .put r⟩
  | .tomb kt => ⟨kt.key, kt.ts, .del⟩

/-- The rows among scan entries. -/
def rowsOf (out : List (Entry K R)) : List (K × R) :=
  out.filterMap (fun | .row kt r => some (kt.key, r) | .tomb _ => none)

/-- The writes of an upsert batch: row `r` at timestamp `t`, in row order. -/
def putWrites (ext : R → Option K) (rows : List (R × Nat)) : List (Ver K R) :=
  rows.filterMap (fun p => (ext p.1).map (fun k => ⟨k, p.2, .put p.1⟩))

/-- The writes of a delete batch. -/
def delWrites (keys : List (K × Nat)) : List (Ver K R) :=
  keys.map (fun p => ⟨p.1, p.2, .del⟩)

/-- The writes a successful call stands for, in order. -/
def opWrites (ext : R → Option K) : Op K R → List (Ver K R)
  | .put rows => putWrites ext rows
  | .del keys => delWrites keys
  | .freeze => []

/-- Of several writes with one key and one timestamp only the last. -/
def lastOnly [DecidableEq K] : List (Ver K R) → List (Ver K R)
  | [] => []
  | v :: l => if l.any (fun u => u.key = v.key ∧ u.ts = v.ts) then lastOnly l else v :: lastOnly l

/-- What a successful call writes: where a batch has several rows for one key, the last one counts. -/
def batchWrites [DecidableEq K] (ext : R → Option K) (op : Op K R) : List (Ver K R) := lastOnly (opWrites ext op)

end Tonbo.Spec
