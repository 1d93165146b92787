import Verif.Spec.ManifestView
import Verif.Spec.CompactView
import Verif.Spec.StatsView
import Verif.Spec.MemView
import Verif.Model.Lsm

/-!
# What is on disk, and what it says
-/

namespace Tonbo.Spec
open Tonbo.Model Tonbo.Model.Manifest Tonbo.Model.Planner Tonbo.Model.Outcome Tonbo.Model.Lsm
open Tonbo.Model.Sst (File)

variable {K R : Type}

/-- Version `n` of the table can be read, and is `v`. -/
def Published (s : Db K R) (table n : Nat) (v : Version (Info K)) : Prop :=
  readVersion s.kv table n = .ok (some v)

/-- Some version lists the table `e` on level `l`. -/
def EverListed (s : Db K R) (table l : Nat) (e : Entry (Info K)) : Prop :=
  ∃ n v, Published s table n v ∧ e ∈ v.ssts.getD l []

/-- Version `v` is the one with the largest number. -/
def Latest (s : Db K R) (table : Nat) (v : Version (Info K)) : Prop :=
  ∃ n, Published s table n v ∧ ∀ k u, Published s table k u → k ≤ n

/-- The descriptor names the table that `v` lists on its level. -/
def Names (v : Version (Info K)) (d : Desc K) : Prop :=
  ⟨d.id, d.wal, ⟨d.stats, ⟨d.level, d.id⟩, d.del⟩⟩ ∈ v.ssts.getD d.level [] ∧ d.data = some ⟨d.level, d.id⟩

/-- The versions written by a history, in order of the calls. -/
def logOf [DecidableEq K] (ext : R → Option K) (ops : List (Lsm.Op K R)) : List (Ver K R) :=
  ops.flatMap (fun | .write op => batchWrites ext op | _ => [])

/-- The database after a history that starts with a new table. -/
def reached [LinearOrder K] (ext : R → Option K) (x : Exec K R) (cap table schemaVersion : Nat)
    (ops : List (Lsm.Op K R)) : Db K R :=
  (Lsm.run ext x table (Db.new cap table schemaVersion) ops).2

/-- The entry under which a written table is listed. -/
def asEntry (d : Desc K) : Entry (Info K) := ⟨d.id, d.wal, ⟨d.stats, ⟨d.level, d.id⟩, d.del⟩⟩

/-- `v'` lists the outputs, and what `v` lists except the inputs. -/
def Replaces (v v' : Version (Info K)) (inputs outputs : List (Desc K)) : Prop :=
  ∀ l e, e ∈ v'.ssts.getD l [] ↔ (∃ d ∈ outputs, d.level = l ∧ e = asEntry d) ∨
    (e ∈ v.ssts.getD l [] ∧ ∀ d ∈ inputs, ¬ (d.level = l ∧ d.id = e.id))

/-- Every key of the first file is smaller than every key of the second. -/
def Before [LinearOrder K] (f g : File K R) : Prop := ∀ a b, Stored f a → Stored g b → a.key < b.key

/-- The key ranges of the files do not overlap. -/
def Disjoint' [LinearOrder K] (f g : File K R) : Prop := Before f g ∨ Before g f

/-- Every compaction of the history is one that the planner proposes for the version the job reads
when it starts. -/
def Planned [LinearOrder K] (S : Sorter K) (cfg : PCfg) (ext : R → Option K) (x : Exec K R)
    (cap table schemaVersion : Nat) (ops : List (Lsm.Op K R)) : Prop :=
  ∀ pre task head skip post, ops = pre ++ .start task head skip :: post →
    ∀ v, Latest (reached ext x cap table schemaVersion pre) table v →
      ∃ minLevel, planVersion S cfg v minLevel = some task

end Tonbo.Spec
