import Verif.Model.LsmScan
import Verif.Model.Durable

/-!
# Several tables in one store  (src/db/builder.rs:620-700, 1045-1110, 1621-1793)

`DbBuilder::table_name` opens any number of tables below one root. All of them use the same manifest, the
same directory of table files (`sst_route`, builder.rs:674-687) and the same log (`wal_route`,
builder.rs:660-672); each has its own memory and its own identifier allocator.
All tables have one type of keys and rows here.
-/

namespace Tonbo.Model.Store
open Tonbo.Model Tonbo.Model.Manifest Tonbo.Model.Planner Tonbo.Model.Lsm
open Tonbo.Model.Mem (Runs)
open Tonbo.Model.Sst (File)

/-- What the handle of one table holds. -/
structure Handle (K R : Type) where
  runs : Runs K R
  next : Nat
  gc : Option Outcome.GcPlan
  flushing : Flushing K
  jobs : List (Pending K)

/-- A store: version manifest, table files, and a handle for every table. Tables are named by their
identifiers; that a name has one identifier is C51. -/
structure Store (K R : Type) where
  kv : Kv (Info K)
  files : Path → Option (File K R)
  handles : Nat → Handle K R

variable {K R : Type} [LinearOrder K]

/-- An empty directory. -/
def Store.new : Store K R := ⟨[], fun _ => none, fun _ => ⟨Runs.new 0, 1, none, .idle, []⟩⟩

/-- The store as the handle of table `t` sees it. -/
def Store.db (s : Store K R) (t : Nat) : Db K R :=
  ⟨(s.handles t).runs, s.kv, s.files, (s.handles t).next, (s.handles t).gc, (s.handles t).flushing, (s.handles t).jobs⟩

/-- What a step on the handle of table `t` leaves. -/
def Store.set (s : Store K R) (t : Nat) (d : Db K R) : Store K R :=
  ⟨d.kv, d.files, fun u => if u = t then ⟨d.runs, d.next, d.gc, d.flushing, d.jobs⟩ else s.handles u⟩

/-- The steps. -/
inductive Op (K R : Type) where
  /-- opening a table without a log: it is registered (bootstrap.rs:192-215) if it is new, its identifiers
  go on after the largest one in its own versions (builder.rs:1621-1647), its memory is empty -/
  | openTable (table schemaVersion cap : Nat)
  /-- a step of the handle of a table -/
  | on (table : Nat) (op : Lsm.Op K R)

/-- The table a step works on. -/
def Op.table : Op K R → Nat
  | .openTable t _ _ => t
  | .on t _ => t

/-- Registration of a table in the version manifest (bootstrap.rs:198-207). -/
def register (t v : Nat) (d : Db K R) : Db K R := { d with kv := initHead d.kv t (newHead t v) }

/-- What a step does to the store as its table sees it. -/
def act (ext : R → Option K) (x : Exec K R) (d : Db K R) : Op K R → Db K R
  | .openTable t v cap => (Lsm.step ext x t (register t v d) (.reopen cap)).2
  | .on t op => (Lsm.step ext x t d op).2

/-- One step. -/
def step (ext : R → Option K) (x : Exec K R) (s : Store K R) (o : Op K R) : Store K R :=
  s.set o.table (act ext x (s.db o.table) o)

/-- A history, from an empty directory. -/
def run (ext : R → Option K) (x : Exec K R) (ops : List (Op K R)) : Store K R := ops.foldl (step ext x) Store.new

/-- A full scan of a table. -/
def read (s : Store K R) (t rts : Nat) : Option (List (Mem.Entry K R)) := scanAll t (s.db t) rts

/-! ## The log -/

/-- Opening the table of `c`, which was never opened before, with a log in a store where another table has
been working (`recover_or_init_with_executor`, builder.rs:1650-1765): the new table is registered, and since
there are segments in the shared directory they are replayed into it. -/
def openBeside {A : Type} (c : Durable.Ctx A K R) (s : Durable.Sys A K R) (v cap : Nat) (pol : Nat → Bool)
    (st : Option Wal.WState) : Durable.Sys A K R :=
  Durable.crash c { s with db := register c.table v { s.db with gc := none } } cap pol st

end Tonbo.Model.Store
