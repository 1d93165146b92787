import Verif.Model.Cache
import Verif.Model.Fleet

/-!
# Processes that keep what they read of files
(src/db/scan.rs:62-95, 311-340, 387-420, 560-570, src/db/mod.rs:607-611, 667-669, src/ondisk/metadata.rs, src/ondisk/bloom.rs)

Each process has a cache of its own, keyed by path, that is empty when it opens the table and is never told of changes of
the store. Scans ask it for parts of table files: the footer of the data file and of the delete sidecar, bloom filters.
Loading a part and keeping it are separate steps (`Model/Cache.lean`), and everything that happens to the store can come
in between. `X` names the parts; the cache of filters has the same code as that of footers, so the model has one cache.
-/

namespace Tonbo.Model.Cached
open Tonbo.Model Tonbo.Model.Planner Tonbo.Model.Fleet
open Tonbo.Model.Sst (File)

/-- The processes and the cache of each (db/mod.rs:490, 551). -/
structure Sys (K R X V : Type) where
  fleet : Fleet K R
  caches : Nat → Cache.St (Path × X) V

/-- A step of a process, a task of a process that asks for a part of a file, a task that loads and keeps it. -/
inductive Op (K R X : Type) where
  | act (p : Nat) (a : Act K R)
  | ask (p task : Nat) (k : Path × X)
  | load (p task : Nat)

variable {K R X V : Type} [LinearOrder K] [DecidableEq X]

/-- What the store has for a part of a file at this moment: opening it and reading (scan.rs:77-89). -/
def stored (part : X → File K R → Option V) (s : Fleet K R) (k : Path × X) : Option V := (s.files k.1).bind (part k.2)

/-- A process as it is opened has an empty cache (db/mod.rs:667-669). -/
def empty (max : Nat) : Cache.St (Path × X) V := ⟨Cache.new max, fun _ => none⟩

/-- A new table, with caches of size `max`. -/
def Sys.new (cap table schemaVersion max : Nat) : Sys K R X V := ⟨Fleet.new cap table schemaVersion, fun _ => empty max⟩

/-- What a step leaves of the cache of its process: nothing, if the process opens the table again. -/
def kept (max : Nat) (c : Cache.St (Path × X) V) : Act K R → Cache.St (Path × X) V
  | .enter _ => empty max
  | _ => c

/-- One step. `none`: an eviction did not end. -/
def step (ext : R → Option K) (x : Lsm.Exec K R) (table max : Nat) (part : X → File K R → Option V) (s : Sys K R X V) :
    Op K R X → Option (Sys K R X V)
  | .act p a => some ⟨(Fleet.step ext x table s.fleet (p, a)).2, Function.update s.caches p (kept max (s.caches p) a)⟩
  | .ask p i k =>
    (Cache.step (stored part s.fleet) (s.caches p) (.start i k)).map (fun c => ⟨s.fleet, Function.update s.caches p c⟩)
  | .load p i =>
    (Cache.step (stored part s.fleet) (s.caches p) (.finish i)).map (fun c => ⟨s.fleet, Function.update s.caches p c⟩)

/-- A history. -/
def run (ext : R → Option K) (x : Lsm.Exec K R) (table max : Nat) (part : X → File K R → Option V) :
    Sys K R X V → List (Op K R X) → Option (Sys K R X V)
  | s, [] => some s
  | s, o :: os => (step ext x table max part s o).bind (fun s => run ext x table max part s os)

end Tonbo.Model.Cached
