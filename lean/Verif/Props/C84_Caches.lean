import Verif.Lemmas.Cached
import Verif.Props.C83_Processes

/-!
# C84: what is kept of files stays true

Scans keep footers and bloom filters of table files in a cache that is never told of changes of the store. Whatever happens
to the table meanwhile, in this process or another, what a scan gets from the cache is what it would read from the store.
-/

set_option linter.unusedSectionVars false

namespace Tonbo.Props.C84
open Tonbo.Model Tonbo.Model.Manifest Tonbo.Model.Planner Tonbo.Model.Lsm Tonbo.Model.Fleet Tonbo.Model.Cached Tonbo.Spec
open Tonbo.Lemmas.Lsm Tonbo.Lemmas.Cache Tonbo.Lemmas.Fleet Tonbo.Lemmas.Cached

variable {K R X V : Type} [LinearOrder K] [DecidableEq X]

/-- **C84 (partial).** At every moment, what the cache of any process holds, and what its tasks were told, now or earlier
in its life, is what the store has now; the cache stays within its size and no insertion goes on for ever. The caches
change nothing: the processes and the store are those of C83.

Missing: more than one process that flushes or compacts (`two_writers_make_caches_stale`). -/
theorem cached_parts_are_current_partial (ext : R → Option K) (x : Exec K R) (hn : 0 < x.readRows) (cap t sv max w : Nat)
    (part : X → Sst.File K R → Option V) (ops : List (Cached.Op K R X)) (h1 : OneWriter w (acts ops))
    (h2 : AskedOfVersions ext x t max part (Sys.new cap t sv max) ops) :
    ∃ s, Cached.run ext x t max part (Sys.new cap t sv max) ops = some s ∧
      s.fleet = C83.after ext x cap t sv (acts ops) ∧
      ∀ p, (s.caches p).cache.entries.length ≤ Nat.max max 1 ∧
        (∀ k v, Cache.kget (s.caches p).cache k = some v → (s.fleet.files k.1).bind (part k.2) = some v) ∧
        ∀ task k r, (s.caches p).tasks task = some (.done k r) → r = (s.fleet.files k.1).bind (part k.2) := by
  obtain ⟨n, hi⟩ := C38.reached_inv ext x hn cap t sv []
  obtain ⟨s, e1, e2, e3⟩ := run_right (t := t) (max := max) (w := w) (part := part) hn ops (Sys.new cap t sv max) n hi
    (fun p => right_empty t max part _) h1 h2
  refine ⟨s, e1, e3, fun p => ⟨?_, fun k v hv => ?_, fun i k r hr => ?_⟩⟩
  · rw [len_eq (e2 p).inv.ok]
    have := (e2 p).inv.ok.size
    rw [(e2 p).inv.max] at this
    exact this
  · have := (e2 p).inv.cached k v hv
    unfold listedOnly at this
    split_ifs at this
    exact this
  · rw [(e2 p).inv.tasks i k r hr]
    unfold listedOnly
    exact if_pos ((e2 p).known i _ hr)

/-! ## A history -/

section Example

open C38 (exX exExt)
open C83 (flushAct)

/-- Of a table: the number of its rows, of its deletions. -/
def exPart : Bool → Sst.File Nat Nat → Option Nat
  | true, f => some f.data.length
  | false, f => if f.dels.isEmpty then none else some f.dels.length

def exRun (ops : List (Cached.Op Nat Nat Bool)) : Option (Sys Nat Nat Bool Nat) :=
  Cached.run exExt exX 1 2 exPart (Sys.new 4 1 0 2) ops

/-- The parts are asked for of listed tables, step by step. -/
def asked (s : Sys Nat Nat Bool Nat) : List (Cached.Op Nat Nat Bool) → Bool
  | [] => true
  | o :: os =>
    (match o with
      | .ask _ _ k => (List.range 9).any (fun n => match readVersion s.fleet.kv 1 n with
          | .ok (some v) => (List.range 9).any (fun l => (v.ssts.getD l []).any (fun e => e.info.data == k.1))
          | _ => false)
      | _ => true) &&
    match Cached.step exExt exX 1 2 exPart s o with
    | some s => asked s os
    | none => false

theorem asked_of : ∀ (ops : List (Cached.Op Nat Nat Bool)) (s : Sys Nat Nat Bool Nat), asked s ops = true →
    AskedOfVersions exExt exX 1 2 exPart s ops
  | [], _, _, before, after, p, i, k, e, _, _ => by simp at e
  | o :: os, s, h, before, after, p, i, k, e, s', hs' => by
    unfold asked at h
    rw [Bool.and_eq_true] at h
    cases before with
    | nil =>
      obtain ⟨rfl, rfl⟩ := List.cons.inj e
      obtain rfl := Option.some.inj hs'
      have h := h.1
      simp only at h
      obtain ⟨n, _, h⟩ := List.any_eq_true.1 h
      split at h
      · rename_i v hv
        obtain ⟨l, _, h⟩ := List.any_eq_true.1 h
        obtain ⟨e, he, h⟩ := List.any_eq_true.1 h
        exact ⟨l, e, ⟨n, v, hv, he⟩, (by simpa using (beq_iff_eq.1 h).symm)⟩
      · cases h
    | cons o' before =>
      obtain ⟨rfl, rfl⟩ := List.cons.inj e
      unfold Cached.run at hs'
      cases hst : Cached.step exExt exX 1 2 exPart s o with
      | none => rw [hst] at hs'; cases hs'
      | some s1 =>
        rw [hst] at hs' h
        exact asked_of _ s1 h.2 before after p i k rfl s' hs'

def acting (l : List (Nat × Act Nat Nat)) : List (Cached.Op Nat Nat Bool) := l.map (fun o => .act o.1 o.2)

/-- Process 2 starts loading a footer; the table is compacted away before it is kept. Process 1 loads parts of three
tables, more than fit, and is told from the cache. -/
def exOps : List (Cached.Op Nat Nat Bool) :=
  acting ([(1, .put [11, 21])] ++ flushAct 1) ++ [.ask 2 0 (⟨0, 1⟩, true), .ask 1 0 (⟨0, 1⟩, true), .load 1 0] ++
  acting ([(1, .del [2])] ++ flushAct 1) ++ [.ask 1 1 (⟨0, 2⟩, false), .load 1 1] ++
  acting [(1, .start ⟨0, 1, [⟨0, 1⟩, ⟨0, 2⟩], none⟩ none 0), (1, .finish 0)] ++
  [.load 2 0, .ask 1 2 (⟨0, 1⟩, true), .ask 1 3 (⟨1, 3⟩, true), .load 1 3]

/-- What the tasks of a process were told. -/
def toldTo (p task : Nat) (s : Option (Sys Nat Nat Bool Nat)) : Option (Option Nat) :=
  match s with
  | none => none
  | some s => match (s.caches p).tasks task with
    | some (.done _ r) => some r
    | _ => none

example : OneWriter 1 (acts exOps) ∧ AskedOfVersions exExt exX 1 2 exPart (Sys.new 4 1 0 2) exOps ∧
    toldTo 2 0 (exRun exOps) = some (some 2) ∧ toldTo 1 0 (exRun exOps) = some (some 2) ∧
    toldTo 1 1 (exRun exOps) = some (some 1) ∧ toldTo 1 2 (exRun exOps) = some (some 2) ∧
    toldTo 1 3 (exRun exOps) = some (some 1) ∧
    (exRun exOps).map (fun s => ((s.caches 1).cache.order, (s.caches 2).cache.order)) =
      some ([(⟨0, 2⟩, false), (⟨1, 3⟩, true)], [(⟨0, 1⟩, true)]) :=
  ⟨C83.ex_one _ (by decide +kernel), asked_of _ _ (by decide +kernel), by decide +kernel, by decide +kernel,
    by decide +kernel, by decide +kernel, by decide +kernel, by decide +kernel⟩

/-- With two writers a cache tells what is no longer true: the second flush overwrites the file of the first, a
reader that kept its footer goes on using it. -/
theorem two_writers_make_caches_stale : ∃ ops : List (Cached.Op Nat Nat Bool),
    AskedOfVersions exExt exX 1 2 exPart (Sys.new 4 1 0 2) ops ∧
    toldTo 3 1 (exRun ops) = some (some 1) ∧
    (exRun ops).map (fun s => (s.fleet.files ⟨0, 1⟩).bind (exPart true)) = some (some 3) :=
  ⟨acting ([(1, .put [11]), (2, .put [52, 62, 72])] ++ flushAct 1) ++ [.ask 3 0 (⟨0, 1⟩, true), .load 3 0] ++
    acting (flushAct 2) ++ [.ask 3 1 (⟨0, 1⟩, true)],
    asked_of _ _ (by decide +kernel), by decide +kernel, by decide +kernel⟩

end Example

end Tonbo.Props.C84
