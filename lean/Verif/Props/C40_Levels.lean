import Verif.Lemmas.LsmLevels
import Verif.Props.C38_C43_Lsm

/-!
# C40: levels without overlap
-/

namespace Tonbo.Props.C40
open Tonbo.Model Tonbo.Model.Manifest Tonbo.Model.Planner Tonbo.Model.Outcome Tonbo.Model.Lsm Tonbo.Spec
open Tonbo.Lemmas.Lsm Tonbo.Lemmas.Manifest
open Tonbo.Model.Sst (File)

variable {K R : Type} [LinearOrder K]

/-- **C40**, for levels 2 and up: if every compaction is one the planner proposed for the version its
job read, no two tables of such a level of a published version have overlapping keys, whatever flushes,
compactions (also concurrent ones) and restarts happened.

Missing: level 1, for which the claim is false (`level_one_overlaps`). -/
theorem deeper_levels_are_disjoint_partial (S : Sorter K) (cfg : PCfg) (ext : R → Option K) (x : Exec K R)
    (hn : 0 < x.readRows) (cap t sv : Nat) (ops : List (Lsm.Op K R)) (hp : Planned S cfg ext x cap t sv ops)
    (n : Nat) (v : Version (Info K)) (hv : Published (reached ext x cap t sv ops) t n v)
    (l : Nat) (hl : 2 ≤ l) (e e' : Entry (Info K)) (he : e ∈ v.ssts.getD l []) (he' : e' ∈ v.ssts.getD l [])
    (hne : e ≠ e') :
    ∃ f f', (reached ext x cap t sv ops).files e.info.data = some f ∧
      (reached ext x cap t sv ops).files e'.info.data = some f' ∧ Disjoint' f f' := by
  obtain ⟨k, _, h⟩ := inv_run hn ops (inv_new ext x cap t sv)
  have hli := linv_run hn ops hp
  have hv := published_iff.1 hv
  obtain ⟨a1, _, f, a2, _⟩ := h.ent l e ⟨n, v, hv, he⟩
  obtain ⟨b1, _, f', b2, _⟩ := h.ent l e' ⟨n, v, hv, he'⟩
  exact ⟨f, f', by rw [a1]; exact a2, by rw [b1]; exact b2, hli.levels n v hv l hl e he e' he' hne f f' a2 b2⟩

/-- A check of the hypothesis for concrete histories. -/
def checked (S : Sorter K) (cfg : PCfg) (ext : R → Option K) (x : Exec K R) (t : Nat) [DecidableEq (PTask K)] :
    Db K R → List (Lsm.Op K R) → Bool
  | _, [] => true
  | s, o :: os =>
    (match o with
      | .start task _ _ =>
        match snapshotLatest s.kv t with
        | .ok (_, some v) => decide (planVersion S cfg v 0 = some task)
        | _ => true
      | _ => true) && checked S cfg ext x t (Lsm.step ext x t s o).2 os

theorem planned_of_checked (S : Sorter K) (cfg : PCfg) (ext : R → Option K) (x : Exec K R) (hn : 0 < x.readRows)
    (cap t sv : Nat) (ops : List (Lsm.Op K R)) (h : checked S cfg ext x t (Db.new cap t sv) ops = true) :
    Planned S cfg ext x cap t sv ops := by
  intro pre task head skip post hops v hv
  obtain ⟨n, _, hinv⟩ := inv_run hn pre (inv_new ext x cap t sv)
  have hpre : ∀ (pre : List (Lsm.Op K R)) (s : Db K R), checked S cfg ext x t s (pre ++ .start task head skip :: post) = true →
      checked S cfg ext x t (Lsm.run ext x t s pre).2 (.start task head skip :: post) = true := by
    intro pre
    induction pre with
    | nil => exact fun s h => h
    | cons o os ih =>
      intro s h
      simp only [List.cons_append, checked, Bool.and_eq_true] at h
      exact ih _ h.2
  rw [hops] at h
  have := hpre pre _ h
  simp only [checked, Bool.and_eq_true] at this
  have h1 := this.1
  obtain ⟨hd, hreg⟩ := hinv.reg
  have hat := (latest_iff hinv).1 hv
  rcases snapshotLatest_spec hreg with ⟨h0, _⟩ | ⟨_, u, hu, _, e⟩
  · have := (at_le hreg hat).1
    omega
  · rw [e] at h1
    simp only [decide_eq_true_eq] at h1
    have : u = v := at_unique hu hat
    subst this
    exact ⟨0, h1⟩

/-! ## Level 1

Level 0 is compacted at two tables; a job from level 0 does not look at level 1. -/

def exCfg : PCfg := ⟨2, 6, none, [1], [], 10, none⟩

def twoFlushes (a b c d : Nat) : List (Lsm.Op Nat Nat) :=
  [.write (.put [(a, 1), (b, 1)])] ++ C38.flushOps [] ++ [.write (.put [(c, 2), (d, 2)])] ++ C38.flushOps []

def l0Job (a b : Nat) : List (Lsm.Op Nat Nat) := [.start ⟨0, 1, [⟨0, a⟩, ⟨0, b⟩], some (1, 9)⟩ none 0, .finish 0]

def exOps : List (Lsm.Op Nat Nat) :=
  twoFlushes 10 50 20 90 ++ l0Job 1 2 ++ twoFlushes 10 30 40 90 ++ l0Job 4 5

theorem exOps_planned : Planned C39.exSorter exCfg C38.exExt C38.exX 4 1 0 exOps :=
  planned_of_checked _ _ _ _ (by decide) _ _ _ _ (by decide +kernel)

/-- With at most two rows per output, three tables reach level 2. -/
def exX2 : Exec Nat Nat := { C38.exX with maxRows := some 2 }

def exDeeper : List (Lsm.Op Nat Nat) :=
  twoFlushes 10 50 20 90 ++ l0Job 1 2 ++ twoFlushes 10 30 40 90 ++ l0Job 5 6 ++
  [.start ⟨1, 2, [⟨1, 3⟩, ⟨1, 7⟩, ⟨1, 8⟩, ⟨1, 4⟩], some (1, 9)⟩ none 0, .finish 0]

/-- The hypothesis holds for a history that reaches level 2. -/
example : Planned C39.exSorter exCfg C38.exExt exX2 4 1 0 exDeeper ∧
    (kget (reached C38.exExt exX2 4 1 0 exDeeper).kv (.version 1 7)).map
      (fun | .version v => (v.ssts.getD 2 []).map (fun e => (e.id, loKey e, hiKey e)) | _ => []) =
      some [(9, some 1, some 2), (10, some 3, some 4), (11, some 5, some 9)] :=
  ⟨planned_of_checked _ _ _ _ (by decide) _ _ _ _ (by decide +kernel), by decide +kernel⟩

def exEntry (id : Nat) : Entry (Info Nat) :=
  ⟨id, none, ⟨some ⟨4, 4, 0, some 1, some 9, some 1, some 2⟩, ⟨1, id⟩, none⟩⟩

/-- **C40 fails for level 1** (F23): with jobs that all come from the planner, one after the other, two
tables of level 1 hold overlapping keys: each holds a key smaller than some key of the other. -/
theorem level_one_overlaps :
    Planned C39.exSorter exCfg C38.exExt C38.exX 4 1 0 exOps ∧
    ∃ n v e e' f f', Published (C38.exS exOps) 1 n v ∧ e ∈ v.ssts.getD 1 [] ∧ e' ∈ v.ssts.getD 1 [] ∧ e ≠ e' ∧
      (C38.exS exOps).files e.info.data = some f ∧ (C38.exS exOps).files e'.info.data = some f' ∧ ¬ Disjoint' f f' := by
  refine ⟨exOps_planned, 6,
    ⟨1, 6, [[], [exEntry 3, exEntry 6]], [], none, some 2⟩, exEntry 3, exEntry 6,
    ⟨[(⟨1, 1⟩, 10), (⟨2, 2⟩, 20), (⟨5, 1⟩, 50), (⟨9, 2⟩, 90)], []⟩,
    ⟨[(⟨1, 1⟩, 10), (⟨3, 1⟩, 30), (⟨4, 2⟩, 40), (⟨9, 2⟩, 90)], []⟩,
    published_iff.2 (by unfold At; decide +kernel), by decide, by decide, by decide, by decide +kernel,
    by decide +kernel, ?_⟩
  rintro (h | h) <;>
    exact absurd (h ⟨1, 1⟩ ⟨1, 1⟩ (.inl ⟨10, by decide⟩) (.inl ⟨10, by decide⟩)) (by decide)

end Tonbo.Props.C40
