import Verif.Model.SnapQuery
import Verif.Lemmas.LsmTxnQuery

/-! # A query through a snapshot that is held -/

set_option linter.unusedSectionVars false

namespace Tonbo.Lemmas.Lsm
open Tonbo.Model Tonbo.Model.Manifest Tonbo.Model.Lsm Tonbo.Model.Pred Tonbo.Model.Plan Tonbo.Model.Keys
open Tonbo.Spec Tonbo.Lemmas.Manifest

variable {K : Type} [LinearOrder K]

theorem openSnap_some {ext : Row → Option K} {x : Exec K Row} {t n : Nat} {s : Db K Row} (h : Inv ext x t n s) (rts : Nat) :
    ∃ snap, openSnap t s rts = some snap := by
  obtain ⟨hd, hreg⟩ := h.reg
  unfold openSnap
  rcases snapshotLatest_spec hreg with ⟨_, e⟩ | ⟨_, v, _, _, e⟩ <;> rw [e] <;> exact ⟨_, rfl⟩

theorem openSnap_rts {t : Nat} {s : Db K Row} {rts : Nat} {snap : Snap K} (h : openSnap t s rts = some snap) :
    snap.rts = rts := by
  unfold openSnap at h
  split at h
  · cases h
  · obtain rfl := Option.some.inj h
    rfl

theorem mapM_congr {α β : Type} {f g : α → Option β} : ∀ {l : List α}, (∀ a ∈ l, f a = g a) → l.mapM f = l.mapM g
  | [], _ => rfl
  | a :: l, h => by
    simp [List.mapM_cons, h a List.mem_cons_self, mapM_congr (fun b hb => h b (List.mem_cons_of_mem _ hb))]

/-- The tables found through a snapshot are those found when it was opened, while their files stay. -/
theorem storeAt_eq {ext : Row → Option K} {x : Exec K Row} {t n : Nat} {s s' : Db K Row} (base : Schema)
    (h : Inv ext x t n s) {rts : Nat} {snap : Snap K} (hs : openSnap t s rts = some snap)
    (hf : ∀ l e, Lst s.kv t l e → s'.files e.info.data = s.files e.info.data)
    {levels : List (List (Plan.Sst K))} (hst : storeOf base t s = some ⟨s.runs.mem, s.runs.runs, levels⟩) :
    storeAt base snap s' = some ⟨s'.runs.mem, s'.runs.runs, levels⟩ := by
  obtain ⟨hd, hreg⟩ := h.reg
  unfold openSnap at hs
  unfold storeOf at hst
  unfold storeAt
  rcases snapshotLatest_spec hreg with ⟨_, e⟩ | ⟨_, v, hv, _, e⟩
  · rw [e] at hs hst
    obtain rfl := Option.some.inj hs
    simp only [Option.some.injEq, Store.mk.injEq, true_and] at hst
    rw [← hst]
  · rw [e] at hs hst
    obtain rfl := Option.some.inj hs
    have hlev : levelsOf base s'.files v = levelsOf base s.files v := by
      unfold levelsOf
      refine mapM_congr fun es hes => mapM_congr fun en hen => ?_
      unfold sstOf readFile
      obtain ⟨l, hl⟩ := List.mem_iff_getElem?.1 hes
      simp only
      rw [hf l en ⟨n, v, hv, by rw [List.getD_eq_getElem?_getD, hl]; exact hen⟩]
    simp only [hlev]
    simp only at hst
    obtain ⟨ls, h1, h2⟩ := Option.map_eq_some_iff.1 hst
    simp only [Store.mk.injEq, true_and] at h2
    rw [h1, h2]
    rfl

end Tonbo.Lemmas.Lsm
