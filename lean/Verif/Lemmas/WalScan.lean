import Verif.Lemmas.FrameWalk
import Verif.Spec.LogView

/-!
# Scanning the segments of a log
-/

namespace Tonbo.Lemmas.WalScan
open Tonbo.Model.Wal Tonbo.Spec Tonbo.Spec.Wal Tonbo.Lemmas.FrameWalk

variable {A : Type}

/-- The frames of a segment replay looks at, in terms of the visitor's argument. -/
def keepFrame (ff : Option Nat) (f : RawFrame) : Bool :=
  match ff with | some n => decide (n ≤ f.2.1.toNat) | none => true

theorem visitAll_replay (c : Ipc (Batch A)) (ff : Option Nat) (ev : RawFrame → Event A) (tail : Option WErr) :
    ∀ (fs : List RawFrame) (acc : List (Event A)),
      (∀ f ∈ fs, keepFrame ff f = true → decodeFrame c f.1 f.2.2 = .ok (ev f)) →
      visitAll (replayVisit c ff) tail acc fs = .ok (acc ++ (fs.filter (keepFrame ff)).map ev, tail)
  | [], acc, _ => by simp [visitAll]
  | (t, seq, p) :: fs, acc, h => by
    have ih := fun acc => visitAll_replay c ff ev tail fs acc (fun f hf => h f (List.mem_cons_of_mem _ hf))
    have hk := h (t, seq, p) (by simp)
    simp only [visitAll]
    by_cases hkeep : keepFrame ff (t, seq, p) = true
    · have hskip : belowFrame ff seq.toNat = false := by
        cases ff with
        | none => rfl
        | some n => simp only [keepFrame, decide_eq_true_eq] at hkeep; simpa [belowFrame] using hkeep
      have hv : replayVisit c ff acc (Header.new seq t p) p = .ok (some (acc ++ [ev (t, seq, p)])) := by
        unfold replayVisit
        rw [if_neg (by simp [Header.new, hskip])]
        have hk := hk hkeep
        simp only at hk
        simp only [Header.new, hk]
      rw [hv]
      simp only
      rw [ih, List.filter_cons_of_pos hkeep]
      simp
    · have hskip : belowFrame ff seq.toNat = true := by
        cases ff with
        | none => simp [keepFrame] at hkeep
        | some n => simp only [keepFrame, decide_eq_true_eq] at hkeep; simpa [belowFrame] using hkeep
      have hv : replayVisit c ff acc (Header.new seq t p) p = .ok (some acc) := by
        unfold replayVisit
        rw [if_pos (by simp [Header.new, hskip])]
      rw [hv]
      simp only
      rw [ih, List.filter_cons_of_neg hkeep]

theorem filter_none (fs : List RawFrame) : fs.filter (keepFrame none) = fs :=
  List.filter_eq_self.2 (fun _ _ => rfl)

theorem keep_eq (floor : Option Floor) (n : Nat) (fs : List RawFrame) :
    aboveFloor floor n fs =
      if belowSegment floor n then []
      else fs.filter (keepFrame (floorFrame floor n)) := by
  unfold aboveFloor floorFrame belowSegment
  cases floor with
  | none => simp [filter_none]
  | some f =>
    simp only
    by_cases h1 : n < f.seq
    · simp [h1]
    · simp only [h1, decide_false, if_false, Bool.false_eq_true]
      by_cases h2 : n = f.seq
      · simp only [h2, if_true]; rfl
      · simp [h2, filter_none]

/-- One segment, possibly cut. -/
theorem scan_seg (c : Ipc (Batch A)) (floor : Option Floor) (ev : RawFrame → Event A) (n : Nat) (path : List Char)
    (fs : List RawFrame) (cut : Nat) (hw : WellFormed fs)
    (hd : ∀ f ∈ aboveFloor floor n fs, decodeFrame c f.1 f.2.2 = .ok (ev f))
    (rest : List Seg) (acc : List (Event A)) :
    ∃ torn : Bool, (torn = true ↔ belowSegment floor n = false ∧
        (logBytes fs).take cut ≠ logBytes (framesWithin cut fs)) ∧
      scanLoop c floor (⟨n, path, (logBytes fs).take cut⟩ :: rest) acc =
        if torn then .ok (acc ++ (aboveFloor floor n (framesWithin cut fs)).map ev)
        else scanLoop c floor rest (acc ++ (aboveFloor floor n (framesWithin cut fs)).map ev) := by
  rw [scanLoop]
  rw [keep_eq] at hd ⊢
  by_cases hskip : belowSegment floor n = true
  · refine ⟨false, by simp [hskip], ?_⟩
    · simp only
      rw [if_pos hskip, if_pos hskip]
      simp
  · simp only
    rw [if_neg hskip] at hd
    rw [if_neg hskip, if_neg hskip]
    obtain ⟨tail, h1, h2, h3⟩ := walk_cut (replayVisit c (floorFrame floor n)) fs cut
      (max fs.length ((logBytes fs).take cut).length) hw (Nat.le_max_left _ _)
    have hfuel := walk_fuel (replayVisit c (floorFrame floor n)) ((logBytes fs).take cut).length
      (max fs.length ((logBytes fs).take cut).length) acc ((logBytes fs).take cut) (le_refl _) (Nat.le_max_right _ _)
    have hv := visitAll_replay c (floorFrame floor n) ev tail (framesWithin cut fs) acc (by
      intro f hf hk
      exact hd f (List.mem_filter.2 ⟨(framesWithin_prefix cut fs).subset hf, hk⟩))
    have hwalk := hfuel.trans ((h3 acc).trans hv)
    refine ⟨tail.isSome, ?_, ?_⟩
    · rw [ne_eq, ← h2]
      cases tail <;> simp [hskip]
    · rw [hwalk]
      cases tail <;> rfl

end Tonbo.Lemmas.WalScan
