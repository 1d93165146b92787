import Verif.Lemmas.WalCut

/-!
# C34, for the task that writes the log

`C34_Restart.lean` says with which numbers a restart goes on. Here the same is said of whole histories of the writer:
commands, rotations, deadlines, pruning, a limit on the size of the log, shutdowns, power losses and restarts, in any order.
-/

namespace Tonbo.Props.C34
open Tonbo.Model.WalW Tonbo.Model.WalCut Tonbo.Lemmas.WalNumbers Tonbo.Lemmas.WalCut

variable {F : Type}

/-- **C34, segments.** In every history and for every configuration the segments of the log are numbered upwards, no two
with the same number, and the next one to be opened has a larger number than all of them. -/
theorem segment_numbers_ascend (cfg : Cfg) (size : F → Nat) (ops : List (Op F)) :
    ((segments (run cfg size W.new ops).1).map (·.seq)).Pairwise (· < ·) ∧
    ∀ g ∈ segments (run cfg size W.new ops).1, g.seq < (run cfg size W.new ops).1.nextSeg := by
  have h := inv_run (cfg := cfg) size ops W.new (inv_new cfg)
  generalize (run cfg size W.new ops).1 = s at h
  have e : (s.completed.map Prod.fst ++ [s.active]).map (·.seq) = s.completed.map (fun c => c.1.seq) ++ [s.active.seq] := by simp
  refine ⟨List.Pairwise.sublist ((segments_sub s).map _) (by rw [e]; exact h.segs), fun g hg => ?_⟩
  rcases List.mem_append.1 ((segments_sub s).subset hg) with hg | hg
  · obtain ⟨c, hc, rfl⟩ := List.mem_map.1 hg
    exact Nat.lt_trans ((List.pairwise_append.1 h.segs).2.2 c.1.seq (List.mem_map_of_mem hc) _ (List.mem_singleton.2 rfl)) h.nextSeg
  · cases List.mem_singleton.1 hg
    exact h.nextSeg

/-- **C34, frames (partial).** In every history and for every configuration the frames of each segment are numbered
upwards, no two alike, and the next frame gets a larger number than all frames of the segment it goes into.

Missing: frames of other segments. Without a state file a restart with an empty last segment counts from one again
(`frame_numbers_restart`). -/
theorem frame_numbers_ascend_partial (cfg : Cfg) (size : F → Nat) (ops : List (Op F)) :
    (∀ g ∈ segments (run cfg size W.new ops).1, (g.all.map Prod.fst).Pairwise (· < ·)) ∧
    ∀ f ∈ (run cfg size W.new ops).1.active.all, f.1 < (run cfg size W.new ops).1.next := by
  have h := inv_run (cfg := cfg) size ops W.new (inv_new cfg)
  generalize (run cfg size W.new ops).1 = s at h
  refine ⟨fun g hg => ?_, h.below⟩
  rcases List.mem_append.1 ((segments_sub s).subset hg) with hg | hg
  · obtain ⟨c, hc, rfl⟩ := List.mem_map.1 hg
    exact h.old c hc
  · cases List.mem_singleton.1 hg
    exact h.active

theorem written_sub (s : W F) : (written s).Sublist (known s) := by
  have := flatMap_sub (fun g : Seg F => g.all) (segments_sub s)
  rwa [List.flatMap_append, List.flatMap_map, List.flatMap_singleton] at this

/-- **C34, frames, with a state file (partial).** If the power fails between commands and there is no limit on the size of
the log, no number is given out twice: in every history the frames of the whole log are numbered upwards, no two alike, and
the next frame gets a larger number than all of them.

Missing: a power loss inside a command that seals a segment, and a command whose rotation ends with an error, which only a
limit brings about. The state file is written after the rotation, so numbers are given out twice then
(`a_loss_inside_a_command_repeats_numbers`). -/
theorem frame_numbers_ascend_with_state_partial (cfg : Cfg) (hs : cfg.stateFile = true) (_hr : cfg.retention = none)
    (size : F → Nat) (ops : List (Op F)) :
    ((written (run cfg size W.new ops).1).map Prod.fst).Pairwise (· < ·) ∧
    ∀ f ∈ written (run cfg size W.new ops).1, f.1 < (run cfg size W.new ops).1.next := by
  have h := inv_run (cfg := cfg) size ops W.new (inv_new cfg)
  generalize (run cfg size W.new ops).1 = s at h
  exact ⟨(h.whole hs).1.sub (written_sub s), fun f hf => (h.whole hs).2 f ((written_sub s).subset hf)⟩

/-- **C34, frames, with a state file and no limit on the size of a segment (partial).** Then commands do not seal segments,
only requests and deadlines do, and the same holds wherever the power fails, also inside a command, and with a limit on the
size of the log. -/
theorem frame_numbers_ascend_wherever_the_power_fails_partial (cfg : Cfg) (hs : cfg.stateFile = true) (h0 : cfg.maxBytes = 0)
    (size : F → Nat) (ops : List (COp F)) :
    ((written (crun cfg size W.new ops)).map Prod.fst).Pairwise (· < ·) ∧
    ∀ f ∈ written (crun cfg size W.new ops), f.1 < (crun cfg size W.new ops).next := by
  have h := inv_crun h0 hs size ops W.new (inv_new cfg)
  generalize crun cfg size W.new ops = s at h
  exact ⟨(h.whole hs).1.sub (written_sub s), fun f hf => (h.whole hs).2 f ((written_sub s).subset hf)⟩

/-- **C34, segments and their frames, wherever the power fails.** In every history, also with power losses inside commands,
and for every configuration: the segments of the log are numbered upwards, the next one to be opened has a larger number than
all of them, the frames of each segment are numbered upwards, and the next frame gets a larger number than all frames of the
segment it goes into. -/
theorem numbers_ascend_wherever_the_power_fails (cfg : Cfg) (size : F → Nat) (ops : List (COp F)) :
    ((segments (crun cfg size W.new ops)).map (·.seq)).Pairwise (· < ·) ∧
    (∀ g ∈ segments (crun cfg size W.new ops), g.seq < (crun cfg size W.new ops).nextSeg) ∧
    (∀ g ∈ segments (crun cfg size W.new ops), (g.all.map Prod.fst).Pairwise (· < ·)) ∧
    ∀ f ∈ (crun cfg size W.new ops).active.all, f.1 < (crun cfg size W.new ops).next := by
  have h := bare_crun (cfg := cfg) size ops W.new (inv_new _)
  generalize crun cfg size W.new ops = s at h
  have e : (s.completed.map Prod.fst ++ [s.active]).map (·.seq) = s.completed.map (fun c => c.1.seq) ++ [s.active.seq] := by simp
  refine ⟨List.Pairwise.sublist ((segments_sub s).map _) (by rw [e]; exact h.segs), fun g hg => ?_, fun g hg => ?_, h.below⟩
  · rcases List.mem_append.1 ((segments_sub s).subset hg) with hg | hg
    · obtain ⟨c, hc, rfl⟩ := List.mem_map.1 hg
      exact Nat.lt_trans ((List.pairwise_append.1 h.segs).2.2 c.1.seq (List.mem_map_of_mem hc) _ (List.mem_singleton.2 rfl)) h.nextSeg
    · cases List.mem_singleton.1 hg
      exact h.nextSeg
  · rcases List.mem_append.1 ((segments_sub s).subset hg) with hg | hg
    · obtain ⟨c, hc, rfl⟩ := List.mem_map.1 hg
      exact h.old c hc
    · cases List.mem_singleton.1 hg
      exact h.active

/-- A command with two frames, synced or not. -/
def two : Cmd Nat := ⟨[7, 8], none, true⟩

/-- Frames in two segments, one of them lost; a restart; more frames. -/
def numbered (stateFile : Bool) : W Nat :=
  (run ⟨0, true, .bytes 100, none, stateFile⟩ (fun _ => 1) W.new
    [.batch [two], .rotate, .batch [two], .writeback, .batch [two], .powerLoss, .batch [two]]).1

/-- **A history with a restart in it**: the frames that were lost leave a gap if there is a state file. -/
example : (written (numbered false)).map Prod.fst = [1, 2, 3, 4, 5, 6] ∧
    (written (numbered true)).map Prod.fst = [1, 2, 3, 4, 7, 8] ∧ (segments (numbered true)).map (·.seq) = [0, 1] := by
  decide +kernel

/-- **Without a state file numbers are given out twice**: a rotation, a restart, and the frames of the next segment have
the numbers of the first one. -/
theorem frame_numbers_occur_twice : ∃ (cfg : Cfg) (ops : List (Op Nat)),
    (written (run cfg (fun _ => 1) W.new ops).1).map Prod.fst = [1, 2, 1, 2] :=
  ⟨⟨0, true, .always, none, false⟩, [.batch [two], .rotate, .powerLoss, .batch [two]], by decide +kernel⟩

/-- **With a state file too**: a command that seals its segment, a power loss before the state file is written, and the
frames of the next command have the numbers of the first one. Both are on the disk; the segments are synced. -/
theorem a_loss_inside_a_command_repeats_numbers : ∃ (cfg : Cfg) (ops : List (COp Nat)),
    cfg.stateFile = true ∧ cfg.sync = .always ∧ cfg.retention = none ∧
    (afterPowerLoss (crun cfg (fun _ => 1) W.new ops)).map Prod.fst = [1, 2, 1, 2] :=
  ⟨⟨2, true, .always, none, true⟩, [.cut two false, .op (.batch [two])], by decide +kernel⟩

/-- **A command cut short that does not seal its segment**: its frames are counted if they are on the disk, and their
numbers are given out again if they are lost. -/
example : (written (crun ⟨0, true, .bytes 100, none, true⟩ (fun _ => 1) W.new
      [.op (.batch [two]), .op .rotate, .cut two true, .op (.batch [two])])).map Prod.fst = [1, 2, 3, 4, 5, 6] ∧
    (written (crun ⟨0, true, .bytes 100, none, true⟩ (fun _ => 1) W.new
      [.op (.batch [two]), .op .rotate, .cut two false, .op (.batch [two])])).map Prod.fst = [1, 2, 3, 4] := by
  decide +kernel

end Tonbo.Props.C34
