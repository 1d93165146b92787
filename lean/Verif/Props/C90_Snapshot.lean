import Verif.Lemmas.WalSnap

/-!
# C90: a listing of the log says which segments there are and which frames they hold

`WalHandle::snapshot` answers from what the writer remembers, and the state file holds the same. The histories are those of
the writer: commands, rotations, deadlines, pruning by the database, a limit on the size of the log, shutdowns, power losses
between and inside commands, and restarts, in any order.
-/

namespace Tonbo.Props.C90
open Tonbo.Model.WalW Tonbo.Model.WalCut Tonbo.Model.WalSnap Tonbo.Spec.Snap Tonbo.Lemmas.WalNumbers Tonbo.Lemmas.WalSnap

variable {F : Type}

/-- **C90 (partial).** For every configuration and history without pruning, if segments are synced or the power does not
fail: the listing consists of the segments that exist and have frames, oldest first, each with the numbers of its first and
last frame.

Missing: pruning by the database, of which the writer is not told (`a_deleted_segment_is_listed`), and power losses with
syncing disabled (`lost_frames_are_listed`). -/
theorem the_listing_is_right_partial (cfg : Cfg) (size : F → Nat) (ops : List (COp F)) (hp : Unpruned ops)
    (hl : Kept cfg ops) :
    snapshot (scrun cfg size S.new ops) = listing (crun cfg size W.new ops) := by
  have h := al_crun (cfg := cfg) size ops S.new (al_new cfg) hl
  have hw := crun_w cfg size ops S.new
  have h0 := crun_pruned cfg size ops W.new hp
  rw [← show (scrun cfg size S.new ops).w = crun cfg size W.new ops from hw] at h0 ⊢
  generalize scrun cfg size S.new ops = s at h h0
  unfold snapshot listing segments
  rw [h.sealed, h.active, List.filterMap_append, List.filter_eq_self.2 (fun g _ => by rw [h0]; simp [W.new]), List.filterMap_map]
  congr 1

/-- **C90, with pruning (partial).** Then the listing may have segments that were deleted; without them it is right. -/
theorem the_listing_misses_nothing_partial (cfg : Cfg) (size : F → Nat) (ops : List (COp F))
    (hl : Kept cfg ops) :
    (scrun cfg size S.new ops).sealed.filter (fun b => decide ((crun cfg size W.new ops).pruned ≤ b.seq)) ++
      (scrun cfg size S.new ops).active.toList = listing (crun cfg size W.new ops) := by
  have h := al_crun (cfg := cfg) size ops S.new (al_new cfg) hl
  have hw := crun_w cfg size ops S.new
  rw [← show (scrun cfg size S.new ops).w = crun cfg size W.new ops from hw]
  generalize scrun cfg size S.new ops = s at h
  unfold listing segments
  rw [h.sealed, h.active, List.filterMap_append]
  congr 1
  · induction s.w.completed with
    | nil => rfl
    | cons c l ih =>
      rw [List.filterMap_cons, List.map_cons, List.filter_cons]
      cases e : boundsOf c.1 with
      | none =>
        simp only []
        rw [ih]
        split
        · rw [List.filterMap_cons, e]
        · rfl
      | some b =>
        have eb := bl_seq (boundsOf_eq c.1 ▸ e)
        simp only []
        rw [List.filter_cons, eb, ih]
        split
        · rw [List.filterMap_cons, e]
        · rfl

/-- **Every frame of the log is in a listed range**: the segment of a frame is listed, and the number of the frame lies
between the two that are listed for it. -/
theorem every_frame_is_listed_partial (cfg : Cfg) (size : F → Nat) (ops : List (COp F))
    (hl : Kept cfg ops) (g : Seg F) (hg : g ∈ segments (crun cfg size W.new ops))
    (f : Nat × F) (hf : f ∈ g.all) :
    ∃ b ∈ snapshot (scrun cfg size S.new ops), b.seq = g.seq ∧ b.first ≤ f.1 ∧ f.1 ≤ b.last := by
  have h := al_crun (cfg := cfg) size ops S.new (al_new cfg) hl
  have hw := crun_w cfg size ops S.new
  rw [← show (scrun cfg size S.new ops).w = crun cfg size W.new ops from hw] at hg
  generalize scrun cfg size S.new ops = s at h hg
  unfold snapshot
  rw [h.sealed, h.active]
  rcases List.mem_append.1 ((segments_sub s.w).subset hg) with hg | hg
  · obtain ⟨c, hc, rfl⟩ := List.mem_map.1 hg
    obtain ⟨b, hb, h1, h2⟩ := within (h.inv.old c hc) hf
    exact ⟨b, List.mem_append_left _ (List.mem_filterMap.2 ⟨c, hc, hb⟩), h1, h2⟩
  · cases List.mem_singleton.1 hg
    obtain ⟨b, hb, h1, h2⟩ := within h.inv.active hf
    exact ⟨b, List.mem_append_right _ (by rw [hb]; simp), h1, h2⟩

/-- **The state file says the same as the listing.** -/
theorem the_state_file_agrees_partial (cfg : Cfg) (size : F → Nat) (ops : List (COp F))
    (hl : Kept cfg ops) :
    (scrun cfg size S.new ops).mem ++ (scrun cfg size S.new ops).memActive.toList = snapshot (scrun cfg size S.new ops) := by
  have h := al_crun (cfg := cfg) size ops S.new (al_new cfg) hl
  unfold snapshot
  rw [h.mem, h.memActive]

/-- A command with two frames. -/
def two : Cmd Nat := ⟨[7, 8], none, true⟩

/-- Three segments; the oldest is removed by the limit, and a restart follows. -/
def exOps : List (Op Nat) := [.batch [two, two], .rotate, .batch [two], .rotate, .batch [two], .writeback, .powerLoss, .batch [two]]

/-- **Histories that meet the hypotheses**, one with a power loss inside the command that seals its segment: the state file
does not know the segment, and its bounds are read from the file. -/
example : Kept ⟨2, true, .always, none, true⟩ [COp.op (.batch [two]), .cut two false, .op (.batch [two])] ∧
    Unpruned [COp.op (.batch [two]), .cut two false, .op (.batch [two])] ∧
    snapshot (scrun ⟨2, true, .always, none, true⟩ (fun _ => 1) S.new
      [COp.op (.batch [two]), .cut two false, .op (.batch [two])]) = [⟨0, 1, 2⟩, ⟨1, 3, 4⟩, ⟨2, 3, 4⟩] := by
  exact ⟨(fun _ _ _ h => by cases h), (fun n h => by simp at h), by decide +kernel⟩

/-- **A history with a rotation, a limit and a restart.** -/
example : Unpruned (exOps.map COp.op) ∧
    snapshot (srun ⟨0, true, .always, none, true⟩ (fun _ => 1) S.new exOps) = [⟨0, 1, 4⟩, ⟨1, 5, 6⟩, ⟨2, 7, 10⟩] ∧
    snapshot (srun ⟨0, true, .always, some 5, true⟩ (fun _ => 1) S.new exOps) = [⟨1, 5, 6⟩, ⟨2, 7, 10⟩] := by
  refine ⟨fun n h => ?_, by decide +kernel, by decide +kernel⟩
  simp [exOps] at h

/-- **A segment that the database deleted is listed**, and is in the state file, until the next restart. -/
theorem a_deleted_segment_is_listed : ∃ (cfg : Cfg) (ops : List (Op Nat)), cfg.sync = .always ∧
    listing (run cfg (fun _ => 1) W.new ops).1 = [⟨1, 3, 4⟩] ∧
    snapshot (srun cfg (fun _ => 1) S.new ops) = [⟨0, 1, 2⟩, ⟨1, 3, 4⟩] ∧
    (srun cfg (fun _ => 1) S.new ops).mem = [⟨0, 1, 2⟩] ∧
    snapshot (srun cfg (fun _ => 1) S.new (ops ++ [.powerLoss])) = [⟨1, 3, 4⟩] :=
  ⟨⟨0, true, .always, none, true⟩, [.batch [two], .rotate, .batch [two], .prune 1],
    by decide +kernel, by decide +kernel, by decide +kernel, by decide +kernel, by decide +kernel⟩

/-- **Frames that a power loss took are listed**: with syncing disabled, the bounds of a sealed segment are taken from the
state file although the segment is shorter. Without a state file they are read from the segment. -/
theorem lost_frames_are_listed : ∃ (ops : List (Op Nat)),
    listing (run ⟨0, true, .disabled, none, true⟩ (fun _ => 1) W.new ops).1 = [⟨0, 1, 2⟩] ∧
    snapshot (srun ⟨0, true, .disabled, none, true⟩ (fun _ => 1) S.new ops) = [⟨0, 1, 4⟩] ∧
    snapshot (srun ⟨0, true, .disabled, none, false⟩ (fun _ => 1) S.new ops) = [⟨0, 1, 2⟩] :=
  ⟨[.batch [two], .writeback, .batch [two], .rotate, .powerLoss], by decide +kernel, by decide +kernel, by decide +kernel⟩

end Tonbo.Props.C90
