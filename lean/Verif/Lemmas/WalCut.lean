import Verif.Model.WalCut
import Verif.Lemmas.WalNumbers

/-!
# Frame numbers when commands are cut short
-/

namespace Tonbo.Lemmas.WalCut
open Tonbo.Model.WalW Tonbo.Model.WalCut Tonbo.Lemmas.WalW Tonbo.Lemmas.WalNumbers

variable {F : Type}

theorem reopen_active (cfg : Cfg) (size : F → Nat) (s : W F) : (reopen cfg size s).active = s.active.lose := by
  unfold reopen retain
  split <;> rfl

theorem reopen_next (cfg : Cfg) (size : F → Nat) (s : W F) :
    (reopen cfg size s).next = if cfg.stateFile then max (tailNext s.active) s.next else tailNext s.active := by
  unfold reopen retain
  split <;> rfl

theorem reopen_completed (cfg : Cfg) (size : F → Nat) (s : W F) :
    ∀ c ∈ (reopen cfg size s).completed, ∃ d ∈ s.completed, c.1 = d.1.lose := by
  have key : ∀ c ∈ ((s.completed.map Prod.fst).filter (fun g => decide (s.pruned ≤ g.seq))).map
      (fun g => (g.lose, total size (g.synced.map Prod.snd))), ∃ d ∈ s.completed, c.1 = d.1.lose := by
    intro c hc
    obtain ⟨g, hg, rfl⟩ := List.mem_map.1 hc
    obtain ⟨d, hd, rfl⟩ := List.mem_map.1 (List.mem_filter.1 hg).1
    exact ⟨d, hd, rfl⟩
  unfold reopen retain
  split
  · exact key
  · intro c hc
    exact key c ((evict_suffix _ _ _ _).subset hc)

/-- A restart from a state file that covers the sealed segments. -/
theorem inv_reopenStored {cfg : Cfg} {s : W F} (h : Inv cfg s) (size : F → Nat) (stored : Nat)
    (hold : ∀ c ∈ s.completed, ∀ f ∈ c.1.all, f.1 < stored) : Inv cfg (reopenStored cfg size stored s) := by
  have hr := inv_reopen h size
  have hsy : Asc s.active.synced := by
    have := h.active.sub (lose_sub s.active)
    rwa [lose_all] at this
  have ht := tailNext_above hsy
  have hb : ∀ f ∈ (reopen cfg size s).active.all, f.1 < (reopenStored cfg size stored s).next := by
    intro f hf
    rw [reopen_active, lose_all] at hf
    have := ht f hf
    simp only [reopenStored]
    split
    · exact Nat.lt_of_lt_of_le this (Nat.le_max_left _ _)
    · exact this
  refine ⟨hr.segs, hr.nextSeg, hr.old, hr.active, hb, fun e => ⟨(hr.whole e).1, fun f hf => ?_⟩⟩
  rcases List.mem_append.1 (show f ∈ known (reopen cfg size s) from hf) with hf | hf
  · obtain ⟨c, hc, hfc⟩ := List.mem_flatMap.1 hf
    obtain ⟨d, hd, e2⟩ := reopen_completed cfg size s c hc
    rw [e2] at hfc
    have := hold d hd f ((lose_sub _).subset hfc)
    simp only [reopenStored, e, if_true]
    exact Nat.lt_of_lt_of_le this (Nat.le_max_right _ _)
  · exact hb f hf

theorem writeOut_completed {cfg : Cfg} (h0 : cfg.maxBytes = 0) (size : F → Nat) (s : W F) (c : Cmd F) :
    (writeOut cfg size s c).completed = s.completed := by
  unfold writeOut maybeRotate
  rw [if_pos (Or.inl h0)]
  unfold flushIf
  split <;> rfl

theorem inv_cutCommand {cfg : Cfg} (h0 : cfg.maxBytes = 0) (hs : cfg.stateFile = true) {s : W F} (h : Inv cfg s)
    (size : F → Nat) (c : Cmd F) (y : Bool) : Inv cfg (cutCommand cfg size s c y) := by
  unfold cutCommand
  split
  · exact h
  · have hw := inv_writeOut h size c
    have hc := writeOut_completed h0 size s c
    have hold : ∀ d ∈ s.completed, ∀ f ∈ d.1.all, f.1 < s.next := fun d hd f hf =>
      (h.whole hs).2 f (List.mem_append_left _ (List.mem_flatMap.2 ⟨d, hd, hf⟩))
    apply inv_reopenStored
    · split
      · exact (inv_syncNow hw).same rfl rfl rfl rfl rfl
      · exact hw.same rfl rfl rfl rfl rfl
    · split
      · show ∀ d ∈ (writeOut cfg size s c).completed, _
        rw [hc]; exact hold
      · show ∀ d ∈ (writeOut cfg size s c).completed, _
        rw [hc]; exact hold

theorem inv_crun {cfg : Cfg} (h0 : cfg.maxBytes = 0) (hs : cfg.stateFile = true) (size : F → Nat) :
    ∀ (ops : List (COp F)) (s : W F), Inv cfg s → Inv cfg (crun cfg size s ops)
  | [], _, h => h
  | .op o :: ops, _, h => inv_crun h0 hs size ops _ (inv_step h size o)
  | .cut c y :: ops, s, h => by
    refine inv_crun h0 hs size ops _ ?_
    show Inv cfg (if s.dead then s else cutCommand cfg size s c y)
    split
    · exact h
    · exact inv_cutCommand h0 hs h size c y

/-- The same configuration without a state file. -/
def bare (cfg : Cfg) : Cfg := { cfg with stateFile := false }

theorem bare_reopen (cfg : Cfg) (size : F → Nat) (stored : Nat) (s : W F) :
    (reopenStored cfg size stored s).active = (reopen (bare cfg) size s).active ∧
    (reopenStored cfg size stored s).completed = (reopen (bare cfg) size s).completed ∧
    (reopenStored cfg size stored s).nextSeg = (reopen (bare cfg) size s).nextSeg := by
  unfold reopenStored reopen retain bare
  cases cfg.retention <;> exact ⟨rfl, rfl, rfl⟩

/-- What holds of the numbers whatever the state file says. -/
theorem bare_reopenStored {cfg : Cfg} {s : W F} (h : Inv (bare cfg) s) (size : F → Nat) (stored : Nat) :
    Inv (bare cfg) (reopenStored cfg size stored s) := by
  have hr := inv_reopen h size
  obtain ⟨e1, e2, e3⟩ := bare_reopen cfg size stored s
  have hsy : Asc s.active.synced := by
    have := h.active.sub (lose_sub s.active)
    rwa [lose_all] at this
  have ht := tailNext_above hsy
  refine ⟨by rw [e1, e2]; exact hr.segs, by rw [e1, e3]; exact hr.nextSeg, by rw [e2]; exact hr.old, by rw [e1]; exact hr.active,
    fun f hf => ?_, fun e => by cases e⟩
  rw [e1, reopen_active, lose_all] at hf
  have := ht f hf
  simp only [reopenStored]
  split
  · exact Nat.lt_of_lt_of_le this (Nat.le_max_left _ _)
  · exact this

theorem reopen_stored (cfg : Cfg) (size : F → Nat) (s : W F) : reopen cfg size s = reopenStored cfg size s.next s := by
  unfold reopenStored reopen retain
  cases cfg.retention <;> rfl

theorem bare_cstep {cfg : Cfg} {s : W F} (h : Inv (bare cfg) s) (size : F → Nat) (o : COp F) :
    Inv (bare cfg) (cstep cfg size s o) := by
  have hp : Inv (bare cfg) (reopen cfg size s) := by rw [reopen_stored]; exact bare_reopenStored h size _
  cases o with
  | op o =>
    show Inv (bare cfg) (step cfg size s o).1
    unfold step
    split
    · cases o <;> first | exact h | exact hp
    · cases o with
      | batch cs =>
        have := inv_enqueueAll size cs s h
        have e : ∀ (cs : List (Cmd F)) (s : W F), enqueueAll (bare cfg) size s cs = enqueueAll cfg size s cs := by
          intro cs
          induction cs with
          | nil => intro s; rfl
          | cons c cs ih =>
            intro s
            simp only [enqueueAll, ih]
            rfl
        rw [e] at this
        exact this
      | rotate => exact (inv_rotationRequest h : Inv (bare cfg) (rotationRequest (bare cfg) s))
      | tick r y => exact (inv_tick h r y : Inv (bare cfg) (tick (bare cfg) s r y))
      | shutdown => exact (inv_finish h : Inv (bare cfg) (finishSeg (bare cfg) s))
      | drain => exact h.same (seg_flush_all _) rfl rfl rfl rfl
      | writeback => exact h.same (seg_fsync_all _) rfl rfl rfl rfl
      | prune n => exact h.same rfl rfl rfl rfl rfl
      | powerLoss => exact hp
  | cut c y =>
    show Inv (bare cfg) (if s.dead then s else cutCommand cfg size s c y)
    split
    · exact h
    · unfold cutCommand
      split
      · exact h
      · have hw : Inv (bare cfg) (writeOut cfg size s c) := (inv_writeOut h size c : Inv (bare cfg) (writeOut (bare cfg) size s c))
        apply bare_reopenStored
        split
        · exact (inv_syncNow hw).same rfl rfl rfl rfl rfl
        · exact hw.same rfl rfl rfl rfl rfl

theorem bare_crun {cfg : Cfg} (size : F → Nat) : ∀ (ops : List (COp F)) (s : W F), Inv (bare cfg) s →
    Inv (bare cfg) (crun cfg size s ops)
  | [], _, h => h
  | _ :: ops, _, h => bare_crun size ops _ (bare_cstep h size _)

end Tonbo.Lemmas.WalCut
