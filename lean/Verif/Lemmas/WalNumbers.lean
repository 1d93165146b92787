import Verif.Lemmas.WalW

/-!
# The numbers of frames and segments the writer gives out
-/

namespace Tonbo.Lemmas.WalNumbers
open Tonbo.Model.WalW Tonbo.Lemmas.WalW

variable {F : Type}

/-- The frames are in the order of their numbers, and no number occurs twice. -/
def Asc (l : List (Nat × F)) : Prop := (l.map Prod.fst).Pairwise (· < ·)

theorem Asc.sub {l m : List (Nat × F)} (h : Asc l) (hs : m.Sublist l) : Asc m := List.Pairwise.sublist (hs.map _) h

theorem number_mem {n : Nat} {fs : List F} {p : Nat × F} (h : p ∈ number n fs) : n ≤ p.1 ∧ p.1 < n + fs.length := by
  have : p.1 ∈ (number n fs).map Prod.fst := List.mem_map_of_mem h
  rw [number_fst, List.mem_range'_1] at this
  exact this

theorem asc_number {l : List (Nat × F)} {n : Nat} (h : Asc l) (hn : ∀ f ∈ l, f.1 < n) (fs : List F) : Asc (l ++ number n fs) := by
  unfold Asc
  rw [List.map_append, List.pairwise_append]
  refine ⟨h, ?_, ?_⟩
  · rw [number_fst]
    exact List.pairwise_lt_range'
  · intro a ha b hb
    obtain ⟨p, hp, rfl⟩ := List.mem_map.1 ha
    rw [number_fst, List.mem_range'_1] at hb
    exact Nat.lt_of_lt_of_le (hn p hp) hb.1

theorem below_number {l : List (Nat × F)} {n : Nat} (hn : ∀ f ∈ l, f.1 < n) (fs : List F) :
    ∀ f ∈ l ++ number n fs, f.1 < n + fs.length := by
  intro f hf
  rcases List.mem_append.1 hf with hf | hf
  · exact Nat.lt_of_lt_of_le (hn f hf) (Nat.le_add_right _ _)
  · exact (number_mem hf).2

/-- All frames the writer knows of. -/
def known (s : W F) : List (Nat × F) := s.completed.flatMap (fun c => c.1.all) ++ s.active.all

structure Inv (cfg : Cfg) (s : W F) : Prop where
  segs : (s.completed.map (fun c => c.1.seq) ++ [s.active.seq]).Pairwise (· < ·)
  nextSeg : s.active.seq < s.nextSeg
  old : ∀ c ∈ s.completed, Asc c.1.all
  active : Asc s.active.all
  below : ∀ f ∈ s.active.all, f.1 < s.next
  whole : cfg.stateFile = true → Asc (known s) ∧ ∀ f ∈ known s, f.1 < s.next

theorem inv_new (cfg : Cfg) : Inv cfg (W.new : W F) :=
  ⟨by simp [W.new], by simp [W.new, Seg.new], (fun _ h => by cases h), List.Pairwise.nil, (fun _ h => by cases h),
    fun _ => ⟨List.Pairwise.nil, fun _ h => by cases h⟩⟩

/-- A step that moves frames of the open segment along. -/
theorem Inv.same {cfg : Cfg} {s s' : W F} (h : Inv cfg s) (h1 : s'.active.all = s.active.all) (h2 : s'.active.seq = s.active.seq)
    (h3 : s'.completed = s.completed) (h4 : s'.next = s.next) (h5 : s'.nextSeg = s.nextSeg) : Inv cfg s' := by
  have hk : known s' = known s := by unfold known; rw [h1, h3]
  exact ⟨by rw [h2, h3]; exact h.segs, by rw [h2, h5]; exact h.nextSeg, by rw [h3]; exact h.old, by rw [h1]; exact h.active,
    by rw [h1, h4]; exact h.below, by rw [hk, h4]; exact h.whole⟩

theorem inv_flushIf {cfg : Cfg} {s : W F} (h : Inv cfg s) (b : Bool) : Inv cfg (flushIf b s) := by
  unfold flushIf
  split
  · exact h.same (seg_flush_all _) rfl rfl rfl rfl
  · exact h

theorem inv_syncNow {cfg : Cfg} {s : W F} (h : Inv cfg s) : Inv cfg (syncNow s) :=
  h.same (seg_fsync_all _) rfl rfl rfl rfl

theorem inv_finish {cfg : Cfg} {s : W F} (h : Inv cfg s) : Inv cfg (finishSeg cfg s) := by
  unfold finishSeg
  split
  · exact inv_flushIf h _
  · exact inv_syncNow (inv_flushIf h _)

theorem flatMap_sub {α β : Type} (f : α → List β) {l m : List α} (h : l.Sublist m) : (l.flatMap f).Sublist (m.flatMap f) := by
  induction h with
  | slnil => exact List.Sublist.refl _
  | cons a _ ih => exact ih.trans (List.sublist_append_right _ _)
  | cons_cons a _ ih => exact (List.Sublist.refl _).append ih

theorem inv_retain {cfg : Cfg} {s : W F} (h : Inv cfg s) : Inv cfg (retain cfg s) := by
  unfold retain
  cases cfg.retention with
  | none => exact h
  | some limit =>
    have hs := (evict_suffix limit s.bytes s.pruned s.completed).sublist
    have hk := (flatMap_sub (fun c : Seg F × Nat => c.1.all) hs).append (List.Sublist.refl s.active.all)
    exact ⟨List.Pairwise.sublist ((hs.map _).append (List.Sublist.refl _)) h.segs, h.nextSeg, fun c hc => h.old c (hs.subset hc),
      h.active, h.below, fun e => ⟨(h.whole e).1.sub hk, fun f hf => (h.whole e).2 f (hk.subset hf)⟩⟩

theorem inv_openNext {cfg : Cfg} {s : W F} (h : Inv cfg s) : Inv cfg (openNext s) := by
  have hk : known (openNext s) = known s := by
    simp [known, openNext, Seg.new, Seg.all, List.flatMap_append]
  refine ⟨?_, Nat.lt_succ_self _, ?_, List.Pairwise.nil, (fun _ hf => by cases hf), by rw [hk]; exact h.whole⟩
  · simp only [openNext, Seg.new, List.map_append, List.map_cons, List.map_nil]
    rw [List.pairwise_append]
    refine ⟨h.segs, List.pairwise_singleton _ _, ?_⟩
    intro a ha b hb
    cases List.mem_singleton.1 hb
    rcases List.mem_append.1 ha with ha | ha
    · exact Nat.lt_trans ((List.pairwise_append.1 h.segs).2.2 a ha _ (List.mem_singleton.2 rfl)) h.nextSeg
    · cases List.mem_singleton.1 ha
      exact h.nextSeg
  · intro c hc
    rcases List.mem_append.1 hc with hc | hc
    · exact h.old c hc
    · cases List.mem_singleton.1 hc
      exact h.active

theorem inv_rotate {cfg : Cfg} {s : W F} (h : Inv cfg s) : Inv cfg (rotate cfg s) :=
  inv_retain (inv_openNext (inv_finish h))

theorem inv_maybeRotate {cfg : Cfg} {s : W F} (h : Inv cfg s) : Inv cfg (maybeRotate cfg s) := by
  unfold maybeRotate
  split
  · exact h
  · exact inv_rotate h

theorem inv_maybeSync {cfg : Cfg} {s : W F} (h : Inv cfg s) : Inv cfg (maybeSync cfg s) := by
  unfold maybeSync
  split
  · exact inv_syncNow h
  · split
    · exact inv_syncNow h
    · exact h
  · exact h
  · exact h

theorem inv_recordCommit {cfg : Cfg} {s : W F} (h : Inv cfg s) (c : Option Nat) : Inv cfg (recordCommit c s) := by
  unfold recordCommit
  split
  · exact h.same rfl rfl rfl rfl rfl
  · exact h

theorem inv_writeFrames {cfg : Cfg} {s : W F} (h : Inv cfg s) (size : F → Nat) (fs : List F) :
    Inv cfg (writeFrames size s fs) := by
  have ha : (writeFrames size s fs).active.all = s.active.all ++ number s.next fs := by
    simp [writeFrames, Seg.all]
  have hk : known (writeFrames size s fs) = known s ++ number s.next fs := by
    unfold known
    rw [ha, ← List.append_assoc]
    rfl
  refine ⟨h.segs, h.nextSeg, h.old, ?_, ?_, fun e => ?_⟩
  · rw [ha]; exact asc_number h.active h.below fs
  · rw [ha]; exact below_number h.below fs
  · rw [hk]; exact ⟨asc_number (h.whole e).1 (h.whole e).2 fs, below_number (h.whole e).2 fs⟩

theorem inv_writeOut {cfg : Cfg} {s : W F} (h : Inv cfg s) (size : F → Nat) (c : Cmd F) : Inv cfg (writeOut cfg size s c) :=
  inv_maybeRotate (inv_flushIf (inv_writeFrames h size _) _)

theorem inv_enqueue {cfg : Cfg} {s : W F} (h : Inv cfg s) (size : F → Nat) (c : Cmd F) : Inv cfg (enqueue cfg size s c).1 := by
  unfold enqueue
  split
  · exact h.same rfl rfl rfl rfl rfl
  · split
    · exact inv_writeOut h size c
    · exact inv_recordCommit (inv_maybeSync (inv_writeOut h size c)) _

theorem inv_enqueueAll {cfg : Cfg} (size : F → Nat) : ∀ (cs : List (Cmd F)) (s : W F), Inv cfg s → Inv cfg (enqueueAll cfg size s cs).1
  | [], _, h => h
  | c :: cs, s, h => by
    have h1 := inv_enqueue h size c
    unfold enqueueAll
    split
    · rename_i s' e
      rw [e] at h1
      exact h1
    · rename_i s' a e
      rw [e] at h1
      exact inv_enqueueAll size cs s' h1

theorem inv_rotationRequest {cfg : Cfg} {s : W F} (h : Inv cfg s) : Inv cfg (rotationRequest cfg s) := by
  unfold rotationRequest
  split
  · exact h
  · exact inv_rotate h

theorem inv_tick {cfg : Cfg} {s : W F} (h : Inv cfg s) (r y : Bool) : Inv cfg (tick cfg s r y) := by
  have h1 : Inv cfg (if r then rotationRequest cfg s else s) := by
    split
    · exact inv_rotationRequest h
    · exact h
  unfold tick
  generalize (if r then rotationRequest cfg s else s) = t at h1
  unfold timedSync
  split
  · exact inv_syncNow h1
  · exact h1

theorem tailNext_above {g : Seg F} (h : Asc g.synced) : ∀ f ∈ g.synced, f.1 < tailNext g := by
  intro f hf
  unfold tailNext
  rcases List.eq_nil_or_concat g.synced with e | ⟨l, a, e⟩
  · rw [e] at hf; cases hf
  · rw [List.concat_eq_append] at e
    rw [e] at hf h ⊢
    simp only [List.getLast?_append, List.getLast?_singleton, Option.some_or, Option.map_some, Option.getD_some]
    rcases List.mem_append.1 hf with hf | hf
    · unfold Asc at h
      rw [List.map_append, List.pairwise_append] at h
      exact Nat.lt_succ_of_lt (h.2.2 f.1 (List.mem_map_of_mem hf) a.1 (by simp))
    · cases List.mem_singleton.1 hf
      exact Nat.lt_succ_self _

theorem lose_sub (g : Seg F) : g.lose.all.Sublist g.all := by
  simp only [Seg.lose, Seg.all, List.append_nil, List.append_assoc]
  exact List.sublist_append_left _ _

theorem lose_all (g : Seg F) : g.lose.all = g.synced := by simp [Seg.lose, Seg.all]

theorem inv_reopen {cfg : Cfg} {s : W F} (h : Inv cfg s) (size : F → Nat) : Inv cfg (reopen cfg size s) := by
  unfold reopen
  apply inv_retain
  have hf : ((s.completed.map Prod.fst).filter (fun g => decide (s.pruned ≤ g.seq))).Sublist (s.completed.map Prod.fst) :=
    List.filter_sublist
  have hsy : Asc s.active.synced := by
    have := h.active.sub (lose_sub s.active)
    rwa [lose_all] at this
  have ht := tailNext_above hsy
  refine ⟨?_, Nat.lt_succ_self _, ?_, ?_, ?_, fun e => ?_⟩
  · simp only [List.map_map, Function.comp_def, Seg.lose]
    refine List.Pairwise.sublist ?_ h.segs
    refine List.Sublist.append ?_ (List.Sublist.refl _)
    have := hf.map (fun g : Seg F => g.seq)
    simpa [List.map_map, Function.comp_def] using this
  · intro c hc
    obtain ⟨g, hg, rfl⟩ := List.mem_map.1 hc
    obtain ⟨d, hd, rfl⟩ := List.mem_map.1 (hf.subset hg)
    exact (h.old d hd).sub (lose_sub _)
  · exact h.active.sub (lose_sub _)
  · intro f hfm
    simp only [lose_all] at hfm ⊢
    have := ht f hfm
    split
    · exact Nat.lt_of_lt_of_le this (Nat.le_max_left _ _)
    · exact this
  · have hk : (known ({
        active := s.active.lose,
        bytes := total size (s.active.synced.map Prod.snd),
        since := 0,
        next := if cfg.stateFile then max (tailNext s.active) s.next else tailNext s.active,
        nextSeg := s.active.seq + 1,
        completed := ((s.completed.map Prod.fst).filter (fun g => decide (s.pruned ≤ g.seq))).map
          (fun g => (g.lose, total size (g.synced.map Prod.snd))),
        commit := if cfg.stateFile then s.commit else none,
        pruned := s.pruned,
        dead := false } : W F)).Sublist (known s) := by
      unfold known
      refine List.Sublist.append ?_ (lose_sub _)
      rw [List.flatMap_map]
      have h1 := flatMap_sub (fun g : Seg F => g.all) hf
      rw [List.flatMap_map] at h1
      refine List.Sublist.trans ?_ h1
      generalize (s.completed.map Prod.fst).filter (fun g => decide (s.pruned ≤ g.seq)) = l
      induction l with
      | nil => exact List.Sublist.refl _
      | cons g l ih => exact (lose_sub g).append ih
    refine ⟨(h.whole e).1.sub hk, fun f hfm => ?_⟩
    simp only [e, if_true]
    exact Nat.lt_of_lt_of_le ((h.whole e).2 f (hk.subset hfm)) (Nat.le_max_right _ _)

theorem inv_step {cfg : Cfg} {s : W F} (h : Inv cfg s) (size : F → Nat) (op : Op F) : Inv cfg (step cfg size s op).1 := by
  have hl : Inv cfg (live cfg size s op).1 := by
    cases op with
    | batch cs => exact inv_enqueueAll size cs s h
    | rotate => exact inv_rotationRequest h
    | tick r y => exact inv_tick h r y
    | shutdown => exact inv_finish h
    | drain => exact h.same (seg_flush_all _) rfl rfl rfl rfl
    | writeback => exact h.same (seg_fsync_all _) rfl rfl rfl rfl
    | prune n => exact h.same rfl rfl rfl rfl rfl
    | powerLoss => exact inv_reopen h size
  unfold step
  split
  · cases op <;> first | exact h | exact inv_reopen h size
  · exact hl

theorem inv_run {cfg : Cfg} (size : F → Nat) : ∀ (ops : List (Op F)) (s : W F), Inv cfg s → Inv cfg (run cfg size s ops).1
  | [], _, h => h
  | op :: ops, s, h => inv_run size ops _ (inv_step h size op)

theorem segments_sub (s : W F) : (segments s).Sublist (s.completed.map Prod.fst ++ [s.active]) :=
  List.filter_sublist.append (List.Sublist.refl _)

end Tonbo.Lemmas.WalNumbers
