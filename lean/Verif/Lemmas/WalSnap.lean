import Verif.Spec.SnapView
import Verif.Lemmas.WalCut

/-!
# The bounds the writer keeps are those of the segments
-/

namespace Tonbo.Lemmas.WalSnap
open Tonbo.Model.WalW Tonbo.Model.WalSnap Tonbo.Spec.Snap Tonbo.Lemmas.WalW Tonbo.Lemmas.WalNumbers Tonbo.Model.WalCut Tonbo.Lemmas.WalCut

variable {F : Type}

/-- The bounds of a list of frames. -/
def bl (seq : Nat) (l : List (Nat × F)) : Option B :=
  match l.head?, l.getLast? with
  | some a, some b => some ⟨seq, a.1, b.1⟩
  | _, _ => none

theorem boundsOf_eq (g : Seg F) : boundsOf g = bl g.seq g.all := rfl

theorem bl_cons (seq : Nat) (f : Nat × F) (l : List (Nat × F)) :
    bl seq (f :: l) = some ⟨seq, f.1, (l.getLast?.getD f).1⟩ := by
  unfold bl
  rw [List.getLast?_cons]
  rfl

theorem bl_seq {seq : Nat} {l : List (Nat × F)} {b : B} (h : bl seq l = some b) : b.seq = seq := by
  cases l with
  | nil => cases h
  | cons f l => rw [bl_cons] at h; cases h; rfl

theorem scan_from (l : List (Nat × F)) : ∀ (a b : Nat),
    l.foldl (fun p f => (if p.1.isNone then some f.1 else p.1, some f.1)) (some a, some b) =
      (some a, some ((l.getLast?.map Prod.fst).getD b)) := by
  induction l with
  | nil => intro a b; rfl
  | cons f l ih =>
    intro a b
    rw [List.foldl_cons]
    show l.foldl _ (some a, some f.1) = _
    rw [ih, List.getLast?_cons]
    cases l.getLast? <;> rfl

theorem fileBounds_eq (seq : Nat) (l : List (Nat × F)) : fileBounds seq l = bl seq l := by
  cases l with
  | nil => rfl
  | cons f l =>
    unfold fileBounds scanBounds
    rw [List.foldl_cons]
    show (match l.foldl _ (some f.1, some f.1) with | (some a, some b) => some (B.mk seq a b) | _ => none) = _
    rw [scan_from, bl_cons]
    cases l.getLast? <;> rfl

theorem touch_one (seq : Nat) (l : List (Nat × F)) (f : Nat × F) : touch seq (bl seq l) f.1 = bl seq (l ++ [f]) := by
  cases l with
  | nil => rfl
  | cons g l =>
    rw [List.cons_append, bl_cons, bl_cons]
    simp [touch]

theorem touch_all (seq : Nat) : ∀ (m l : List (Nat × F)),
    m.foldl (fun a f => touch seq a f.1) (bl seq l) = bl seq (l ++ m)
  | [], l => by simp
  | f :: m, l => by
    rw [List.foldl_cons, touch_one, touch_all seq m (l ++ [f]), List.append_assoc]
    rfl

theorem keep_suffix {w : W F} {l : List (Seg F × Nat)} (hs : w.completed <:+ l) (hp : (l.map (fun c => c.1.seq)).Pairwise (· < ·)) :
    keepB w (l.filterMap (fun c => boundsOf c.1)) = w.completed.filterMap (fun c => boundsOf c.1) := by
  obtain ⟨p, rfl⟩ := hs
  unfold keepB
  rw [List.filterMap_append, List.filter_append]
  rw [List.map_append, List.pairwise_append] at hp
  have h1 : (p.filterMap (fun c => boundsOf c.1)).filter (fun b => w.completed.any (fun c => c.1.seq == b.seq)) = [] := by
    rw [List.filter_eq_nil_iff]
    intro b hb hany
    obtain ⟨c, hc, e⟩ := List.mem_filterMap.1 hb
    obtain ⟨d, hd, e2⟩ := List.any_eq_true.1 hany
    have e3 : d.1.seq = b.seq := by simpa using e2
    have e4 := bl_seq (boundsOf_eq c.1 ▸ e)
    have := hp.2.2 c.1.seq (List.mem_map_of_mem hc) d.1.seq (List.mem_map_of_mem hd)
    omega
  have h2 : (w.completed.filterMap (fun c => boundsOf c.1)).filter (fun b => w.completed.any (fun c => c.1.seq == b.seq)) =
      w.completed.filterMap (fun c => boundsOf c.1) := by
    rw [List.filter_eq_self]
    intro b hb
    obtain ⟨c, hc, e⟩ := List.mem_filterMap.1 hb
    exact List.any_eq_true.2 ⟨c, hc, by simpa using (bl_seq (boundsOf_eq c.1 ▸ e)).symm⟩
  rw [h1, h2, List.nil_append]

theorem retain_suffix (cfg : Cfg) (s : W F) : (retain cfg s).completed <:+ s.completed := by
  unfold retain
  split
  · exact List.suffix_refl _
  · exact evict_suffix _ _ _ _

theorem retain_active (cfg : Cfg) (s : W F) : (retain cfg s).active = s.active := by
  unfold retain
  split <;> rfl

theorem finish_all (cfg : Cfg) (s : W F) : (finishSeg cfg s).active.all = s.active.all ∧
    (finishSeg cfg s).active.seq = s.active.seq ∧ (finishSeg cfg s).completed = s.completed := by
  unfold finishSeg flushIf
  split
  · exact ⟨seg_flush_all _, rfl, rfl⟩
  · exact ⟨(seg_fsync_all _).trans (seg_flush_all _), rfl, rfl⟩

/-- The bounds agree with the segments, in the writer and in the state file. -/
structure Al (cfg : Cfg) (s : S F) : Prop where
  sealed : s.sealed = s.w.completed.filterMap (fun c => boundsOf c.1)
  active : s.active = boundsOf s.w.active
  mem : s.mem = s.sealed
  memActive : s.memActive = s.active
  inv : Inv (bare cfg) s.w
  disk : cfg.sync ≠ .disabled → SealedOnDisk s.w

theorem al_new (cfg : Cfg) : Al cfg (S.new : S F) := ⟨rfl, rfl, rfl, rfl, inv_new _, fun _ _ h => by cases h⟩

/-- A step that moves frames of the open segment along. -/
theorem Al.same {cfg : Cfg} {s : S F} (h : Al cfg s) {w : W F} (h1 : w.active.all = s.w.active.all)
    (h2 : w.active.seq = s.w.active.seq) (h3 : w.completed = s.w.completed) (h4 : w.next = s.w.next)
    (h5 : w.nextSeg = s.w.nextSeg) : Al cfg { s with w := w } := by
  refine ⟨?_, ?_, h.mem, h.memActive, h.inv.same h1 h2 h3 h4 h5, ?_⟩
  · show s.sealed = w.completed.filterMap _
    rw [h3]; exact h.sealed
  · show s.active = boundsOf w.active
    rw [boundsOf_eq, h1, h2, ← boundsOf_eq]; exact h.active
  · intro hd c hc
    exact h.disk hd c (h3 ▸ hc)

theorem sealB_eq {cfg : Cfg} {s : S F} (h : Al cfg s) : sealB s = boundsOf s.w.active := by
  unfold sealB
  split
  · rename_i b e
    rw [← e, h.active]
  · rw [fileBounds_eq, boundsOf_eq]

theorem upsert_new {l : List B} {b : B} (h : ∀ x ∈ l, x.seq ≠ b.seq) : upsert l b = l ++ [b] := by
  unfold upsert
  rw [List.filter_eq_self.2 (fun x hx => by simpa using h x hx)]

theorem al_rotate {cfg : Cfg} {s : S F} (h : Al cfg s) : Al cfg (srotate cfg s) := by
  have hi : Inv (bare cfg) (rotate cfg s.w) := (inv_rotate h.inv : Inv (bare cfg) (rotate (bare cfg) s.w))
  obtain ⟨e1, e2, e3⟩ := finish_all cfg s.w
  have hsuf : (rotate cfg s.w).completed <:+ s.w.completed ++ [((finishSeg cfg s.w).active, (finishSeg cfg s.w).bytes)] := by
    have := retain_suffix cfg (openNext (finishSeg cfg s.w))
    have e4 : (openNext (finishSeg cfg s.w)).completed =
        s.w.completed ++ [((finishSeg cfg s.w).active, (finishSeg cfg s.w).bytes)] := by
      simp only [openNext, e3]
    rw [e4] at this
    exact this
  have hl : s.sealed ++ (sealB s).toList =
      (s.w.completed ++ [((finishSeg cfg s.w).active, (finishSeg cfg s.w).bytes)]).filterMap (fun c => boundsOf c.1) := by
    rw [List.filterMap_append, ← h.sealed, sealB_eq h]
    congr 1
    rw [boundsOf_eq, boundsOf_eq s.w.active |>.symm]
    simp only [List.filterMap_cons, List.filterMap_nil, boundsOf_eq, e1, e2]
    cases bl s.w.active.seq s.w.active.all <;> rfl
  have hp : ((s.w.completed ++ [((finishSeg cfg s.w).active, (finishSeg cfg s.w).bytes)]).map (fun c => c.1.seq)).Pairwise (· < ·) := by
    have := h.inv.segs
    simpa [e2] using this
  have hk := keep_suffix hsuf hp
  rw [← hl] at hk
  have hm : recordSealed s.mem (sealB s) = s.sealed ++ (sealB s).toList := by
    rw [h.mem]
    cases e : sealB s with
    | none => simp [recordSealed]
    | some b =>
      refine upsert_new (fun x hx => ?_)
      rw [h.sealed] at hx
      obtain ⟨c, hc, ec⟩ := List.mem_filterMap.1 hx
      have a1 := bl_seq (boundsOf_eq c.1 ▸ ec)
      rw [sealB_eq h, boundsOf_eq] at e
      have a2 := bl_seq e
      have := (List.pairwise_append.1 h.inv.segs).2.2 c.1.seq (List.mem_map_of_mem hc) _ (List.mem_singleton.2 rfl)
      omega
  refine ⟨hk, ?_, ?_, rfl, hi, fun hd c hc => ?_⟩
  · show none = boundsOf (rotate cfg s.w).active
    unfold rotate
    rw [retain_active]
    rfl
  · show keepB _ _ = keepB _ _
    rw [hm]
  · rcases List.mem_append.1 (hsuf.subset hc) with hc | hc
    · exact h.disk hd c hc
    · cases List.mem_singleton.1 hc
      exact finish_disk hd s.w

theorem al_maybeRotate {cfg : Cfg} {s : S F} (h : Al cfg s) : Al cfg (smaybeRotate cfg s) := by
  unfold smaybeRotate
  split
  · exact h
  · exact al_rotate h

theorem maybeRotate_w (cfg : Cfg) (s : S F) : (smaybeRotate cfg s).w = maybeRotate cfg s.w := by
  unfold smaybeRotate maybeRotate
  split <;> rfl

theorem flushIf_same (b : Bool) (s : W F) : (flushIf b s).active.all = s.active.all ∧ (flushIf b s).active.seq = s.active.seq ∧
    (flushIf b s).completed = s.completed := by
  unfold flushIf
  split
  · exact ⟨seg_flush_all _, rfl, rfl⟩
  · exact ⟨rfl, rfl, rfl⟩

theorem al_writeOut {cfg : Cfg} {s : S F} (h : Al cfg s) (size : F → Nat) (c : Cmd F) : Al cfg (swriteOut cfg size s c) := by
  apply al_maybeRotate
  obtain ⟨e1, e2, e3⟩ := flushIf_same (cfg.flushZero || c.elapsed) (writeFrames size s.w c.frames)
  have ha : (writeFrames size s.w c.frames).active.all = s.w.active.all ++ number s.w.next c.frames := by
    simp [writeFrames, Seg.all]
  refine ⟨?_, ?_, h.mem, rfl, inv_flushIf (inv_writeFrames h.inv size _) _, ?_⟩
  · show s.sealed = (flushIf _ _).completed.filterMap _
    rw [e3]; exact h.sealed
  · show touchAll s c.frames = boundsOf (flushIf _ _).active
    unfold touchAll
    rw [h.active, boundsOf_eq, boundsOf_eq, e1, e2, ha, touch_all]
    rfl
  · intro hd d hdm
    rw [show (W.completed _) = _ from e3] at hdm
    exact h.disk hd d hdm

theorem writeOut_w (cfg : Cfg) (size : F → Nat) (s : S F) (c : Cmd F) : (swriteOut cfg size s c).w = writeOut cfg size s.w c :=
  maybeRotate_w cfg _

theorem maybeSync_same (cfg : Cfg) (s : W F) : (maybeSync cfg s).active.all = s.active.all ∧
    (maybeSync cfg s).active.seq = s.active.seq ∧ (maybeSync cfg s).completed = s.completed ∧ (maybeSync cfg s).next = s.next ∧
    (maybeSync cfg s).nextSeg = s.nextSeg := by
  have : ∀ t : W F, (syncNow t).active.all = t.active.all ∧ (syncNow t).active.seq = t.active.seq ∧
      (syncNow t).completed = t.completed ∧ (syncNow t).next = t.next ∧ (syncNow t).nextSeg = t.nextSeg :=
    fun t => ⟨seg_fsync_all _, rfl, rfl, rfl, rfl⟩
  unfold maybeSync
  split
  · exact this s
  · split
    · exact this s
    · exact ⟨rfl, rfl, rfl, rfl, rfl⟩
  · exact ⟨rfl, rfl, rfl, rfl, rfl⟩
  · exact ⟨rfl, rfl, rfl, rfl, rfl⟩

theorem al_enqueue {cfg : Cfg} {s : S F} (h : Al cfg s) (size : F → Nat) (c : Cmd F) : Al cfg (senqueue cfg size s c) := by
  unfold senqueue
  split
  · rename_i e
    unfold enqueue
    rw [if_pos e]
    exact h.same rfl rfl rfl rfl rfl
  · rename_i e
    have hw := al_writeOut h size c
    have ew := writeOut_w cfg size s c
    unfold enqueue
    rw [if_neg e]
    split
    · exact hw.same (by rw [ew]) (by rw [ew]) (by rw [ew]) (by rw [ew]) (by rw [ew])
    · obtain ⟨a1, a2, a3, a4, a5⟩ := maybeSync_same cfg (writeOut cfg size s.w c)
      have : ∀ (o : Option Nat) (t : W F), (recordCommit o t).active = t.active ∧ (recordCommit o t).completed = t.completed ∧
          (recordCommit o t).next = t.next ∧ (recordCommit o t).nextSeg = t.nextSeg := by
        intro o t
        unfold recordCommit
        split <;> exact ⟨rfl, rfl, rfl, rfl⟩
      obtain ⟨b1, b2, b3, b4⟩ := this c.commit (maybeSync cfg (writeOut cfg size s.w c))
      exact hw.same (by rw [ew, b1, a1]) (by rw [ew, b1, a2]) (by rw [ew, b2, a3]) (by rw [ew, b3, a4]) (by rw [ew, b4, a5])

theorem al_enqueueAll {cfg : Cfg} (size : F → Nat) : ∀ (cs : List (Cmd F)) (s : S F), Al cfg s → Al cfg (senqueueAll cfg size s cs)
  | [], _, h => h
  | c :: cs, s, h => by
    unfold senqueueAll
    split
    · exact al_enqueue h size c
    · exact al_enqueueAll size cs _ (al_enqueue h size c)

theorem al_request {cfg : Cfg} {s : S F} (h : Al cfg s) : Al cfg (srequest cfg s) := by
  unfold srequest
  split
  · exact h
  · exact al_rotate h

theorem request_w (cfg : Cfg) (s : S F) : (srequest cfg s).w = rotationRequest cfg s.w := by
  unfold srequest rotationRequest
  split <;> rfl

theorem al_tick {cfg : Cfg} {s : S F} (h : Al cfg s) (r y : Bool) :
    Al cfg { (if r then srequest cfg s else s) with w := tick cfg s.w r y } := by
  have h1 : Al cfg (if r then srequest cfg s else s) := by
    split
    · exact al_request h
    · exact h
  have e : (if r then rotationRequest cfg s.w else s.w) = (if r then srequest cfg s else s).w := by
    split
    · exact (request_w cfg s).symm
    · rfl
  have : tick cfg s.w r y = timedSync y (if r then srequest cfg s else s).w := by rw [← e]; rfl
  rw [this]
  generalize (if r then srequest cfg s else s) = t at h1
  unfold timedSync
  split
  · exact h1.same (seg_fsync_all _) rfl rfl rfl rfl
  · exact h1.same rfl rfl rfl rfl rfl

/-- In a list of segments with different numbers, the bounds are found by number. -/
theorem find_bounds : ∀ (l : List (Seg F × Nat)), (l.map (fun c => c.1.seq)).Pairwise (· < ·) → ∀ c ∈ l,
    (l.filterMap (fun c => boundsOf c.1)).find? (fun b => b.seq == c.1.seq) = boundsOf c.1
  | [], _, _, h => by cases h
  | d :: l, hp, c, hc => by
    rw [List.map_cons, List.pairwise_cons] at hp
    rcases List.mem_cons.1 hc with rfl | hc
    · rw [List.filterMap_cons]
      cases e : boundsOf c.1 with
      | none =>
        simp only []
        rw [List.find?_eq_none]
        intro b hb
        obtain ⟨x, hx, ex⟩ := List.mem_filterMap.1 hb
        have a1 := bl_seq (boundsOf_eq x.1 ▸ ex)
        have := hp.1 x.1.seq (List.mem_map_of_mem hx)
        have hne : b.seq ≠ c.1.seq := by omega
        simpa using hne
      | some b =>
        simp only []
        rw [List.find?_cons_of_pos]
        have a1 := bl_seq (boundsOf_eq c.1 ▸ e)
        simpa using a1
    · have ih := find_bounds l hp.2 c hc
      have hlt := hp.1 c.1.seq (List.mem_map_of_mem hc)
      rw [List.filterMap_cons]
      cases e : boundsOf d.1 with
      | none => exact ih
      | some b =>
        simp only []
        rw [List.find?_cons_of_neg, ih]
        have a1 := bl_seq (boundsOf_eq d.1 ▸ e)
        have hne : b.seq ≠ c.1.seq := by omega
        simpa using hne

theorem rehydrate_eq {cfg : Cfg} {s : S F} (hdisk : SealedOnDisk s.w)
    (hm : ∀ c ∈ s.w.completed, s.mem.find? (fun b => b.seq == c.1.seq) = boundsOf c.1 ∨
      s.mem.find? (fun b => b.seq == c.1.seq) = none) (size : F → Nat) :
    rehydrate cfg s = (((s.w.completed.map Prod.fst).filter (fun g => decide (s.w.pruned ≤ g.seq))).map
      (fun g => (g.lose, total size (g.synced.map Prod.snd)))).filterMap (fun c => boundsOf c.1) := by
  have hsy : ∀ g ∈ (s.w.completed.map Prod.fst).filter (fun g => decide (s.w.pruned ≤ g.seq)),
      ∃ c ∈ s.w.completed, c.1 = g ∧ g.synced = g.all := by
    intro g hg
    obtain ⟨c, hc, rfl⟩ := List.mem_map.1 (List.mem_filter.1 hg).1
    exact ⟨c, hc, rfl, clean_all (hdisk c hc)⟩
  unfold rehydrate
  rw [List.filterMap_map]
  generalize (s.w.completed.map Prod.fst).filter (fun g => decide (s.w.pruned ≤ g.seq)) = l at hsy
  induction l with
  | nil => rfl
  | cons g l ih =>
    have ih := ih (fun x hx => hsy x (List.mem_cons_of_mem _ hx))
    obtain ⟨c, hc, rfl, ea⟩ := hsy g (List.mem_cons_self ..)
    have hb : boundsOf c.1.lose = boundsOf c.1 := by
      rw [boundsOf_eq, boundsOf_eq, lose_all, ea]
      rfl
    rw [List.filterMap_cons, Function.comp]
    simp only [hb]
    rw [List.filter_cons]
    cases e : c.1.synced with
    | nil =>
      have : boundsOf c.1 = none := by rw [boundsOf_eq, ← ea, e]; rfl
      rw [this]
      simpa using ih
    | cons f fs =>
      simp only [List.isEmpty_cons, Bool.not_false, if_true]
      rw [List.filterMap_cons, ih]
      have hfile : fileBounds c.1.seq c.1.synced = boundsOf c.1 := by rw [fileBounds_eq, boundsOf_eq, ea]
      have hx : lookup cfg s.mem c.1 = boundsOf c.1 := by
        unfold lookup
        rw [hfile]
        rcases hm c hc with hf | hf <;> rw [hf] <;> cases cfg.stateFile <;> cases boundsOf c.1 <;> rfl
      rw [hx]

/-- A start on synced segments, with a state file that may lack some of them. -/
theorem al_reopenWith {cfg : Cfg} {s : S F} (hinv : Inv (bare cfg) s.w) (hdisk : SealedOnDisk s.w)
    (hm : ∀ c ∈ s.w.completed, s.mem.find? (fun b => b.seq == c.1.seq) = boundsOf c.1 ∨
      s.mem.find? (fun b => b.seq == c.1.seq) = none) (size : F → Nat) (stored : Nat) :
    Al cfg { sreopen cfg size s with w := reopenStored cfg size stored s.w } := by
  have hi := bare_reopenStored hinv size stored
  have hre := rehydrate_eq hdisk hm size (cfg := cfg)
  have hsuf : (reopen cfg size s.w).completed <:+
      ((s.w.completed.map Prod.fst).filter (fun g => decide (s.w.pruned ≤ g.seq))).map
        (fun g => (g.lose, total size (g.synced.map Prod.snd))) := by
    unfold reopen
    exact retain_suffix cfg _
  have hp : ((((s.w.completed.map Prod.fst).filter (fun g => decide (s.w.pruned ≤ g.seq))).map
      (fun g => (g.lose, total size (g.synced.map Prod.snd)))).map (fun c => c.1.seq)).Pairwise (· < ·) := by
    have h0 : (s.w.completed.map (fun c => c.1.seq)).Pairwise (· < ·) := (List.pairwise_append.1 hinv.segs).1
    refine List.Pairwise.sublist ?_ h0
    have := (List.filter_sublist (p := fun g : Seg F => decide (s.w.pruned ≤ g.seq)) (l := s.w.completed.map Prod.fst)).map
      (fun g : Seg F => g.seq)
    simpa [List.map_map, Function.comp_def, Seg.lose] using this
  have hk := keep_suffix hsuf hp
  rw [← hre] at hk
  refine ⟨hk, ?_, rfl, rfl, hi, fun _ c hc => ?_⟩
  · show fileBounds _ _ = boundsOf (reopen cfg size s.w).active
    have : (reopen cfg size s.w).active = s.w.active.lose := by unfold reopen; rw [retain_active]
    rw [this, fileBounds_eq, boundsOf_eq, lose_all]
    rfl
  · obtain ⟨g, _, rfl⟩ := List.mem_map.1 (hsuf.subset hc)
    exact ⟨rfl, rfl⟩

theorem al_reopen {cfg : Cfg} (hd : cfg.sync ≠ .disabled) {s : S F} (h : Al cfg s) (size : F → Nat) :
    Al cfg (sreopen cfg size s) := by
  have hf := find_bounds s.w.completed (List.pairwise_append.1 h.inv.segs).1
  rw [← h.sealed, ← h.mem] at hf
  have := al_reopenWith h.inv (h.disk hd) (fun c hc => Or.inl (hf c hc)) size s.w.next
  rw [← reopen_stored] at this
  exact this

theorem al_step {cfg : Cfg} {s : S F} (h : Al cfg s) (size : F → Nat) (op : Op F)
    (ho : op = .powerLoss → cfg.sync ≠ .disabled) : Al cfg (sstep cfg size s op) := by
  unfold sstep
  split
  · cases op <;> first | exact h | exact al_reopen (ho rfl) h size
  · cases op with
    | batch cs => exact al_enqueueAll size cs s h
    | rotate => exact al_request h
    | tick r y => exact al_tick h r y
    | shutdown =>
      refine ⟨?_, ?_, h.mem, h.memActive, (inv_finish h.inv : Inv (bare cfg) (finishSeg (bare cfg) s.w)), ?_⟩
      · show s.sealed = (finishSeg cfg s.w).completed.filterMap _
        rw [(finish_all cfg s.w).2.2]; exact h.sealed
      · show s.active = boundsOf (finishSeg cfg s.w).active
        rw [boundsOf_eq, (finish_all cfg s.w).1, (finish_all cfg s.w).2.1]; exact h.active
      · intro hd
        exact sealed_finish (h.disk hd)
    | drain => exact h.same (seg_flush_all _) rfl rfl rfl rfl
    | writeback => exact h.same (seg_fsync_all _) rfl rfl rfl rfl
    | prune n => exact h.same rfl rfl rfl rfl rfl
    | powerLoss => exact al_reopen (ho rfl) h size

theorem al_run {cfg : Cfg} (size : F → Nat) : ∀ (ops : List (Op F)) (s : S F), Al cfg s →
    (Op.powerLoss ∈ ops → cfg.sync ≠ .disabled) → Al cfg (srun cfg size s ops)
  | [], _, h, _ => h
  | op :: ops, _, h, ho => al_run size ops _ (al_step h size op (fun e => ho (e ▸ List.mem_cons_self ..)))
      (fun e => ho (List.mem_cons_of_mem _ e))

theorem writeOut_suffix (cfg : Cfg) (size : F → Nat) (s : W F) (c : Cmd F) :
    ∃ g, g.1.seq = s.active.seq ∧ (writeOut cfg size s c).completed <:+ s.completed ++ [g] ∨
      (writeOut cfg size s c).completed = s.completed := by
  unfold writeOut maybeRotate
  obtain ⟨_, e2, e3⟩ := flushIf_same (cfg.flushZero || c.elapsed) (writeFrames size s c.frames)
  generalize flushIf (cfg.flushZero || c.elapsed) (writeFrames size s c.frames) = t at e2 e3
  split
  · exact ⟨(t.active, 0), Or.inr e3⟩
  · obtain ⟨_, f2, f3⟩ := finish_all cfg t
    refine ⟨((finishSeg cfg t).active, (finishSeg cfg t).bytes), Or.inl ⟨f2.trans e2, ?_⟩⟩
    have := retain_suffix cfg (openNext (finishSeg cfg t))
    have e4 : (openNext (finishSeg cfg t)).completed = s.completed ++ [((finishSeg cfg t).active, (finishSeg cfg t).bytes)] := by
      simp only [openNext, f3]
      rw [e3]
      rfl
    rw [e4] at this
    exact this

theorem al_cut {cfg : Cfg} (hd : cfg.sync ≠ .disabled) {s : S F} (h : Al cfg s) (size : F → Nat) (c : Cmd F) (y : Bool) :
    Al cfg (scut cfg size s c y) := by
  unfold scut cutCommand
  split
  · exact h
  · have hw := al_writeOut h size c
    have ew := writeOut_w cfg size s c
    have hf := find_bounds s.w.completed (List.pairwise_append.1 h.inv.segs).1
    rw [← h.sealed, ← h.mem] at hf
    have hinv : Inv (bare cfg) (writeOut cfg size s.w c) := ew ▸ hw.inv
    have hdisk : SealedOnDisk (writeOut cfg size s.w c) := ew ▸ hw.disk hd
    have hm : ∀ d ∈ (writeOut cfg size s.w c).completed, s.mem.find? (fun b => b.seq == d.1.seq) = boundsOf d.1 ∨
        s.mem.find? (fun b => b.seq == d.1.seq) = none := by
      intro d hdm
      obtain ⟨g, hg | hg⟩ := writeOut_suffix cfg size s.w c
      · rcases List.mem_append.1 (hg.2.subset hdm) with hdm | hdm
        · exact Or.inl (hf d hdm)
        · cases List.mem_singleton.1 hdm
          refine Or.inr ?_
          rw [List.find?_eq_none]
          intro b hb
          rw [h.mem, h.sealed] at hb
          obtain ⟨x, hx, ex⟩ := List.mem_filterMap.1 hb
          have a1 := bl_seq (boundsOf_eq x.1 ▸ ex)
          have := (List.pairwise_append.1 h.inv.segs).2.2 x.1.seq (List.mem_map_of_mem hx) _ (List.mem_singleton.2 rfl)
          have hne : b.seq ≠ d.1.seq := by rw [hg.1]; omega
          simpa using hne
      · exact Or.inl (hf d (hg ▸ hdm))
    refine al_reopenWith (s := { swriteOut cfg size s c with
      w := { (if y then syncNow (writeOut cfg size s.w c) else writeOut cfg size s.w c) with commit := s.w.commit }
      mem := s.mem }) ?_ ?_ ?_ size s.w.next
    · split
      · exact (inv_syncNow hinv).same rfl rfl rfl rfl rfl
      · exact hinv.same rfl rfl rfl rfl rfl
    · split <;> exact hdisk
    · split <;> exact hm

theorem al_crun {cfg : Cfg} (size : F → Nat) : ∀ (ops : List (COp F)) (s : S F), Al cfg s →
    (∀ o ∈ ops, (∃ c y, o = .cut c y) ∨ o = .op .powerLoss → cfg.sync ≠ .disabled) → Al cfg (scrun cfg size s ops)
  | [], _, h, _ => h
  | .op o :: ops, s, h, ho =>
    al_crun size ops _ (al_step h size o (fun e => ho _ (List.mem_cons_self ..) (Or.inr (by rw [e]))))
      (fun x hx => ho x (List.mem_cons_of_mem _ hx))
  | .cut c y :: ops, s, h, ho => by
    refine al_crun size ops (scstep cfg size s (.cut c y)) ?_ (fun x hx => ho x (List.mem_cons_of_mem _ hx))
    show Al cfg (if s.w.dead then s else scut cfg size s c y)
    split
    · exact h
    · exact al_cut (ho _ (List.mem_cons_self ..) (Or.inl ⟨c, y, rfl⟩)) h size c y

/-- The frames are those of the writer of `WalWriter.lean`. -/
theorem enqueue_w (cfg : Cfg) (size : F → Nat) (s : S F) (c : Cmd F) : (senqueue cfg size s c).w = (enqueue cfg size s.w c).1 := by
  unfold senqueue
  split <;> rfl

theorem enqueueAll_w (cfg : Cfg) (size : F → Nat) : ∀ (cs : List (Cmd F)) (s : S F),
    (senqueueAll cfg size s cs).w = (enqueueAll cfg size s.w cs).1
  | [], _ => rfl
  | c :: cs, s => by
    unfold senqueueAll enqueueAll
    rcases e : enqueue cfg size s.w c with ⟨t, a⟩
    cases a with
    | none =>
      simp only [Option.isNone_none, if_true]
      rw [enqueue_w, e]
    | some a =>
      simp only [Option.isNone_some, Bool.false_eq_true, if_false]
      rw [enqueueAll_w cfg size cs, enqueue_w, e]

theorem step_w (cfg : Cfg) (size : F → Nat) (s : S F) (op : Op F) : (sstep cfg size s op).w = (step cfg size s.w op).1 := by
  unfold sstep step
  split
  · cases op <;> rfl
  · cases op with
    | batch cs => exact enqueueAll_w cfg size cs s
    | rotate => exact request_w cfg s
    | _ => rfl

theorem run_w (cfg : Cfg) (size : F → Nat) : ∀ (ops : List (Op F)) (s : S F), (srun cfg size s ops).w = (run cfg size s.w ops).1
  | [], _ => rfl
  | op :: ops, s => by
    show (srun cfg size (sstep cfg size s op) ops).w = (run cfg size (step cfg size s.w op).1 ops).1
    rw [run_w cfg size ops, step_w]

theorem retain_pruned (cfg : Cfg) (s : W F) : (retain cfg s).pruned = s.pruned := by
  unfold retain
  split <;> rfl

theorem finish_pruned (cfg : Cfg) (s : W F) : (finishSeg cfg s).pruned = s.pruned := by
  unfold finishSeg flushIf
  split <;> rfl

theorem rotate_pruned (cfg : Cfg) (s : W F) : (rotate cfg s).pruned = s.pruned := by
  unfold rotate
  rw [retain_pruned]
  exact finish_pruned cfg s

theorem request_pruned (cfg : Cfg) (s : W F) : (rotationRequest cfg s).pruned = s.pruned := by
  unfold rotationRequest
  split
  · rfl
  · exact rotate_pruned cfg s

theorem writeOut_pruned (cfg : Cfg) (size : F → Nat) (s : W F) (c : Cmd F) : (writeOut cfg size s c).pruned = s.pruned := by
  unfold writeOut maybeRotate
  split
  · unfold flushIf; split <;> rfl
  · rw [rotate_pruned]; unfold flushIf; split <;> rfl

theorem enqueue_pruned (cfg : Cfg) (size : F → Nat) (s : W F) (c : Cmd F) : (enqueue cfg size s c).1.pruned = s.pruned := by
  unfold enqueue
  split
  · rfl
  · split
    · exact writeOut_pruned cfg size s c
    · rw [← writeOut_pruned cfg size s c]
      generalize writeOut cfg size s c = t
      unfold recordCommit maybeSync
      split <;> split <;> first | rfl | (split <;> rfl)

theorem enqueueAll_pruned (cfg : Cfg) (size : F → Nat) : ∀ (cs : List (Cmd F)) (s : W F),
    (enqueueAll cfg size s cs).1.pruned = s.pruned
  | [], _ => rfl
  | c :: cs, s => by
    have h := enqueue_pruned cfg size s c
    unfold enqueueAll
    rcases e : enqueue cfg size s c with ⟨t, a⟩
    rw [e] at h
    cases a with
    | none => exact h
    | some a => exact (enqueueAll_pruned cfg size cs t).trans h

theorem step_pruned (cfg : Cfg) (size : F → Nat) (s : W F) (op : Op F) (ho : ∀ n, op ≠ .prune n) :
    (step cfg size s op).1.pruned = s.pruned := by
  have hr : (reopen cfg size s).pruned = s.pruned := by
    unfold reopen
    rw [retain_pruned]
  unfold step
  split
  · cases op <;> first | rfl | exact hr
  · cases op with
    | batch cs => exact enqueueAll_pruned cfg size cs s
    | rotate => exact request_pruned cfg s
    | tick r y =>
      show (timedSync y (if r then rotationRequest cfg s else s)).pruned = s.pruned
      have h1 : (if r then rotationRequest cfg s else s).pruned = s.pruned := by
        split
        · exact request_pruned cfg s
        · rfl
      generalize (if r then rotationRequest cfg s else s) = t at h1
      unfold timedSync
      split
      · exact h1
      · exact h1
    | shutdown => exact finish_pruned cfg s
    | drain => rfl
    | writeback => rfl
    | prune n => exact absurd rfl (ho n)
    | powerLoss => exact hr

theorem run_pruned (cfg : Cfg) (size : F → Nat) : ∀ (ops : List (Op F)) (s : W F), (∀ n, Op.prune n ∉ ops) →
    (run cfg size s ops).1.pruned = s.pruned
  | [], _, _ => rfl
  | op :: ops, s, h => by
    show (run cfg size (step cfg size s op).1 ops).1.pruned = s.pruned
    rw [run_pruned cfg size ops _ (fun n hn => h n (List.mem_cons_of_mem _ hn)),
      step_pruned cfg size s op (fun n e => h n (e ▸ List.mem_cons_self ..))]

theorem crun_w (cfg : Cfg) (size : F → Nat) : ∀ (ops : List (COp F)) (s : S F), (scrun cfg size s ops).w = crun cfg size s.w ops
  | [], _ => rfl
  | o :: ops, s => by
    show (scrun cfg size (scstep cfg size s o) ops).w = crun cfg size (cstep cfg size s.w o) ops
    rw [crun_w cfg size ops]
    congr 1
    cases o with
    | op o => exact step_w cfg size s o
    | cut c y =>
      show (if s.w.dead then s else scut cfg size s c y).w = if s.w.dead then s.w else cutCommand cfg size s.w c y
      split
      · rfl
      · unfold scut
        split
        · rename_i e
          simp [cutCommand, e]
        · rfl

theorem cstep_pruned (cfg : Cfg) (size : F → Nat) (s : W F) (o : COp F) (ho : ∀ n, o ≠ .op (.prune n)) :
    (cstep cfg size s o).pruned = s.pruned := by
  cases o with
  | op o => exact step_pruned cfg size s o (fun n e => ho n (by rw [e]))
  | cut c y =>
    show (if s.dead then s else cutCommand cfg size s c y).pruned = s.pruned
    split
    · rfl
    · unfold cutCommand
      split
      · rfl
      · have hr : ∀ t : W F, (reopen cfg size t).pruned = t.pruned := by
          intro t
          unfold reopen
          rw [retain_pruned]
        show (reopen cfg size _).pruned = s.pruned
        rw [hr]
        split
        · exact writeOut_pruned cfg size s c
        · exact writeOut_pruned cfg size s c

theorem crun_pruned (cfg : Cfg) (size : F → Nat) : ∀ (ops : List (COp F)) (s : W F), Unpruned ops →
    (crun cfg size s ops).pruned = s.pruned
  | [], _, _ => rfl
  | op :: ops, s, h => by
    show (crun cfg size (cstep cfg size s op) ops).pruned = s.pruned
    rw [crun_pruned cfg size ops _ (fun n hn => h n (List.mem_cons_of_mem _ hn)),
      cstep_pruned cfg size s op (fun n e => h n (e ▸ List.mem_cons_self ..))]

/-- A frame of a segment with ascending numbers lies between its bounds. -/
theorem within {g : Seg F} (h : Asc g.all) {f : Nat × F} (hf : f ∈ g.all) :
    ∃ b, boundsOf g = some b ∧ b.seq = g.seq ∧ b.first ≤ f.1 ∧ f.1 ≤ b.last := by
  rw [boundsOf_eq]
  revert h hf
  generalize g.all = l
  intro h hf
  cases l with
  | nil => cases hf
  | cons a l =>
    refine ⟨_, bl_cons _ a l, rfl, ?_, ?_⟩
    · rcases List.mem_cons.1 hf with rfl | hf
      · exact Nat.le_refl _
      · unfold Asc at h
        rw [List.map_cons, List.pairwise_cons] at h
        exact Nat.le_of_lt (h.1 _ (List.mem_map_of_mem hf))
    · show f.1 ≤ (l.getLast?.getD a).1
      rcases List.eq_nil_or_concat l with rfl | ⟨m, z, e⟩
      · cases List.mem_singleton.1 hf
        exact Nat.le_refl _
      · rw [List.concat_eq_append] at e
        subst e
        simp only [List.getLast?_append, List.getLast?_singleton, Option.some_or, Option.getD_some]
        unfold Asc at h
        rw [← List.cons_append] at h hf
        rw [List.map_append, List.pairwise_append] at h
        rcases List.mem_append.1 hf with hf | hf
        · exact Nat.le_of_lt (h.2.2 _ (List.mem_map_of_mem hf) z.1 (by simp))
        · cases List.mem_singleton.1 hf
          exact Nat.le_refl _

end Tonbo.Lemmas.WalSnap
