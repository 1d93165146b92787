import Verif.Lemmas.LogLife

/-!
# The files of a log: what a crash leaves, what is opened, what is read
-/

namespace Tonbo.Lemmas.LogLife
open Tonbo.Model Tonbo.Model.Wal Tonbo.Model.LogLife Tonbo.Spec Tonbo.Spec.Wal Tonbo.Spec.Life
open Tonbo.Lemmas.WalRules Tonbo.Lemmas.WalTail Tonbo.Lemmas.FrameWalk

variable {A : Type}

/-- A frame as it is on disk. -/
def raw (p : Nat × Frame) : RawFrame := (p.2.type, BitVec.ofNat 64 p.1, p.2.payload)

/-- A frame as the writer knows it. -/
def back (f : RawFrame) : Nat × Frame := (f.2.1.toNat, ⟨f.1, f.2.2⟩)

def frameOf (f : RawFrame) : Frame := ⟨f.1, f.2.2⟩

theorem frameOf_raw (l : List (Nat × Frame)) : (l.map raw).map frameOf = l.map Prod.snd := by
  rw [List.map_map]
  rfl

theorem back_frame (l : List RawFrame) : (l.map back).map Prod.snd = l.map frameOf := by
  rw [List.map_map]
  rfl

theorem bytesOf_eq : ∀ l : List (Nat × Frame), bytesOf l = logBytes (l.map raw)
  | [] => rfl
  | p :: l => by
    have := bytesOf_eq l
    unfold bytesOf at *
    rw [List.flatMap_cons, this]
    rfl

/-- A frame that can be read back. -/
def Fine (c : Ipc (Batch A)) (f : Frame) : Prop :=
  f.payload.length < 4294967296 ∧ (f.type = .txnAppend ∨ f.type = .txnCommit → 8 ≤ f.payload.length) ∧
    ∃ e, decodeFrame c f.type f.payload = .ok e

def GoodRaw (c : Ipc (Batch A)) (f : RawFrame) : Prop := f.2.1 ≠ 0 ∧ Fine c (frameOf f)

theorem good_wf {c : Ipc (Batch A)} {fs : List RawFrame} (h : ∀ f ∈ fs, GoodRaw c f) : WellFormed fs :=
  fun f hf => ⟨(h f hf).1, (h f hf).2.1⟩

theorem good_ids {c : Ipc (Batch A)} {fs : List RawFrame} (h : ∀ f ∈ fs, GoodRaw c f) : IdsFit fs :=
  fun f hf => (h f hf).2.2.1

/-- The files are those of a log with the frames `L`, all but the last complete. -/
def Image (c : Ipc (Batch A)) (files : List Seg) (L : List Frame) : Prop :=
  (files = [] ∧ L = []) ∨
    ∃ (segs : List SegLog) (last : SegLog) (n : Nat), files = segs.map SegLog.file ++ [last.cut n] ∧
      (∀ s ∈ segs ++ [last], ∀ f ∈ s.frames, GoodRaw c f) ∧
      L = (segs.flatMap (·.frames) ++ framesWithin n last.frames).map frameOf ∧
      (segs.map (·.num) ++ [last.num]).Pairwise (· < ·)

theorem image_sorted {c : Ipc (Batch A)} {files : List Seg} {L : List Frame} (h : Image c files L) :
    (files.map (·.seq)).Pairwise (· < ·) := by
  rcases h with ⟨rfl, _⟩ | ⟨segs, last, n, rfl, _, _, h⟩
  · exact List.Pairwise.nil
  · have : (segs.map SegLog.file ++ [last.cut n]).map (·.seq) = segs.map (·.num) ++ [last.num] := by
      simp [SegLog.file, SegLog.cut]
    rw [this]
    exact h

/-! ## Reading -/

/-- What a frame is read as. -/
def ev (c : Ipc (Batch A)) (f : Frame) : Event A :=
  match decodeFrame c f.type f.payload with
  | .ok e => e
  | .error _ => .begin 0

theorem ev_ok {c : Ipc (Batch A)} {f : Frame} {e : Event A} (h : decodeFrame c f.type f.payload = .ok e) : ev c f = e := by
  unfold ev
  rw [h]

theorem scan_image {c : Ipc (Batch A)} {files : List Seg} {L : List Frame} (h : Image c files L) :
    scanWithFloor c none files = .ok (L.map (ev c)) := by
  rcases h with ⟨rfl, rfl⟩ | ⟨segs, last, n, rfl, hg, rfl, _⟩
  · rfl
  · rw [Props.C28.scan_of_torn_log c none (fun f => ev c (frameOf f)) segs last n (fun s hs => good_wf (hg s hs))]
    · have : framesAbove none segs = segs.flatMap (·.frames) := by simp [framesAbove, aboveFloor]
      rw [this, List.map_map]
      rfl
    · intro f hf
      simp only [framesAbove, aboveFloor, List.mem_flatMap] at hf
      obtain ⟨s, hs, hf⟩ := hf
      obtain ⟨e, he⟩ := (hg s hs f hf).2.2.2
      have h1 : decodeFrame c f.1 f.2.2 = .ok e := he
      rw [h1, ev_ok (f := frameOf f) he]

theorem recover_image {K R : Type} [LinearOrder K] {c : Ipc (Batch A)} {files : List Seg} {L : List Frame} (h : Image c files L)
    (ext : R → Option K) (sch : Sch A K R) (pol : Nat → Bool) (cap : Nat) (hcap : 0 < cap) (hint : Option Nat)
    (hg : GoodLog ext sch (L.map (ev c))) :
    ∃ r, recoverDb ext sch pol c cap none hint files = some r ∧ Props.C28.Holds r.mem (logWrites ext sch (L.map (ev c))) := by
  obtain ⟨t, last, hr⟩ := Props.C28.good_log_replays ext sch pol cap hcap (L.map (ev c)) hg
  refine ⟨⟨t, recoveredClock last hint, initialRange (L.map (ev c)).isEmpty none⟩, ?_, ?_⟩
  · unfold recoverDb
    have : scanWithFloor c (Option.map (fun f : SegRef => (⟨f.seq, f.first⟩ : Floor)) none) files = .ok (L.map (ev c)) :=
      scan_image h
    rw [this]
    simp only [hr]
  · exact (Props.C28.replay_applies_exactly_the_committed ext sch pol cap _ t last hr).1

/-! ## Opening -/

theorem framesIn_log {c : Ipc (Batch A)} {fs : List RawFrame} (h : ∀ f ∈ fs, GoodRaw c f) : framesIn (logBytes fs) = fs.map back := by
  unfold framesIn
  rw [Props.C25.log_round_trip_partial fs (good_wf h)]
  rfl

theorem back_pos {c : Ipc (Batch A)} {f : RawFrame} (h : GoodRaw c f) : 1 ≤ (back f).1 := by
  have := h.1
  simp only [back]
  rcases Nat.eq_zero_or_pos f.2.1.toNat with h0 | h0
  · exact absurd (BitVec.eq_of_toNat_eq (by simpa using h0)) this
  · exact h0

theorem resume_frame (tail : Option Tail) (st : Option WState) : 1 ≤ (resume tail st).nextFrame := by
  simp only [resume]
  exact Nat.le_trans (Nat.le_max_right _ _) (Nat.le_max_right _ _)

theorem resume_segment (tail : Option Tail) (st : Option WState) : (match tail with | some t => t.active.seq | none => 0) <
    (resume tail st).nextSegment := by
  simp only [resume]
  cases h : st.bind (·.lastSegment) with
  | none => exact Nat.lt_succ_self _
  | some s => exact Nat.lt_of_lt_of_le (Nat.lt_succ_self _) (Nat.le_max_left _ _)

theorem sure_synced (d : Crash) (n : Nat) (l : List (Nat × Frame)) : Sure d ⟨n, l, [], []⟩ := by
  cases d <;> simp [Sure, safe, WalW.Seg.all]

theorem open_eq {cfg : WalW.Cfg} (hr : cfg.retention = none) (st : Option WState) {files : List Seg} {tail : Option Tail}
    (h : tailMetadata files = .ok tail) : openWriter cfg st files = .ok ⟨openActive tail, openBytes tail, 0,
      (resume tail st).nextFrame, (resume tail st).nextSegment, openCompleted tail, st.bind (·.lastCommit), 0, false⟩ := by
  unfold openWriter
  rw [h]
  simp only
  rw [WalW.retain_none hr]

theorem open_image {c : Ipc (Batch A)} {files : List Seg} {L : List Frame} (h : Image c files L) (d : Crash) {cfg : WalW.Cfg}
    (hr : cfg.retention = none) (st : Option WState) (full : Prop) :
    ∃ w, openWriter cfg st files = .ok w ∧ Alive d full L w [] := by
  rcases h with ⟨rfl, rfl⟩ | ⟨segs, last, n, rfl, hg, rfl, ho⟩
  · refine ⟨_, open_eq hr st (tail := none) rfl, ?_⟩
    · exact ⟨⟨rfl, rfl, (fun c hc => by cases hc), (fun p hp => by cases hp), resume_frame none st, by simp [openCompleted, openActive],
        resume_segment none st, List.nil_prefix⟩, rfl, fun _ => sure_new d 0⟩
  · have hl := hg last (by simp)
    have hin : ∀ f ∈ framesWithin n last.frames, GoodRaw c f := fun f hf => hl f ((framesWithin_prefix n _).subset hf)
    have ht := tail_of segs last n (good_wf hl) (good_ids hl)
    generalize htail : (⟨⟨last.num, last.path, logBytes (framesWithin n last.frames)⟩, segs.map SegLog.file,
        (framesWithin n last.frames).getLast?.map (·.2.1.toNat), (framesWithin n last.frames).getLast?.bind idOf⟩ : Tail) = tl at ht
    refine ⟨_, open_eq hr st ht, ?_⟩
    · have hact : openActive (some tl) = ⟨last.num, (framesWithin n last.frames).map back, [], []⟩ := by
        subst htail
        simp only [openActive]
        rw [framesIn_log hin]
      have hcomp : openCompleted (some tl) =
          segs.map (fun s => ((⟨s.num, s.frames.map back, [], []⟩ : WalW.Seg Frame), (logBytes s.frames).length)) := by
        subst htail
        simp only [openCompleted, List.map_map]
        refine List.map_congr_left (fun s hs => ?_)
        simp only [Function.comp, SegLog.file]
        rw [framesIn_log (hg s (List.mem_append_left _ hs))]
      have hbody : (openCompleted (some tl)).flatMap (fun c => c.1.all) ++ (openActive (some tl)).all =
          (segs.flatMap (·.frames) ++ framesWithin n last.frames).map back := by
        rw [hact, hcomp]
        simp [WalW.Seg.all, List.flatMap_map, List.map_flatMap]
      have hsure : Sure d (openActive (some tl)) := by rw [hact]; exact sure_synced d _ _
      have hcontent : ((openCompleted (some tl)).flatMap (fun c => c.1.all) ++ (openActive (some tl)).all).map Prod.snd =
          (segs.flatMap (·.frames) ++ framesWithin n last.frames).map frameOf := by
        rw [hbody, back_frame]
      refine ⟨⟨rfl, by rw [List.append_nil]; exact hcontent, ?_, ?_, resume_frame _ st, ?_, ?_, ?_⟩, rfl, fun _ => hsure⟩
      · intro x hx
        simp only [hcomp, List.mem_map] at hx
        obtain ⟨s, _, rfl⟩ := hx
        exact sure_synced d _ _
      · intro p hp
        simp only [body] at hp
        rw [hbody] at hp
        obtain ⟨f, hf, rfl⟩ := List.mem_map.1 hp
        rcases List.mem_append.1 hf with hf | hf
        · obtain ⟨s, hs, hf⟩ := List.mem_flatMap.1 hf
          exact back_pos (hg s (List.mem_append_left _ hs) f hf)
        · exact back_pos (hin f hf)
      · simp only [hcomp, hact, List.map_map]
        exact ho
      · have := resume_segment (some tl) st
        simp only [hact]
        subst htail
        exact this
      · rw [sure_eq hsure]
        simp only [body]
        rw [hcontent]
        exact List.prefix_rfl

/-! ## A crash -/

theorem logBytes_append (a b : List RawFrame) : logBytes (a ++ b) = logBytes a ++ logBytes b := by
  induction a with
  | nil => rfl
  | cons f a ih =>
    obtain ⟨t, s, p⟩ := f
    simp [logBytes, ih]

theorem within_all_of : ∀ (a b : List RawFrame) (n : Nat), (logBytes a).length ≤ n → a <+: framesWithin n (a ++ b)
  | [], _, _, _ => List.nil_prefix
  | (t, s, p) :: a, b, n, h => by
    simp only [logBytes, List.length_append, bytes_length] at h
    simp only [List.cons_append, framesWithin]
    rw [if_pos (by omega)]
    exact List.cons_prefix_cons.2 ⟨rfl, within_all_of a b _ (by omega)⟩

theorem within_ge {a b : List RawFrame} (hp : a <+: b) {n : Nat} (h : (logBytes a).length ≤ n) : a <+: framesWithin n b := by
  obtain ⟨t, rfl⟩ := hp
  exact within_all_of a t n h

/-- The sealed files are intact. -/
theorem sealed_files {d : Crash} {gs : List (WalW.Seg Frame)} {fs : List Seg} (h : List.Forall₂ (LeftOf d) gs fs)
    (hs : ∀ g ∈ gs, Sure d g) : ∃ segs : List SegLog, fs = segs.map SegLog.file ∧ segs.map (·.num) = gs.map (·.seq) ∧
      segs.map (·.frames) = gs.map (fun g => g.all.map raw) := by
  induction h with
  | nil => exact ⟨[], rfl, rfl, rfl⟩
  | @cons g f gs fs h _ ih =>
    obtain ⟨segs, h1, h2, h3⟩ := ih (fun x hx => hs x (List.mem_cons_of_mem _ hx))
    obtain ⟨e1, e2, e3⟩ := h
    rw [hs g (by simp)] at e2
    have e : f.data = bytesOf g.all := e3.eq_of_length_le e2.length_le
    refine ⟨⟨g.seq, f.path, g.all.map raw⟩ :: segs, ?_, ?_, ?_⟩
    · simp only [List.map_cons, ← h1, SegLog.file]
      rw [← bytesOf_eq, ← e, ← e1]
    · simp [h2]
    · simp [h3]

theorem frames_flat {segs : List SegLog} {gs : List (WalW.Seg Frame)} (h : segs.map (·.frames) = gs.map (fun g => g.all.map raw)) :
    segs.flatMap (·.frames) = (gs.flatMap (·.all)).map raw := by
  rw [List.flatMap_def, h, List.map_flatMap, List.flatMap_def]

theorem frames_mem {segs : List SegLog} {gs : List (WalW.Seg Frame)} (h : segs.map (·.frames) = gs.map (fun g => g.all.map raw))
    {s : SegLog} (hs : s ∈ segs) {f : RawFrame} (hf : f ∈ s.frames) : ∃ p ∈ gs.flatMap (·.all), f = raw p := by
  have : f ∈ segs.flatMap (·.frames) := List.mem_flatMap.2 ⟨s, hs, hf⟩
  rw [frames_flat h] at this
  obtain ⟨p, hp, rfl⟩ := List.mem_map.1 this
  exact ⟨p, hp, rfl⟩

theorem raw_good {c : Ipc (Batch A)} {p : Nat × Frame} (h1 : 1 ≤ p.1) (h2 : p.1 < 18446744073709551616) (h3 : Fine c p.2) :
    GoodRaw c (raw p) := by
  refine ⟨?_, h3⟩
  simp only [raw]
  intro h
  have := congrArg BitVec.toNat h
  rw [BitVec.toNat_ofNat, Nat.mod_eq_of_lt h2] at this
  simp at this
  omega

theorem image_of_left {c : Ipc (Batch A)} {d : Crash} {B L : List Frame} {w : WalW.W Frame} {files : List Seg} (h : Sound d B w L)
    (hn : ∀ p ∈ body w, p.1 < 18446744073709551616) (hf : ∀ f ∈ L, Fine c f) (hl : Left d w files) :
    ∃ L', Image c files L' ∧ L' <+: L ∧ sure d w <+: L' := by
  have hgood : ∀ p ∈ body w, GoodRaw c (raw p) := fun p hp =>
    raw_good (h.pos p hp) (hn p hp) (hf _ (by rw [← h.content]; exact List.mem_map_of_mem hp))
  have hflat : w.completed.flatMap (fun c => c.1.all) = (w.completed.map Prod.fst).flatMap (·.all) := by rw [List.flatMap_map]
  have hsure : ∀ g ∈ w.completed.map Prod.fst, Sure d g := by
    intro g hg
    obtain ⟨x, hx, rfl⟩ := List.mem_map.1 hg
    exact h.done x hx
  unfold Left at hl
  rw [WalW.segments_kept h.kept] at hl
  rcases hl with hl | ⟨hs, hl⟩
  · obtain ⟨fs, fl, h1, h2, rfl⟩ : ∃ fs fl, List.Forall₂ (LeftOf d) (w.completed.map Prod.fst) fs ∧ LeftOf d w.active fl ∧ files = fs ++ [fl] := by
      have e := (List.forall₂_take_append files _ _ hl.flip).flip
      have e' := (List.forall₂_drop_append files _ _ hl.flip).flip
      obtain ⟨b, l, e1, e2, hb⟩ := List.forall₂_cons_left_iff.1 e'
      rw [List.forall₂_nil_left_iff] at e2
      subst e2
      exact ⟨_, b, e, e1, by rw [← hb, List.take_append_drop]⟩
    obtain ⟨segs, rfl, h4, h5⟩ := sealed_files h1 hsure
    obtain ⟨e1, e2, e3⟩ := h2
    have hdata : fl.data = (logBytes (w.active.all.map raw)).take fl.data.length := by
      rw [← bytesOf_eq]
      exact List.prefix_iff_eq_take.1 e3
    have hw : (safe d w.active).map raw <+: framesWithin fl.data.length (w.active.all.map raw) := by
      refine within_ge (List.IsPrefix.map _ (safe_all d _)) ?_
      rw [← bytesOf_eq]
      exact e2.length_le
    have hL : L = (segs.flatMap (·.frames) ++ w.active.all.map raw).map frameOf := by
      rw [← h.content, frames_flat h5, ← List.map_append, frameOf_raw]
      unfold body
      rw [hflat]
    refine ⟨(segs.flatMap (·.frames) ++ framesWithin fl.data.length (w.active.all.map raw)).map frameOf,
      .inr ⟨segs, ⟨w.active.seq, fl.path, w.active.all.map raw⟩, fl.data.length, ?_, ?_, rfl, ?_⟩, ?_, ?_⟩
    · congr 2
      unfold SegLog.cut
      simp only
      rw [← hdata, ← e1]
    · intro s hs f hf
      rcases List.mem_append.1 hs with hs | hs
      · obtain ⟨p, hp, rfl⟩ := frames_mem h5 hs hf
        exact hgood p (by unfold body; rw [hflat]; exact List.mem_append_left _ hp)
      · rw [List.mem_singleton] at hs
        subst hs
        obtain ⟨p, hp, rfl⟩ := List.mem_map.1 hf
        exact hgood p (List.mem_append_right _ hp)
    · rw [h4, List.map_map]
      exact h.ord
    · rw [hL]
      exact List.IsPrefix.map _ ((List.prefix_append_right_inj _).2 (framesWithin_prefix _ _))
    · unfold sure
      rw [hflat, ← frameOf_raw, List.map_append, ← frames_flat h5]
      exact List.IsPrefix.map _ ((List.prefix_append_right_inj _).2 hw)
  · rw [List.dropLast_append_of_ne_nil (by simp)] at hl
    simp only [List.dropLast_singleton, List.append_nil] at hl
    obtain ⟨segs, rfl, h4, h5⟩ := sealed_files hl hsure
    have hsr : sure d w = (segs.flatMap (·.frames)).map frameOf := by
      unfold sure
      rw [hs, hflat, List.append_nil, ← frameOf_raw, ← frames_flat h5]
    refine ⟨(segs.flatMap (·.frames)).map frameOf, ?_, ?_, by rw [hsr]; exact List.prefix_rfl⟩
    · rcases List.eq_nil_or_concat segs with rfl | ⟨init, last, rfl⟩
      · exact .inl ⟨rfl, rfl⟩
      · rw [List.concat_eq_append] at h4 h5 ⊢
        refine .inr ⟨init, last, (logBytes last.frames).length, ?_, ?_, ?_, ?_⟩
        · simp [SegLog.file, SegLog.cut]
        · intro s hs f hf
          obtain ⟨p, hp, rfl⟩ := frames_mem h5 hs hf
          exact hgood p (by unfold body; rw [hflat]; exact List.mem_append_left _ hp)
        · rw [framesWithin_all]
          simp
        · have := (List.pairwise_append.1 h.ord).1
          rw [List.map_map] at h4
          have e : w.completed.map (fun c => c.1.seq) = (init ++ [last]).map (·.num) := h4.symm
          rw [e] at this
          simpa using this
    · rw [← hsr, ← h.content]
      exact sure_body d w

end Tonbo.Lemmas.LogLife
