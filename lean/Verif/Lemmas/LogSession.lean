import Verif.Lemmas.LogImage
import Verif.Props.C47_CommitColumn

/-!
# One session of a log, and many
-/

namespace Tonbo.Lemmas.LogLife
open Tonbo.Model Tonbo.Model.Wal Tonbo.Model.LogLife Tonbo.Spec Tonbo.Spec.Wal Tonbo.Spec.Life
open Tonbo.Lemmas.WalRules Tonbo.Lemmas.WalTail Tonbo.Lemmas.FrameWalk

variable {A : Type} {c : Ipc (Batch A)}

/-! ## Commands and frames -/

theorem asked_encode (ops : List (WalQ.Op (Wal.Cmd A))) :
    WalQ.asked (ops.map (encodeOp c)) = (WalQ.asked ops).map (encodeMsg c) := by
  induction ops with
  | nil => rfl
  | cons o ops ih => cases o <;> simp [encodeOp, WalQ.asked, ih]

theorem framesOf_encode (m : WalQ.Msg (Wal.Cmd A)) :
    WalQ.framesOf (encodeMsg c m) = (WalQ.framesOf m).flatMap (framesOfCmd c) := by
  cases m <;> rfl

theorem promised_encode (ask : List (WalQ.Msg (Wal.Cmd A))) (ans : List (Nat × WalQ.Ans)) :
    WalQ.promised (ask.map (encodeMsg c)) ans = (WalQ.promised ask ans).flatMap (framesOfCmd c) := by
  unfold WalQ.promised
  rw [List.flatMap_assoc]
  refine List.flatMap_congr (fun p _ => ?_)
  rw [List.getElem?_map]
  cases ask[p.1]? with
  | none => cases p.2 <;> rfl
  | some m =>
    cases p.2 with
    | written a b => exact framesOf_encode m
    | _ => rfl

theorem inDoubt_encode (ask : List (WalQ.Msg (Wal.Cmd A))) (ans : List (Nat × WalQ.Ans)) :
    WalQ.inDoubt (ask.map (encodeMsg c)) ans = (WalQ.inDoubt ask ans).flatMap (framesOfCmd c) := by
  unfold WalQ.inDoubt
  rw [List.flatMap_assoc]
  refine List.flatMap_congr (fun p _ => ?_)
  rw [List.getElem?_map]
  cases ask[p.1]? with
  | none => cases p.2 <;> rfl
  | some m =>
    cases p.2 with
    | failed => exact framesOf_encode m
    | _ => rfl

/-- The frame of a command, and what it is read as. -/
def Stored (c : Ipc (Batch A)) (x : Wal.Cmd A) (f : Frame) : Prop :=
  ∃ t, Stamped x t ∧ framesOfCmd c x = [f] ∧ decodeFrame c f.type f.payload = .ok (eventOf x t) ∧ Fine c f

theorem stored_of (hc : c.Lawful) {x : Wal.Cmd A} (hs : ∃ t, Stamped x t)
    (hp : ∀ f ∈ framesOfCmd c x, f.payload.length < 4294967296) : ∃ f, Stored c x f := by
  obtain ⟨t, ht⟩ := hs
  obtain ⟨f, h1, h2⟩ := Props.C47.command_round_trip c hc x t ht.1 ht.2
  have hf : framesOfCmd c x = [f] := by unfold framesOfCmd; rw [h1]
  refine ⟨f, t, ht, hf, h2, hp f (by rw [hf]; simp), ?_, _, h2⟩
  intro hty
  have happ : ∀ (id : BitVec 64) (del : Bool) (b : Batch A), 8 ≤ (encodeAppend c id del b).length := by
    intro id del b
    unfold encodeAppend
    simp only [List.length_append, leBytes_len]
    omega
  cases x with
  | begin id =>
    simp only [encodeCmd, Except.ok.injEq, List.cons.injEq, and_true] at h1
    subst h1
    simp [leBytes_len]
  | row id b ts =>
    simp only [encodeCmd] at h1
    split at h1
    · cases h1
    · simp only [Except.ok.injEq, List.cons.injEq, and_true] at h1
      subst h1
      exact happ _ _ _
  | delete id b =>
    simp only [encodeCmd, Except.ok.injEq, List.cons.injEq, and_true] at h1
    subst h1
    exact happ _ _ _
  | commit id ts =>
    simp only [encodeCmd, Except.ok.injEq, List.cons.injEq, and_true] at h1
    subst h1
    simp [leBytes_len]
  | abort id =>
    simp only [encodeCmd, Except.ok.injEq, List.cons.injEq, and_true] at h1
    subst h1
    simp [leBytes_len]

theorem stored_all : ∀ xs : List (Wal.Cmd A), (∀ x ∈ xs, ∃ f, Stored c x f) →
    List.Forall₂ (Stored c) xs (xs.flatMap (framesOfCmd c))
  | [], _ => List.Forall₂.nil
  | x :: xs, h => by
    obtain ⟨f, hf⟩ := h x (by simp)
    rw [List.flatMap_cons, hf.choose_spec.2.1]
    exact List.Forall₂.cons hf (stored_all xs (fun y hy => h y (List.mem_cons_of_mem _ hy)))

theorem forall₂_prefix {α β : Type} {R : α → β → Prop} {xs : List α} {ys fs : List β} (h : List.Forall₂ R xs ys) (hp : fs <+: ys) :
    List.Forall₂ R (xs.take fs.length) fs := by
  have := List.forall₂_take fs.length h
  rwa [← List.prefix_iff_eq_take.1 hp] at this

theorem mem_told {s : Session A} {q : WalQ.Q Frame} {x : Wal.Cmd A} (h : x ∈ told (s, q) ++ doubtful (s, q)) :
    ∃ m, WalQ.Msg.cmd m ∈ WalQ.asked s.ops ∧ x ∈ m.frames := by
  have key : ∀ m, m ∈ WalQ.asked s.ops → x ∈ WalQ.framesOf m → ∃ m, WalQ.Msg.cmd m ∈ WalQ.asked s.ops ∧ x ∈ m.frames := by
    intro m hm hx
    cases m with
    | cmd m => exact ⟨m, hm, hx⟩
    | rotate => cases hx
    | snapshot => cases hx
  rcases List.mem_append.1 h with h | h
  · obtain ⟨p, _, hp⟩ := List.mem_flatMap.1 h
    cases ha : p.2 <;> cases hg : (WalQ.asked s.ops)[p.1]? <;> simp only [ha, hg] at hp <;> try cases hp
    exact key _ (List.mem_of_getElem? hg) hp
  · obtain ⟨p, _, hp⟩ := List.mem_flatMap.1 h
    cases ha : p.2 <;> cases hg : (WalQ.asked s.ops)[p.1]? <;> simp only [ha, hg] at hp <;> try cases hp
    exact key _ (List.mem_of_getElem? hg) hp

theorem told_stored (hc : c.Lawful) {s : Session A} (h : Calls c s) {q : WalQ.Q Frame} :
    ∀ x ∈ told (s, q) ++ doubtful (s, q), ∃ f, Stored c x f := by
  intro x hx
  obtain ⟨m, hm, hxm⟩ := mem_told hx
  obtain ⟨y, hy, hs, hp⟩ := h m hm
  rw [hy, List.mem_singleton] at hxm
  subst hxm
  exact stored_of hc hs hp

/-! ## One session -/

theorem safe_run {P : WalW.Seg Frame → Prop} {cfg : WalW.Cfg} (hr : cfg.retention = none)
    (hP : ∀ s : WalW.W Frame, P (WalW.finishSeg cfg s).active) (hf : ∀ g, P g → P g.flush) (hy : ∀ g, P g → P g.fsync) :
    ∀ (os : List (WalQ.Op Frame)) {q : WalQ.Q Frame}, WalQ.Safe P q → WalQ.Safe P (WalQ.run cfg frameSize q os)
  | [], _, h => h
  | o :: os, _, h => safe_run hr hP hf hy os (WalQ.safe_step hr hP hf hy frameSize h o)

theorem session_keeps (hc : c.Lawful) {d : Crash} {s : Session A} (hcalls : Calls c s) (hkeep : Keeps d s) {B : List Frame}
    {w : WalW.W Frame} (hw : ∀ full : Prop, Alive d full B w []) :
    ∃ more, more <+: (doubtful (s, runSession c s w)).flatMap (framesOfCmd c) ∧
      Sound d B (runSession c s w).w (B ++ (told (s, runSession c s w)).flatMap (framesOfCmd c) ++ more) ∧
      (Prompt d s ∨ (runSession c s w).over = some true →
        B ++ (told (s, runSession c s w)).flatMap (framesOfCmd c) <+: sure d (runSession c s w).w) := by
  have hright : ∀ x, WalQ.Msg.cmd x ∈ WalQ.asked (s.ops.map (encodeOp c)) → Right (Prompt d s) s.cfg x := by
    intro x hx
    rw [asked_encode] at hx
    obtain ⟨m, hm, e⟩ := List.mem_map.1 hx
    cases m with
    | rotate => cases e
    | snapshot => cases e
    | cmd m =>
      simp only [encodeMsg, WalQ.Msg.cmd.injEq] at e
      subst e
      obtain ⟨y, hy, hs, hp⟩ := hcalls m hm
      obtain ⟨f, t, _, hf, _⟩ := stored_of hc hs hp
      refine ⟨by simp [hy, hf], fun hpr => ?_⟩
      rcases hpr.1 m hm with h | h <;> simp [h]
  have hst := keeps (rules (d := d) (full := Prompt d s) (B := B) hkeep.1 hkeep.2 (fun hp => hp.2)) (hw (Prompt d s))
    (s.ops.map (encodeOp c)) hright
  have hsafe : WalQ.Safe (Sure d) (runSession c s w) := by
    refine safe_run hkeep.1 (finish_sure hkeep.2) (fun _ => sure_flush') (fun _ => sure_fsync') _ ⟨?_, ?_⟩
    · exact (hw True).sound.done
    · intro h
      cases h
  rw [asked_encode] at hst
  unfold Stands at hst
  rw [promised_encode, inDoubt_encode] at hst
  change (_ ∧ _ ∧ Alive d (Prompt d s) B (runSession c s w).w ((told (s, runSession c s w)).flatMap (framesOfCmd c))) ∨
    (_ ∧ ∃ more, more <+: (doubtful (s, runSession c s w)).flatMap (framesOfCmd c) ∧
      Ended d (Prompt d s) B (runSession c s w).w ((told (s, runSession c s w)).flatMap (framesOfCmd c)) more) at hst
  rcases hst with ⟨h1, h2, h3⟩ | ⟨h1, more, h2, h3⟩
  · refine ⟨[], List.nil_prefix, by rw [List.append_nil]; exact h3.sound, ?_⟩
    rintro (hp | ho)
    · exact (alive_ended h3).full hp
    · rw [sure_eq (hsafe.last ho), h3.sound.content]
      exact List.prefix_rfl
  · refine ⟨more, h2, h3.sound, ?_⟩
    rintro (hp | ho)
    · exact h3.full hp
    · have h1' : (runSession c s w).over = some false := h1
      rw [ho] at h1'
      cases h1'

theorem body_written {d : Crash} {B L : List Frame} {w : WalW.W Frame} (h : Sound d B w L) : body w = WalW.written w := by
  unfold body WalW.written
  rw [WalW.segments_kept h.kept]
  simp [List.flatMap_append, List.flatMap_map]

theorem session_image (hc : c.Lawful) {d : Crash} {s : Session A} (hcalls : Calls c s) (hkeep : Keeps d s) {B : List Frame}
    (hB : ∀ f ∈ B, Fine c f) {before between : List Seg} {w : WalW.W Frame} (hi : Image c before B)
    (hopen : openWriter s.cfg s.state before = .ok w) (hn : Counted (runSession c s w))
    (hl : Left d (runSession c s w).w between) :
    ∃ part fs, part <+: told (s, runSession c s w) ++ doubtful (s, runSession c s w) ∧
      (Prompt d s ∨ (runSession c s w).over = some true → told (s, runSession c s w) <+: part) ∧
      List.Forall₂ (Stored c) part fs ∧ Image c between (B ++ fs) := by
  have hw : ∀ full : Prop, Alive d full B w [] := by
    intro full
    obtain ⟨w', h1, h2⟩ := open_image hi d hkeep.1 s.state full
    rw [hopen] at h1
    cases h1
    exact h2
  obtain ⟨more, h1, h2, h3⟩ := session_keeps hc hcalls hkeep hw
  have hst := stored_all (told (s, runSession c s w) ++ doubtful (s, runSession c s w)) (told_stored hc hcalls)
  have htl := stored_all (told (s, runSession c s w)) (fun x hx => told_stored hc hcalls x (List.mem_append_left _ hx))
  generalize hT : told (s, runSession c s w) = T at *
  generalize hD : doubtful (s, runSession c s w) = D at *
  rw [List.flatMap_append] at hst
  have hmore : T.flatMap (framesOfCmd c) ++ more <+: T.flatMap (framesOfCmd c) ++ D.flatMap (framesOfCmd c) :=
    (List.prefix_append_right_inj _).2 h1
  have hfine : ∀ f ∈ T.flatMap (framesOfCmd c) ++ D.flatMap (framesOfCmd c), Fine c f := by
    intro f hf
    obtain ⟨i, hi, rfl⟩ := List.mem_iff_getElem.1 hf
    have hlen := hst.length_eq
    have := List.Forall₂.get hst (i := i) (by omega) hi
    exact this.choose_spec.2.2.2
  obtain ⟨L', g1, g2, g3⟩ := image_of_left (c := c) h2 (by rw [body_written h2]; exact hn)
    (by
      intro f hf
      rw [List.append_assoc] at hf
      rcases List.mem_append.1 hf with hf | hf
      · exact hB f hf
      · exact hfine f (hmore.subset hf)) hl
  obtain ⟨fs, rfl⟩ := h2.base.trans g3
  rw [List.append_assoc, List.prefix_append_right_inj] at g2
  have hfs := g2.trans hmore
  refine ⟨(T ++ D).take fs.length, fs, List.take_prefix _ _, ?_, forall₂_prefix hst hfs, g1⟩
  intro hp
  have h5 := (h3 hp).trans g3
  rw [List.prefix_append_right_inj] at h5
  have hlen : T.length ≤ fs.length := by rw [htl.length_eq]; exact h5.length_le
  rw [List.prefix_take_iff]
  exact ⟨List.prefix_append _ _, hlen⟩

/-! ## All sessions -/

theorem life_image (hc : c.Lawful) {d : Crash} {before after : List Seg} {ss : List (Session A × WalQ.Q Frame)}
    (h : Life c d before ss after) : ∀ {B : List Frame}, (∀ f ∈ B, Fine c f) → Image c before B →
    (∀ p ∈ ss, Calls c p.1 ∧ Keeps d p.1 ∧ Counted p.2) →
    ∃ parts fs, List.Forall₂ (Survives d) ss parts ∧ List.Forall₂ (Stored c) parts.flatten fs ∧ Image c after (B ++ fs) := by
  induction h with
  | none files =>
    intro B _ hi _
    exact ⟨[], [], List.Forall₂.nil, List.Forall₂.nil, by rw [List.append_nil]; exact hi⟩
  | @session before between after s w ss hopen hleft _ ih =>
    intro B hB hi hs
    obtain ⟨h1, h2, h3⟩ := hs _ (List.mem_cons_self ..)
    obtain ⟨part, fs, g1, g2, g3, g4⟩ := session_image hc h1 h2 hB hi hopen h3 hleft
    have hfine : ∀ f ∈ B ++ fs, Fine c f := by
      intro f hf
      rcases List.mem_append.1 hf with hf | hf
      · exact hB f hf
      · obtain ⟨i, hi, rfl⟩ := List.mem_iff_getElem.1 hf
        have hlen := g3.length_eq
        have := List.Forall₂.get g3 (i := i) (by omega) hi
        exact this.choose_spec.2.2.2
    obtain ⟨parts, fs', k1, k2, k3⟩ := ih hfine g4 (fun p hp => hs p (List.mem_cons_of_mem _ hp))
    refine ⟨part :: parts, fs ++ fs', List.Forall₂.cons ⟨g1, g2⟩ k1, ?_, by rw [← List.append_assoc]; exact k3⟩
    rw [List.flatten_cons]
    exact List.rel_append g3 k2

theorem stored_back {xs : List (Wal.Cmd A)} {fs : List Frame} (h : List.Forall₂ (Stored c) xs fs) :
    List.Forall₂ ComesBack xs (fs.map (ev c)) := by
  induction h with
  | nil => exact List.Forall₂.nil
  | cons h _ ih =>
    obtain ⟨t, h1, _, h3, _⟩ := h
    exact List.Forall₂.cons ⟨t, h1, ev_ok h3⟩ ih

end Tonbo.Lemmas.LogLife
