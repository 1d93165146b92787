import Verif.Spec.FenceView
import Mathlib.Tactic.Linarith

/-!
# Lemmas on several writers of one log
-/

namespace Tonbo.Lemmas.Fence
open Tonbo.Model.Fence Tonbo.Spec.FenceView

variable {F : Type}

/-- The tag of the state file. -/
def curTag (c : Cas) : Option Nat := c.cur.map Prod.snd

/-- One more than the last frame number in the state file. -/
def curNext (c : Cas) : Nat := after (c.cur.bind (fun p => p.1.lastFrame))

theorem put_eq (c : Cas) (e : Option Nat) (s : St) :
    c.put e s = if e = curTag c then some (⟨some (s, c.fresh), c.fresh + 1⟩, c.fresh) else none := by
  unfold Cas.put curTag
  cases e <;> rcases hc : c.cur with _ | ⟨a, b⟩ <;> simp

/-- What a call of `persist` may do when there is something to write. -/
theorem persist_cases (c : Cas) (w : Wr F) (io : Io) (hd : w.dirty = true) :
    persist true c w io = (c, w, false) ∨
    (w.tag = curTag c ∧ persist true c w io =
      (⟨some (w.st, c.fresh), c.fresh + 1⟩, { w with tag := some c.fresh, dirty := false }, true)) ∨
    (w.tag = curTag c ∧ persist true c w io = (⟨some (w.st, c.fresh), c.fresh + 1⟩, w, false)) := by
  unfold persist
  rw [put_eq]
  by_cases h : w.tag = curTag c
  · rw [if_pos h]
    cases io <;> simp [hd, h]
  · rw [if_neg h]
    cases io <;> simp [hd]

/-! ## The log only grows -/

/-- Every segment of the first log is in the second with more frames. -/
def Grows (l m : Log F) : Prop := ∀ s ∈ l, ∃ t ∈ m, t.1 = s.1 ∧ ∀ x ∈ s.2, x ∈ t.2

theorem grows_refl (l : Log F) : Grows l l := fun s h => ⟨s, h, rfl, fun _ h => h⟩

theorem grows_ensure (n : Nat) : ∀ l : Log F, Grows l (ensure n l)
  | [] => fun s h => by cases h
  | a :: l => by
    intro s hs
    unfold ensure
    split
    · exact ⟨s, hs, rfl, fun _ h => h⟩
    · split
      · exact ⟨s, List.mem_cons_of_mem _ hs, rfl, fun _ h => h⟩
      · rcases List.mem_cons.1 hs with rfl | hs
        · exact ⟨s, List.mem_cons_self, rfl, fun _ h => h⟩
        · obtain ⟨t, ht, h⟩ := grows_ensure n l s hs
          exact ⟨t, List.mem_cons_of_mem _ ht, h⟩

theorem ensure_has (n : Nat) : ∀ l : Log F, ∃ s ∈ ensure n l, s.1 = n
  | [] => ⟨_, List.mem_singleton.2 rfl, rfl⟩
  | a :: l => by
    unfold ensure
    split
    · exact ⟨a, List.mem_cons_self, by assumption⟩
    · split
      · exact ⟨_, List.mem_cons_self, rfl⟩
      · obtain ⟨s, hs, h⟩ := ensure_has n l
        exact ⟨s, List.mem_cons_of_mem _ hs, h⟩

theorem grows_addFrame (n : Nat) (f : Nat × F) (l : Log F) : Grows l (addFrame n f l) := by
  intro s hs
  refine ⟨_, List.mem_map_of_mem hs, ?_, ?_⟩
  · split <;> rfl
  · intro x hx
    split
    · exact List.mem_append_left _ hx
    · exact hx

theorem addFrame_has (n : Nat) (f : Nat × F) (l : Log F) (h : ∃ s ∈ l, s.1 = n) : InLog (addFrame n f l) f.1 f.2 := by
  obtain ⟨s, hs, rfl⟩ := h
  refine ⟨_, List.mem_map_of_mem hs, ?_⟩
  rw [if_pos rfl]
  exact List.mem_append_right _ (List.mem_singleton.2 rfl)

theorem Grows.inLog {l m : Log F} (h : Grows l m) {n : Nat} {f : F} (hf : InLog l n f) : InLog m n f := by
  obtain ⟨s, hs, hx⟩ := hf
  obtain ⟨t, ht, -, hsub⟩ := h s hs
  exact ⟨t, ht, hsub _ hx⟩

theorem Grows.has {l m : Log F} (h : Grows l m) {n : Nat} (hs : ∃ s ∈ l, s.1 = n) : ∃ s ∈ m, s.1 = n := by
  obtain ⟨s, hs, rfl⟩ := hs
  obtain ⟨t, ht, e, -⟩ := h s hs
  exact ⟨t, ht, e⟩

theorem Grows.recorded {l m : Log F} (h : Grows l m) {a : Ack F} (ha : Recorded l a) : Recorded m a :=
  ⟨ha.1, ha.2.1, ha.2.2.1, fun i f hi => h.inLog (ha.2.2.2 i f hi)⟩

/-! ## The invariant of one task -/

/-- What a living task knows about the log. -/
structure WLog (l : Log F) (w : Wr F) : Prop where
  seg : w.opened = true → ∃ s ∈ l, s.1 = w.seg
  closed : w.opened = false → w.cmds = []
  idle : w.cmds = [] → w.todo = [] ∧ w.done = []
  busy : ∀ c cs, w.cmds = c :: cs → c.frames ≠ [] ∧ ∃ pre, c.frames = pre ++ w.todo ∧ w.next = w.first + pre.length ∧
    ∀ i f, pre[i]? = some f → InLog l (w.first + i) f
  done : ∀ a ∈ w.done, Recorded l a

theorem WLog.mono {l m : Log F} {w : Wr F} (h : WLog l w) (hg : Grows l m) : WLog m w :=
  ⟨fun ho => hg.has (h.seg ho), h.closed, h.idle,
    fun c cs e => ⟨(h.busy c cs e).1, by
      obtain ⟨pre, h1, h2, h3⟩ := (h.busy c cs e).2
      exact ⟨pre, h1, h2, fun i f hi => hg.inLog (h3 i f hi)⟩⟩,
    fun a ha => hg.recorded (h.done a ha)⟩

/-- What a task knows about the numbers in use, if the state file is as it saw it last. -/
structure WNum (c : Cas) (A : List (Ack F)) (w : Wr F) : Prop where
  loaded : curNext c ≤ after w.st.lastFrame
  ahead : w.opened = true → after w.st.lastFrame ≤ w.next
  first : w.cmds ≠ [] → curNext c ≤ w.first
  above : ∀ a ∈ A, ∀ d ∈ w.done, a.2.2 < d.2.1
  sorted : w.done.Pairwise (fun a b => a.2.2 < b.2.1)
  below : ∀ d ∈ w.done, d.2.2 < curNext c

theorem WNum.next {c : Cas} {A : List (Ack F)} {w : Wr F} (h : WNum c A w) (ho : w.opened = true) : curNext c ≤ w.next :=
  le_trans h.loaded (h.ahead ho)

/-- The invariant of the system with the acknowledgements sent so far. -/
structure Inv (s : Sys F) (A : List (Ack F)) : Prop where
  fresh : ∀ t, curTag s.cas = some t → t < s.cas.fresh
  tags : ∀ h w t, s.wr h = some w → w.tag = some t → t < s.cas.fresh
  log : ∀ h w, s.wr h = some w → w.dead = false → WLog s.log w
  num : ∀ h w, s.wr h = some w → w.dead = false → w.tag = curTag s.cas → WNum s.cas A w
  acks : ∀ a ∈ A, a.2.2 < curNext s.cas ∧ Recorded s.log a
  sorted : A.Pairwise (fun a b => a.2.2 < b.2.1)

theorem inv_new : Inv (Sys.new : Sys F) [] := by
  refine ⟨?_, ?_, ?_, ?_, ?_, List.Pairwise.nil⟩ <;> simp [Sys.new, curTag]

/-- A step of a task that leaves the state file alone. -/
theorem inv_keep {s : Sys F} {A : List (Ack F)} (hi : Inv s A) (h : Nat) (w w' : Wr F) (l : Log F)
    (hw : s.wr h = some w) (ht : w'.tag = w.tag) (hg : Grows s.log l)
    (hl : w'.dead = false → WLog l w')
    (hn : w'.dead = false → w.tag = curTag s.cas → WNum s.cas A w') :
    Inv ((⟨s.cas, l, s.wr⟩ : Sys F).set h w') A := by
  refine ⟨hi.fresh, ?_, ?_, ?_, fun a ha => ⟨(hi.acks a ha).1, hg.recorded (hi.acks a ha).2⟩, hi.sorted⟩
  · intro i v t hv hvt
    simp only [Sys.set] at hv
    split at hv
    · cases hv
      exact hi.tags h w t hw (ht ▸ hvt)
    · exact hi.tags i v t hv hvt
  · intro i v hv hd
    simp only [Sys.set] at hv
    split at hv
    · cases hv
      exact hl hd
    · exact (hi.log i v hv hd).mono hg
  · intro i v hv hd hvt
    simp only [Sys.set] at hv hvt ⊢
    split at hv
    · cases hv
      exact hn hd (ht ▸ hvt)
    · exact hi.num i v hv hd hvt

/-- A step of a task that writes the state file. -/
theorem inv_put {s : Sys F} {A B : List (Ack F)} (hi : Inv s A) (h : Nat) (w w' : Wr F) (l : Log F) (st : St)
    (hw : s.wr h = some w) (ht : w'.tag = some s.cas.fresh ∨ (w'.tag = w.tag ∧ w'.dead = true)) (hg : Grows s.log l)
    (hl : w'.dead = false → WLog l w')
    (hn : w'.dead = false → WNum ⟨some (st, s.cas.fresh), s.cas.fresh + 1⟩ (A ++ B) w')
    (hle : curNext s.cas ≤ after st.lastFrame)
    (hB : ∀ a ∈ B, a.2.2 < after st.lastFrame ∧ Recorded l a) (hs : (A ++ B).Pairwise (fun a b => a.2.2 < b.2.1)) :
    Inv ((⟨⟨some (st, s.cas.fresh), s.cas.fresh + 1⟩, l, s.wr⟩ : Sys F).set h w') (A ++ B) := by
  refine ⟨?_, ?_, ?_, ?_, ?_, hs⟩
  · intro t e
    simp only [Sys.set, curTag, Option.map_some, Option.some.injEq] at e ⊢
    omega
  · intro i v t hv hvt
    simp only [Sys.set] at hv ⊢
    split at hv
    · cases hv
      rcases ht with e | ⟨e, -⟩
      · rw [e] at hvt
        cases hvt
        omega
      · have := hi.tags h w t hw (e ▸ hvt)
        omega
    · have := hi.tags i v t hv hvt
      omega
  · intro i v hv hd
    simp only [Sys.set] at hv
    split at hv
    · cases hv
      exact hl hd
    · exact (hi.log i v hv hd).mono hg
  · intro i v hv hd hvt
    simp only [Sys.set] at hv hvt ⊢
    split at hv
    · cases hv
      exact hn hd
    · have := hi.tags i v s.cas.fresh hv (by rw [hvt]; rfl)
      omega
  · intro a ha
    rcases List.mem_append.1 ha with ha | ha
    · refine ⟨lt_of_lt_of_le (hi.acks a ha).1 ?_, hg.recorded (hi.acks a ha).2⟩
      exact hle
    · exact hB a ha

theorem inv_load {s : Sys F} {A : List (Ack F)} (hi : Inv s A) (h : Nat) : Inv (s.set h (loadWr true s.cas)) A := by
  have hld : (loadWr true s.cas : Wr F) = { tag := curTag s.cas, st := (s.cas.cur.map Prod.fst).getD {} } := by
    unfold loadWr curTag
    rw [if_pos rfl]
    rcases s.cas.cur with _ | ⟨a, b⟩ <;> rfl
  rw [hld]
  refine ⟨hi.fresh, ?_, ?_, ?_, hi.acks, hi.sorted⟩
  · intro i v t hv hvt
    simp only [Sys.set] at hv
    split at hv
    · cases hv
      exact hi.fresh t hvt
    · exact hi.tags i v t hv hvt
  · intro i v hv hd
    simp only [Sys.set] at hv
    split at hv
    · cases hv
      exact ⟨by simp, by simp, by simp, by simp, by simp⟩
    · exact hi.log i v hv hd
  · intro i v hv hd hvt
    simp only [Sys.set] at hv hvt ⊢
    split at hv
    · cases hv
      refine ⟨?_, by simp, by simp, by simp, by simp, by simp⟩
      unfold curNext
      rcases s.cas.cur with _ | ⟨a, b⟩ <;> simp
    · exact hi.num i v hv hd hvt

/-! ## Steps -/

/-- The fields a rotation leaves alone. -/
theorem rotateWr_same {w w' : Wr F} {l : Log F} (h : rotateWr w l = some w') :
    w'.tag = w.tag ∧ w'.opened = w.opened ∧ w'.dead = w.dead ∧ w'.next = w.next ∧ w'.first = w.first ∧
    w'.todo = w.todo ∧ w'.cmds = w.cmds ∧ w'.done = w.done ∧ w'.st.lastFrame = w.st.lastFrame ∧ w'.dirty = true ∧
    w'.st.lastCommit = w.st.lastCommit := by
  unfold rotateWr at h
  split at h
  · cases h
  · cases h
    simp

/-- The invariant of a task with another segment. -/
theorem WLog.reseg {l m : Log F} {w w' : Wr F} (h : WLog l w) (hg : Grows l m) (hs : ∃ s ∈ m, s.1 = w'.seg)
    (e1 : w'.opened = w.opened) (e2 : w'.next = w.next) (e3 : w'.first = w.first) (e4 : w'.todo = w.todo)
    (e5 : w'.cmds = w.cmds) (e6 : w'.done = w.done) : WLog m w' := by
  have h' := h.mono hg
  refine ⟨fun _ => hs, ?_, ?_, ?_, ?_⟩
  · rw [e1, e5]; exact h'.closed
  · rw [e4, e5, e6]; exact h'.idle
  · rw [e2, e3, e4, e5]; exact h'.busy
  · rw [e6]; exact h'.done

theorem WNum.same {c : Cas} {A : List (Ack F)} {w w' : Wr F} (h : WNum c A w)
    (e1 : w'.opened = w.opened) (e2 : w'.next = w.next) (e3 : w'.first = w.first)
    (e5 : w'.cmds = w.cmds) (e6 : w'.done = w.done) (e7 : w'.st.lastFrame = w.st.lastFrame) : WNum c A w' := by
  refine ⟨?_, ?_, ?_, ?_, ?_, ?_⟩
  · rw [e7]; exact h.loaded
  · rw [e1, e2, e7]; exact h.ahead
  · rw [e3, e5]; exact h.first
  · rw [e6]; exact h.above
  · rw [e6]; exact h.sorted
  · rw [e6]; exact h.below

/-- The invariant of a task does not depend on the frame number it has recorded once it is open. -/
theorem start_wlog {l : Log F} {w : Wr F} (ho : w.opened = true) (hs : ∃ s ∈ l, s.1 = w.seg)
    (hidle : w.cmds = [] → w.todo = [] ∧ w.done = []) (hd : ∀ a ∈ w.done, Recorded l a) :
    (start w).dead = false → WLog l (start w) := by
  intro hdead
  unfold start at hdead ⊢
  split
  · rename_i e
    exact ⟨fun _ => hs, fun h => (by rw [ho] at h; cases h), fun h => hidle h, fun c cs h => (by rw [e] at h; cases h), hd⟩
  · rename_i c cs e
    rw [e] at hdead
    simp only at hdead
    by_cases hf : c.frames = []
    · rw [if_pos hf] at hdead
      cases hdead
    · rw [if_neg hf]
      refine ⟨fun _ => hs, fun h => ?_, fun h => ?_, fun c' cs' h => ?_, hd⟩
      · simp only [ho] at h; cases h
      · simp only [e] at h; cases h
      · simp only [e] at h
        cases h
        exact ⟨hf, [], rfl, by simp, by simp⟩

theorem start_same (w : Wr F) : (start w).tag = w.tag ∧ (start w).opened = w.opened ∧ (start w).next = w.next ∧
    (start w).cmds = w.cmds ∧ (start w).done = w.done ∧ (start w).st = w.st ∧ (start w).seg = w.seg ∧
    ((start w).dead = false → w.dead = false) ∧
    (w.cmds ≠ [] → (start w).dead = false → (start w).first = w.next) := by
  unfold start
  split
  · simp_all
  · split <;> simp

theorem start_wnum {c : Cas} {A : List (Ack F)} {w : Wr F} (hn : curNext c ≤ after w.st.lastFrame) (hn' : after w.st.lastFrame ≤ w.next)
    (h1 : ∀ a ∈ A, ∀ d ∈ w.done, a.2.2 < d.2.1) (h2 : w.done.Pairwise (fun a b => a.2.2 < b.2.1))
    (h3 : ∀ d ∈ w.done, d.2.2 < curNext c) (hd : (start w).dead = false) : WNum c A (start w) := by
  obtain ⟨-, -, e3, e4, e5, e6, -, -, e8⟩ := start_same w
  refine ⟨?_, ?_, ?_, ?_, ?_, ?_⟩
  · rw [e6]; exact hn
  · intro _; rw [e6, e3]; exact hn'
  · intro h; rw [e4] at h; rw [e8 h hd]; exact le_trans hn hn'
  · rw [e5]; exact h1
  · rw [e5]; exact h2
  · rw [e5]; exact h3

theorem openWr_same (w : Wr F) (l : Log F) : (openWr w l).tag = w.tag ∧ (openWr w l).opened = true ∧
    (openWr w l).dead = w.dead ∧ (openWr w l).cmds = w.cmds ∧ (openWr w l).todo = w.todo ∧ (openWr w l).done = w.done ∧
    (openWr w l).seg = lastSeg l ∧ (openWr w l).st.lastFrame = w.st.lastFrame ∧
    after w.st.lastFrame ≤ (openWr w l).next := by
  unfold openWr
  simp

theorem inv_opened {s : Sys F} {A : List (Ack F)} (hi : Inv s A) (h : Nat) (w : Wr F) (hw : s.wr h = some w)
    (ho : w.opened = false) :
    Inv ((⟨s.cas, ensure (lastSeg s.log) s.log, s.wr⟩ : Sys F).set h (openWr w s.log)) A := by
  obtain ⟨e1, e2, e3, e4, e5, e6, e7, e9, e8⟩ := openWr_same w s.log
  refine inv_keep hi h w _ _ hw e1 (grows_ensure _ _) (fun hd => ?_) (fun hd ht => ?_)
  · rw [e3] at hd
    have hl := hi.log h w hw hd
    refine ⟨fun _ => ?_, fun h' => ?_, ?_, ?_, ?_⟩
    · rw [e7]; exact ensure_has _ _
    · rw [e2] at h'; cases h'
    · rw [e4, e5, e6]; exact hl.idle
    · rw [e4, hl.closed ho]; intro c cs h'; cases h'
    · rw [e6, (hl.idle (hl.closed ho)).2]; intro a ha; cases ha
  · rw [e3] at hd
    have hl := hi.log h w hw hd
    have hn := hi.num h w hw hd ht
    refine ⟨?_, fun _ => ?_, fun h' => ?_, ?_, ?_, ?_⟩
    · rw [e9]; exact hn.loaded
    · rw [e9]; exact e8
    · rw [e4, hl.closed ho] at h'; exact absurd rfl h'
    · rw [e6]; exact hn.above
    · rw [e6]; exact hn.sorted
    · rw [e6]; exact hn.below

theorem inv_batch {s : Sys F} {A : List (Ack F)} (hi : Inv s A) (h : Nat) (w : Wr F) (hw : s.wr h = some w)
    (hidle : idle w = true) (cmds : List (Cmd F)) :
    Inv ((⟨s.cas, s.log, s.wr⟩ : Sys F).set h (start { w with cmds := cmds, done := [] })) A := by
  unfold idle at hidle
  simp only [Bool.and_eq_true, Bool.not_eq_true', List.isEmpty_iff] at hidle
  obtain ⟨⟨ho, hdd⟩, hc⟩ := hidle
  have hl := hi.log h w hw hdd
  refine inv_keep hi h w _ _ hw (start_same _).1 (grows_refl _) (fun hd => ?_) (fun hd ht => ?_)
  · exact start_wlog ho (hl.seg ho) (fun _ => ⟨(hl.idle hc).1, rfl⟩) (by simp) hd
  · exact start_wnum (hi.num h w hw hdd ht).loaded ((hi.num h w hw hdd ht).ahead ho) (by simp) (by simp) (by simp) hd

theorem inv_frame {s : Sys F} {A : List (Ack F)} (hi : Inv s A) (h : Nat) (w : Wr F) (hw : s.wr h = some w)
    (hd : w.dead = false) (f : F) (fs : List F) (hf : w.todo = f :: fs) :
    Inv ((⟨s.cas, addFrame w.seg (w.next, f) s.log, s.wr⟩ : Sys F).set h (frameWr w)) A := by
  have hl := hi.log h w hw hd
  have hg := grows_addFrame w.seg (w.next, f) s.log
  have hop : w.opened = true := by
    cases ho : w.opened
    · have := (hl.idle (hl.closed ho)).1
      rw [hf] at this
      cases this
    · rfl
  have hcm : w.cmds ≠ [] := by
    intro e
    have := (hl.idle e).1
    rw [hf] at this
    cases this
  refine inv_keep hi h w _ _ hw rfl hg (fun _ => ?_) (fun _ ht => ?_)
  · refine ⟨fun _ => hg.has (hl.seg hop), hl.closed, fun e => absurd e hcm, fun c cs e => ?_,
      fun a ha => hg.recorded (hl.done a ha)⟩
    obtain ⟨hne, pre, h1, h2, h3⟩ := hl.busy c cs e
    refine ⟨hne, pre ++ [f], ?_, ?_, ?_⟩
    · rw [h1, hf]; simp [frameWr, hf]
    · simp only [frameWr, List.length_append, List.length_singleton]; omega
    · intro i g hig
      rw [List.getElem?_append] at hig
      split at hig
      · exact hg.inLog (h3 i g hig)
      · rename_i hlt
        have hz : i - pre.length = 0 := by
          by_contra hne0
          rw [List.getElem?_eq_none (by simp; omega)] at hig
          cases hig
        rw [hz] at hig
        cases hig
        have hin := addFrame_has w.seg (w.next, f) s.log (hl.seg hop)
        have : (frameWr w).first + i = w.next := by simp only [frameWr]; omega
        rw [this]
        exact hin
  · have hn := hi.num h w hw hd ht
    refine ⟨hn.loaded, fun _ => ?_, hn.first, hn.above, hn.sorted, hn.below⟩
    have := hn.ahead hop
    simp only [frameWr]; omega

theorem inv_dead {s : Sys F} {A : List (Ack F)} (hi : Inv s A) (h : Nat) (w : Wr F) (hw : s.wr h = some w)
    (l : Log F) (w' : Wr F) (ht : w'.tag = w.tag) (hd : w'.dead = true) (hg : Grows s.log l) :
    Inv ((⟨s.cas, l, s.wr⟩ : Sys F).set h w') A :=
  inv_keep hi h w w' l hw ht hg (fun e => by rw [hd] at e; cases e) (fun e => by rw [hd] at e; cases e)

/-- The end of a command, when the task and the log are as the rotation left them. -/
theorem inv_persist {s : Sys F} {A : List (Ack F)} (hi : Inv s A) (h : Nat) (w w' : Wr F) (hw : s.wr h = some w)
    (hd : w.dead = false) (l : Log F) (hg : Grows s.log l) (hs : ∃ g ∈ l, g.1 = w'.seg)
    (e0 : w'.tag = w.tag) (e1 : w'.opened = w.opened) (e2 : w'.next = w.next) (e3 : w'.first = w.first)
    (e4 : w'.todo = w.todo) (e5 : w'.cmds = w.cmds) (e6 : w'.done = w.done) (c : Cmd F) (cs : List (Cmd F))
    (hc : w.cmds = c :: cs) (ht : w.todo = []) (io : Io) :
    Inv ((⟨(persist true s.cas (record w' c.commit) io).1, l, s.wr⟩ : Sys F).set h
        (if (persist true s.cas (record w' c.commit) io).2.2 then (advance (persist true s.cas (record w' c.commit) io).2.1 c).1
          else { (persist true s.cas (record w' c.commit) io).2.1 with dead := true }))
      (A ++ (if (persist true s.cas (record w' c.commit) io).2.2 then
          (advance (persist true s.cas (record w' c.commit) io).2.1 c).2 else [])) := by
  have hl := hi.log h w hw hd
  have hop : w.opened = true := by
    cases ho : w.opened
    · have := hl.closed ho
      rw [hc] at this
      cases this
    · rfl
  obtain ⟨hne, pre, hp1, hp2, hp3⟩ := hl.busy c cs hc
  rw [ht, List.append_nil] at hp1
  have hlen : 0 < c.frames.length := List.length_pos_of_ne_nil hne
  rcases persist_cases s.cas (record w' c.commit) io rfl with e | ⟨htag, e⟩ | ⟨htag, e⟩
  · rw [e]
    simp only [Bool.false_eq_true, if_false, List.append_nil]
    exact inv_dead hi h w hw l _ e0 rfl hg
  · rw [e]
    simp only [if_true]
    have htag' : w.tag = curTag s.cas := by rw [← e0]; exact htag
    have hn := hi.num h w hw hd htag'
    have hst : (record w' c.commit).st.lastFrame = some (w.next - 1) := by simp only [record]; rw [e2]
    have hcn := hn.next hop
    have hfirst := hn.first (by rw [hc]; simp)
    have hf1 : 1 ≤ curNext s.cas := by
      unfold curNext after
      split <;> omega
    have haft : after (record w' c.commit).st.lastFrame = w.next := by
      rw [hst]; unfold after; simp only; omega
    have hack : Recorded l (c, w.first, w.next - 1) := by
      refine ⟨hne, le_trans hf1 hfirst, ?_, ?_⟩
      · simp only; rw [hp2, hp1]; rw [hp1] at hlen; omega
      · intro i f hif
        simp only at hif
        rw [hp1] at hif
        exact hg.inLog (hp3 i f hif)
    have hdone : ∀ a ∈ w.done ++ [(c, w.first, w.next - 1)], a.2.2 < w.next ∧ Recorded l a := by
      intro a ha
      rcases List.mem_append.1 ha with ha | ha
      · exact ⟨lt_of_lt_of_le (hn.below a ha) hcn, hg.recorded (hl.done a ha)⟩
      · rw [List.mem_singleton.1 ha]
        refine ⟨?_, hack⟩
        simp only; omega
    have hab : ∀ a ∈ A, ∀ d ∈ w.done ++ [(c, w.first, w.next - 1)], a.2.2 < d.2.1 := by
      intro a ha d hd'
      rcases List.mem_append.1 hd' with hd' | hd'
      · exact hn.above a ha d hd'
      · rw [List.mem_singleton.1 hd']
        exact lt_of_lt_of_le (hi.acks a ha).1 hfirst
    have hsort : (w.done ++ [(c, w.first, w.next - 1)]).Pairwise (fun a b => a.2.2 < b.2.1) := by
      rw [List.pairwise_append]
      refine ⟨hn.sorted, List.pairwise_singleton _ _, ?_⟩
      intro a ha b hb
      rw [List.mem_singleton.1 hb]
      exact lt_of_lt_of_le (hn.below a ha) hfirst
    cases cs with
    | nil =>
      have ea : advance { record w' c.commit with tag := some s.cas.fresh, dirty := false } c =
          ({ record w' c.commit with tag := some s.cas.fresh, dirty := false, cmds := [], done := [] },
            w.done ++ [(c, w.first, w.next - 1)]) := by
        unfold advance
        simp only [record, e5, hc, e6, e3, e2]
      rw [ea]
      refine inv_put hi h w _ l _ hw (.inl rfl) hg (fun _ => ?_) (fun _ => ?_) ?_ ?_ ?_
      · refine ⟨fun _ => hs, fun ho => ?_, fun _ => ⟨?_, rfl⟩, fun _ _ e' => (by cases e'), by simp⟩
        · rfl
        · simp only [record]; rw [e4, ht]
      · refine ⟨le_refl _, fun _ => ?_, fun e' => absurd rfl e', by simp, by simp, by simp⟩
        · change after (record w' c.commit).st.lastFrame ≤ w'.next
          rw [haft, e2]
      · rw [haft]; exact hcn
      · rw [haft]; exact hdone
      · rw [List.pairwise_append]
        exact ⟨hi.sorted, hsort, hab⟩
    | cons d cs =>
      have ea : advance { record w' c.commit with tag := some s.cas.fresh, dirty := false } c =
          (start { record w' c.commit with
            tag := some s.cas.fresh, dirty := false, cmds := d :: cs, done := w.done ++ [(c, w.first, w.next - 1)] }, []) := by
        unfold advance
        simp only [record, e5, hc, e6, e3, e2]
      rw [ea]
      generalize hv : ({ record w' c.commit with
            tag := some s.cas.fresh, dirty := false, cmds := d :: cs, done := w.done ++ [(c, w.first, w.next - 1)] } : Wr F) = v
      have hss := start_same v
      have v1 : v.tag = some s.cas.fresh := by rw [← hv]
      have v2 : v.opened = true := by rw [← hv]; simp only [record]; rw [e1, hop]
      have v3 : v.seg = w'.seg := by rw [← hv]; rfl
      have v4 : v.cmds = d :: cs := by rw [← hv]
      have v5 : v.done = w.done ++ [(c, w.first, w.next - 1)] := by rw [← hv]
      have v6 : v.next = w.next := by rw [← hv]; exact e2
      have v7 : v.st = (record w' c.commit).st := by rw [← hv]
      refine inv_put hi h w _ l (record w' c.commit).st hw (.inl (hss.1.trans v1)) hg (fun hdd => ?_) (fun hdd => ?_) ?_ (by simp) ?_
      · exact start_wlog v2 (v3 ▸ hs) (fun e' => by rw [v4] at e'; cases e') (fun a ha => (hdone a (v5 ▸ ha)).2) hdd
      · refine start_wnum ?_ ?_ ?_ (v5 ▸ hsort) (fun a ha => ?_) hdd
        · rw [v7]; exact le_refl _
        · rw [v7, haft, v6]
        · rw [List.append_nil, v5]; exact hab
        · change _ < after (record w' c.commit).st.lastFrame
          rw [haft]
          exact (hdone a (v5 ▸ ha)).1
      · rw [haft]; exact hcn
      · rw [List.append_nil]; exact hi.sorted
  · rw [e]
    simp only [Bool.false_eq_true, if_false]
    have htag' : w.tag = curTag s.cas := by rw [← e0]; exact htag
    have hn := hi.num h w hw hd htag'
    have hcn := hn.next hop
    refine inv_put hi h w _ l _ hw (.inr ⟨e0, rfl⟩) hg (fun h' => by cases h') (fun h' => by cases h') ?_ (by simp) ?_
    · simp only [record, after]; rw [e2]; omega
    · rw [List.append_nil]; exact hi.sorted

theorem inv_finish {s : Sys F} {A : List (Ack F)} (hi : Inv s A) (h : Nat) (w : Wr F) (hw : s.wr h = some w)
    (hd : w.dead = false) (c : Cmd F) (cs : List (Cmd F)) (hc : w.cmds = c :: cs) (ht : w.todo = []) (io : Io) :
    Inv ((⟨(finishWr true s.cas s.log w c io).1, (finishWr true s.cas s.log w c io).2.1, s.wr⟩ : Sys F).set h
      (finishWr true s.cas s.log w c io).2.2.1) (A ++ (finishWr true s.cas s.log w c io).2.2.2) := by
  have hl := hi.log h w hw hd
  have hop : w.opened = true := by
    cases ho : w.opened
    · have := hl.closed ho
      rw [hc] at this
      cases this
    · rfl
  by_cases hf : c.full = true
  · cases hr : rotateWr w s.log with
    | none =>
      have e : finishWr true s.cas s.log w c io = (s.cas, s.log, { w with dead := true }, []) := by
        unfold finishWr
        rw [if_pos hf, hr]
      rw [e]
      simp only [List.append_nil]
      exact inv_dead hi h w hw s.log _ rfl rfl (grows_refl _)
    | some w' =>
      obtain ⟨e0, e1, ed, e2, e3, e4, e5, e6, -, -, -⟩ := rotateWr_same hr
      have := inv_persist hi h w w' hw hd (ensure w'.seg s.log) (grows_ensure _ _) (ensure_has _ _) e0 e1 e2 e3 e4 e5 e6 c cs hc ht io
      unfold finishWr
      rw [if_pos hf, hr]
      simp only [if_pos hf]
      cases hp : (persist true s.cas (record w' c.commit) io).2.2 <;> rw [hp] at this <;> simpa using this
  · have := inv_persist hi h w w hw hd s.log (grows_refl _) (hl.seg hop) rfl rfl rfl rfl rfl rfl rfl c cs hc ht io
    unfold finishWr
    rw [if_neg hf]
    simp only [if_neg hf]
    cases hp : (persist true s.cas (record w c.commit) io).2.2 <;> rw [hp] at this <;> simpa using this

theorem idle_iff (w : Wr F) : idle w = true ↔ w.opened = true ∧ w.dead = false ∧ w.cmds = [] := by
  unfold idle
  simp only [Bool.and_eq_true, Bool.not_eq_true', List.isEmpty_iff, and_assoc]

/-- Writing the state file between two commands. `w'` is the task as it writes, `v` the task afterwards. -/
theorem inv_write {s : Sys F} {A : List (Ack F)} (hi : Inv s A) (h : Nat) (w w' : Wr F) (hw : s.wr h = some w)
    (hidle : w.opened = true ∧ w.dead = false ∧ w.cmds = []) (l : Log F) (hg : Grows s.log l)
    (hseg : ∃ g ∈ l, g.1 = w'.seg) (e0 : w'.tag = w.tag) (e1 : w'.opened = w.opened) (e2 : w'.next = w.next)
    (e4 : w'.todo = w.todo) (e5 : w'.cmds = w.cmds) (e6 : w'.done = w.done) (e7 : w'.st.lastFrame = w.st.lastFrame)
    (e8 : w'.first = w.first) (io : Io) (b : Bool) :
    Inv ((⟨(persist true s.cas w' io).1, l, s.wr⟩ : Sys F).set h
      (if (persist true s.cas w' io).2.2 && b then (persist true s.cas w' io).2.1
        else { (persist true s.cas w' io).2.1 with dead := true })) A := by
  obtain ⟨ho, hd, hc⟩ := hidle
  have hl := hi.log h w hw hd
  by_cases hdirty : w'.dirty = true
  · have key : ∀ v : Wr F, v.st = w'.st → v.opened = w'.opened → v.next = w'.next → v.cmds = w'.cmds → v.done = w'.done →
        v.todo = w'.todo → v.first = w'.first → v.seg = w'.seg →
        (v.tag = some s.cas.fresh ∨ (v.tag = w.tag ∧ v.dead = true)) → w.tag = curTag s.cas →
        Inv ((⟨⟨some (w'.st, s.cas.fresh), s.cas.fresh + 1⟩, l, s.wr⟩ : Sys F).set h v) A := by
      intro v v1 v2 v3 v4 v5 v6 v8 v7 hv ht
      have hn := hi.num h w hw hd ht
      have := inv_put (B := []) hi h w v l w'.st hw hv hg ?_ (fun _ => ?_) ?_ (by simp) (by rw [List.append_nil]; exact hi.sorted)
      · rwa [List.append_nil] at this
      · intro _
        exact hl.reseg hg (v7 ▸ hseg) (v2.trans e1) (v3.trans e2) (v8.trans e8) (v6.trans e4) (v4.trans e5) (v5.trans e6)
      · have hdn : v.done = [] := by rw [v5, e6, (hl.idle hc).2]
        refine ⟨?_, fun _ => ?_, fun e => ?_, ?_, ?_, ?_⟩
        · rw [v1]; exact le_refl _
        · rw [v1, v3, e2, e7]; exact hn.ahead ho
        · rw [v4, e5, hc] at e; exact absurd rfl e
        · rw [hdn]; simp
        · rw [hdn]; simp
        · rw [hdn]; simp
      · rw [e7]; exact hn.loaded
    rcases persist_cases s.cas w' io hdirty with e | ⟨htag, e⟩ | ⟨htag, e⟩
    · rw [e]
      simp only [Bool.false_and, Bool.false_eq_true, if_false]
      exact inv_dead hi h w hw l _ e0 rfl hg
    · rw [e]
      simp only [Bool.true_and]
      refine key _ ?_ ?_ ?_ ?_ ?_ ?_ ?_ ?_ ?_ (e0 ▸ htag) <;> cases b <;> simp
    · rw [e]
      simp only [Bool.false_and, Bool.false_eq_true, if_false]
      exact key _ rfl rfl rfl rfl rfl rfl rfl rfl (.inr ⟨e0, rfl⟩) (e0 ▸ htag)
  · have e : persist true s.cas w' io = (s.cas, w', true) := by
      unfold persist
      simp [hdirty]
    rw [e]
    simp only [Bool.true_and]
    cases b
    · exact inv_dead hi h w hw l _ e0 rfl hg
    · refine inv_keep hi h w _ l hw e0 hg (fun _ => ?_) (fun _ ht => ?_)
      · exact hl.reseg hg hseg e1 e2 e8 e4 e5 e6
      · exact (hi.num h w hw hd ht).same e1 e2 e8 e5 e6 e7

theorem step_eq (sf : Bool) (s : Sys F) (o : Op F) (hl : ∀ h, o ≠ .load h) :
    step sf s o = match s.wr o.handle with | none => (s, []) | some w => act sf s o.handle w o := by
  cases o
  case load h => exact absurd rfl (hl h)
  all_goals (unfold step; simp only [Op.handle]; split <;> simp_all)

/-- The invariant is kept by every step. -/
theorem inv_step {s : Sys F} {A : List (Ack F)} (hi : Inv s A) (o : Op F) :
    Inv (step true s o).1 (A ++ (step true s o).2) := by
  by_cases hl : ∃ h, o = .load h
  · obtain ⟨h, rfl⟩ := hl
    rw [step, List.append_nil]
    exact inv_load hi _
  rw [step_eq true s o (fun h e => hl ⟨h, e⟩)]
  cases hw : s.wr o.handle with
  | none =>
    rw [List.append_nil]
    exact hi
  | some w =>
    revert hw
    generalize o.handle = h
    intro hw
    simp only
    cases o with
    | load i => rw [act, List.append_nil]; exact hi
    | opened i =>
      unfold act
      simp only
      split
      · rw [List.append_nil]; exact hi
      · rename_i hc
        simp only [Bool.or_eq_true, not_or, Bool.not_eq_true] at hc
        rw [List.append_nil]
        exact inv_opened hi h w hw hc.1
    | batch i cmds =>
      unfold act
      simp only
      split
      · rename_i hc
        rw [List.append_nil]
        exact inv_batch hi h w hw hc cmds
      · rw [List.append_nil]; exact hi
    | frame i ok =>
      unfold act
      simp only
      cases hf : w.todo with
      | nil => rw [List.append_nil]; exact hi
      | cons f fs =>
        simp only
        cases hd : w.dead
        · cases ok
          · simp only [Bool.false_eq_true, if_false, List.append_nil]
            exact inv_dead hi h w hw s.log _ rfl rfl (grows_refl _)
          · simp only [Bool.false_eq_true, if_false, if_true, List.append_nil]
            exact inv_frame hi h w hw hd f fs hf
        · simp only [if_true, List.append_nil]
          exact hi
    | finish i io =>
      unfold act
      simp only
      cases hc : w.cmds with
      | nil => simp only [List.append_nil]; exact hi
      | cons c cs =>
        cases ht : w.todo with
        | cons f fs => simp only [List.append_nil]; exact hi
        | nil =>
          simp only
          cases hd : w.dead
          · simp only [Bool.false_eq_true, if_false]
            exact inv_finish hi h w hw hd c cs hc ht io
          · simp only [if_true, List.append_nil]
            exact hi
    | rotate i io =>
      unfold act
      simp only
      split
      · rename_i hc
        rw [idle_iff] at hc
        simp only [List.append_nil]
        unfold rotateReq
        split
        · exact inv_keep hi h w w s.log hw rfl (grows_refl _) (hi.log h w hw) (hi.num h w hw)
        · cases hr : rotateWr w s.log with
          | none => exact inv_dead hi h w hw s.log _ rfl rfl (grows_refl _)
          | some w' =>
            obtain ⟨e0, e1, ed, e2, e3, e4, e5, e6, e7, -, -⟩ := rotateWr_same hr
            have := inv_write hi h w w' hw hc (ensure w'.seg s.log) (grows_ensure _ _) (ensure_has _ _) e0 e1 e2 e4 e5 e6 e7 e3 io true
            simpa using this
      · simp only [List.append_nil]; exact hi
    | shutdown i io =>
      unfold act
      simp only
      split
      · rename_i hc
        rw [idle_iff] at hc
        simp only [List.append_nil]
        have := inv_write hi h w w hw hc s.log (grows_refl _) ((hi.log h w hw hc.2.1).seg hc.1) rfl rfl rfl rfl rfl rfl rfl rfl io false
        simpa using this
      · simp only [List.append_nil]; exact hi
    | kill i =>
      rw [act, List.append_nil]
      exact inv_dead hi h w hw s.log _ rfl rfl (grows_refl _)

theorem inv_from : ∀ (ops : List (Op F)) (s : Sys F) (A : List (Ack F)), Inv s A →
    Inv (ops.foldl (fun s o => (step true s o).1) s) (A ++ acksFrom true s ops)
  | [], _, _, h => by simpa [acksFrom] using h
  | o :: ops, s, A, h => by
    have := inv_from ops _ _ (inv_step h o)
    rw [List.append_assoc] at this
    exact this

theorem inv_run (ops : List (Op F)) : Inv (run true ops) (acks true ops) := by
  have := inv_from ops _ _ (inv_new (F := F))
  rwa [List.nil_append] at this

/-! ## Fencing -/

/-- The state file was written after handle `h` saw it last. -/
def Stale (s : Sys F) (h : Nat) : Prop :=
  ∃ n t, curTag s.cas = some t ∧ n ≤ t ∧ ∀ w u, s.wr h = some w → w.tag = some u → u < n

/-- What a step does to the state file and to what the tasks know of it. -/
def Moves (s : Sys F) (h : Nat) (r : Sys F × List (Ack F)) : Prop :=
  (r.1.cas = s.cas ∧ r.2 = [] ∧ ∀ j, (r.1.wr j).map (·.tag) = (s.wr j).map (·.tag)) ∨
  ∃ w, s.wr h = some w ∧ w.tag = curTag s.cas ∧ curTag r.1.cas = some s.cas.fresh ∧ ∀ j, j ≠ h → r.1.wr j = s.wr j

theorem moves_keep {s : Sys F} {h : Nat} {w w' : Wr F} (hw : s.wr h = some w) (ht : w'.tag = w.tag) (l : Log F) :
    Moves s h ((⟨s.cas, l, s.wr⟩ : Sys F).set h w', []) := by
  refine .inl ⟨rfl, rfl, fun j => ?_⟩
  simp only [Sys.set]
  split
  · rename_i e
    rw [e, hw, Option.map_some, Option.map_some, ht]
  · rfl

theorem moves_self (s : Sys F) (h : Nat) : Moves s h (s, []) := .inl ⟨rfl, rfl, fun _ => rfl⟩

theorem moves_put {s : Sys F} {h : Nat} {w w' : Wr F} (hw : s.wr h = some w) (ht : w.tag = curTag s.cas) (l : Log F) (st : St) (n : Nat)
    (a : List (Ack F)) : Moves s h ((⟨⟨some (st, s.cas.fresh), n⟩, l, s.wr⟩ : Sys F).set h w', a) := by
  refine .inr ⟨w, hw, ht, rfl, fun j hj => ?_⟩
  simp only [Sys.set]
  rw [if_neg hj]

theorem moves_persist {s : Sys F} {h : Nat} {w w' : Wr F} (hw : s.wr h = some w) (e0 : w'.tag = w.tag) (l : Log F) (io : Io)
    (g : Wr F × Bool → Wr F) (a : Wr F × Bool → List (Ack F)) (hg : ∀ v b, (g (v, b)).tag = v.tag)
    (ha : ∀ b, w'.dirty = false ∨ b = false → a (w', b) = []) :
    Moves s h ((⟨(persist true s.cas w' io).1, l, s.wr⟩ : Sys F).set h (g (persist true s.cas w' io).2),
      a (persist true s.cas w' io).2) := by
  cases hd : w'.dirty
  · have e : persist true s.cas w' io = (s.cas, w', true) := by
      unfold persist
      simp [hd]
    rw [e]
    simp only
    rw [ha true (.inl hd)]
    exact moves_keep hw (by rw [hg, e0]) l
  · rcases persist_cases s.cas w' io hd with e | ⟨htag, e⟩ | ⟨htag, e⟩
    · rw [e]
      simp only
      rw [ha false (.inr rfl)]
      exact moves_keep hw (by rw [hg, e0]) l
    · rw [e]
      exact moves_put hw (e0 ▸ htag) _ _ _ _
    · rw [e]
      exact moves_put hw (e0 ▸ htag) _ _ _ _

theorem advance_tag (w : Wr F) (c : Cmd F) : (advance w c).1.tag = w.tag := by
  unfold advance
  split
  · rw [(start_same _).1]
  · rfl

theorem act_moves (s : Sys F) (h : Nat) (w : Wr F) (hw : s.wr h = some w) (o : Op F) : Moves s h (act true s h w o) := by
  cases o with
  | load i => exact moves_self _ _
  | opened i =>
    unfold act
    simp only
    split
    · exact moves_self _ _
    · exact moves_keep hw (openWr_same w s.log).1 _
  | batch i cmds =>
    unfold act
    simp only
    split
    · exact moves_keep hw (by exact (start_same _).1) s.log
    · exact moves_self _ _
  | frame i ok =>
    unfold act
    simp only
    split
    · exact moves_self _ _
    · split
      · exact moves_self _ _
      · split
        · exact moves_keep hw (by rfl) _
        · exact moves_keep hw (by rfl) s.log
  | finish i io =>
    unfold act
    simp only
    split
    · rename_i c cs hc ht
      split
      · exact moves_self _ _
      · have fin : ∀ (w' : Wr F) (l : Log F), w'.tag = w.tag →
            Moves s h ((⟨(persist true s.cas (record w' c.commit) io).1, l, s.wr⟩ : Sys F).set h
              (if (persist true s.cas (record w' c.commit) io).2.2 then (advance (persist true s.cas (record w' c.commit) io).2.1 c).1
                else { (persist true s.cas (record w' c.commit) io).2.1 with dead := true }),
              (if (persist true s.cas (record w' c.commit) io).2.2 then
                (advance (persist true s.cas (record w' c.commit) io).2.1 c).2 else [])) := by
          intro w' l e0
          refine moves_persist (w' := record w' c.commit) hw e0 l io
            (fun p => if p.2 then (advance p.1 c).1 else { p.1 with dead := true })
            (fun p => if p.2 then (advance p.1 c).2 else []) ?_ ?_
          · intro v b
            cases b
            · rfl
            · exact advance_tag v c
          · intro b hb
            rcases hb with hb | rfl
            · cases hb
            · rfl
        by_cases hf : c.full = true
        · cases hr : rotateWr w s.log with
          | none =>
            have e : finishWr true s.cas s.log w c io = (s.cas, s.log, { w with dead := true }, []) := by
              unfold finishWr
              rw [if_pos hf, hr]
            rw [e]
            exact moves_keep hw (by rfl) s.log
          | some w' =>
            have := fin w' (ensure w'.seg s.log) (rotateWr_same hr).1
            unfold finishWr
            rw [if_pos hf, hr]
            simp only [if_pos hf]
            cases hp : (persist true s.cas (record w' c.commit) io).2.2 <;> rw [hp] at this <;> simpa using this
        · have := fin w s.log rfl
          unfold finishWr
          rw [if_neg hf]
          simp only [if_neg hf]
          cases hp : (persist true s.cas (record w c.commit) io).2.2 <;> rw [hp] at this <;> simpa using this
    · exact moves_self _ _
  | rotate i io =>
    unfold act
    simp only
    split
    · unfold rotateReq
      split
      · exact moves_keep hw (by rfl) s.log
      · cases hr : rotateWr w s.log with
        | none => exact moves_keep hw (by rfl) s.log
        | some w' =>
          exact moves_persist (w' := w') hw (rotateWr_same hr).1 (ensure w'.seg s.log) io
            (fun p => if p.2 then p.1 else { p.1 with dead := true }) (fun _ => [])
            (by intro v b; cases b <;> rfl) (fun _ _ => rfl)
    · exact moves_self _ _
  | shutdown i io =>
    unfold act
    simp only
    split
    · exact moves_persist (w' := w) hw rfl s.log io (fun p => { p.1 with dead := true }) (fun _ => [])
        (fun _ _ => rfl) (fun _ _ => rfl)
    · exact moves_self _ _
  | kill i => exact moves_keep hw (by rfl) s.log

theorem step_moves (s : Sys F) (o : Op F) (hl : ∀ h, o ≠ .load h) : Moves s o.handle (step true s o) := by
  rw [step_eq true s o hl]
  cases hw : s.wr o.handle with
  | none => exact moves_self _ _
  | some w => exact act_moves s _ w hw o

/-- A handle that has been overtaken stays so until it is opened again, and acknowledges nothing. -/
theorem stale_step {s : Sys F} {A : List (Ack F)} (hi : Inv s A) {h : Nat} (hs : Stale s h) (o : Op F) (ho : o ≠ .load h) :
    Stale (step true s o).1 h ∧ (o.handle = h → (step true s o).2 = []) := by
  obtain ⟨n, t, ht, hle, hw⟩ := hs
  by_cases hl : ∃ j, o = .load j
  · obtain ⟨j, rfl⟩ := hl
    refine ⟨⟨n, t, ht, hle, fun w u hwu htu => ?_⟩, fun _ => rfl⟩
    have hj : h ≠ j := fun e => ho (e ▸ rfl)
    simp only [step, Sys.set] at hwu
    rw [if_neg hj] at hwu
    exact hw w u hwu htu
  · rcases step_moves s o (fun j e => hl ⟨j, e⟩) with ⟨e1, e2, e3⟩ | ⟨w, hw1, hw2, e1, e2⟩
    · refine ⟨⟨n, t, by rw [e1]; exact ht, hle, fun w u hwu htu => ?_⟩, fun _ => e2⟩
      have := e3 h
      rw [hwu, Option.map_some] at this
      cases hv : s.wr h with
      | none => rw [hv] at this; cases this
      | some v =>
        rw [hv, Option.map_some] at this
        exact hw v u hv ((Option.some.inj this).symm.trans htu)
    · have hne : h ≠ o.handle := by
        intro e
        rw [← e] at hw1
        have := hw w t hw1 (hw2.trans ht)
        omega
      refine ⟨⟨n, _, e1, ?_, fun v u hv hu => ?_⟩, fun e => absurd e.symm hne⟩
      · have := hi.fresh t ht
        omega
      · rw [e2 h hne] at hv
        exact hw v u hv hu

theorem acks_stale {s : Sys F} {A : List (Ack F)} (hi : Inv s A) (o : Op F) (ha : (step true s o).2 ≠ []) (h : Nat)
    (hne : o.handle ≠ h) : Stale (step true s o).1 h := by
  have hl : ∀ j, o ≠ .load j := by
    rintro j rfl
    exact ha rfl
  rcases step_moves s o hl with ⟨-, e2, -⟩ | ⟨w, hw1, hw2, e1, e2⟩
  · exact absurd e2 ha
  · refine ⟨s.cas.fresh, _, e1, le_refl _, fun v u hv hu => ?_⟩
    rw [e2 h (Ne.symm hne)] at hv
    exact hi.tags h v u hv hu

theorem stale_run {h : Nat} : ∀ (m : List (Op F)) (s : Sys F) (A : List (Ack F)), Inv s A → Stale s h → Op.load h ∉ m →
    Stale (m.foldl (fun s o => (step true s o).1) s) h ∧ ∃ B, Inv (m.foldl (fun s o => (step true s o).1) s) B
  | [], _, A, hi, hs, _ => ⟨hs, A, hi⟩
  | o :: m, _, _, hi, hs, hm => by
    rw [List.mem_cons, not_or] at hm
    exact stale_run m _ _ (inv_step hi o) (stale_step hi hs o (Ne.symm hm.1)).1 hm.2

/-! ### The files of the log are in order -/

/-- The numbers of the files increase. -/
def InOrder (l : Log F) : Prop := l.Pairwise (fun a b => a.1 < b.1)

theorem ensure_mem (n : Nat) : ∀ (l : Log F) (g : Nat × List (Nat × F)), g ∈ ensure n l → g ∈ l ∨ g.1 = n
  | [], g, h => by
    simp only [ensure, List.mem_singleton] at h
    exact .inr (by rw [h])
  | s :: ss, g, h => by
    simp only [ensure] at h
    split at h
    · exact .inl h
    · split at h
      · rcases List.mem_cons.1 h with rfl | h
        · exact .inr rfl
        · exact .inl h
      · rcases List.mem_cons.1 h with rfl | h
        · exact .inl List.mem_cons_self
        · rcases ensure_mem n ss g h with h | h
          · exact .inl (List.mem_cons_of_mem _ h)
          · exact .inr h

theorem ensure_inOrder (n : Nat) : ∀ l : Log F, InOrder l → InOrder (ensure n l)
  | [], _ => by simp [ensure, InOrder]
  | s :: ss, h => by
    obtain ⟨h1, h2⟩ := List.pairwise_cons.1 h
    simp only [ensure]
    split
    · exact h
    · split
      · rename_i hlt
        refine List.pairwise_cons.2 ⟨fun g hg => ?_, h⟩
        rcases List.mem_cons.1 hg with rfl | hg
        · exact hlt
        · exact Nat.lt_trans hlt (h1 g hg)
      · refine List.pairwise_cons.2 ⟨fun g hg => ?_, ensure_inOrder n ss h2⟩
        rcases ensure_mem n ss g hg with hg | hg
        · exact h1 g hg
        · omega

theorem addFrame_inOrder (n : Nat) (f : Nat × F) (l : Log F) (h : InOrder l) : InOrder (addFrame n f l) := by
  unfold InOrder addFrame at *
  rw [List.pairwise_map]
  refine h.imp ?_
  intro a b hab
  split <;> split <;> exact hab

theorem act_inOrder (sf : Bool) (s : Sys F) (h : Nat) (w : Wr F) (o : Op F) (hl : InOrder s.log) :
    InOrder (act sf s h w o).1.log := by
  cases o with
  | load => exact hl
  | opened =>
    simp only [act]
    split
    · exact hl
    · exact ensure_inOrder _ _ hl
  | batch =>
    simp only [act]
    split <;> exact hl
  | frame _ ok =>
    simp only [act]
    split
    · exact hl
    · split
      · exact hl
      · split
        · exact addFrame_inOrder _ _ _ hl
        · exact hl
  | finish _ io =>
    simp only [act]
    split
    · split
      · exact hl
      · simp only [Sys.set, finishWr]
        split
        · exact hl
        · split
          · simp only
            split
            · exact ensure_inOrder _ _ hl
            · exact hl
          · simp only
            split
            · exact ensure_inOrder _ _ hl
            · exact hl
    · exact hl
  | rotate _ io =>
    simp only [act]
    split
    · simp only [Sys.set, rotateReq]
      split
      · exact hl
      · split
        · exact hl
        · exact ensure_inOrder _ _ hl
    · exact hl
  | shutdown _ io =>
    simp only [act]
    split <;> exact hl
  | kill => exact hl

theorem step_inOrder (sf : Bool) (s : Sys F) (o : Op F) (hl : InOrder s.log) : InOrder (step sf s o).1.log := by
  unfold step
  split
  · exact hl
  · exact hl
  · exact act_inOrder sf s _ _ _ hl

theorem run_inOrder (sf : Bool) (ops : List (Op F)) : InOrder (run sf ops).log := by
  unfold run
  suffices ∀ s : Sys F, InOrder s.log → InOrder (ops.foldl (fun s o => (step sf s o).1) s).log from
    this _ List.Pairwise.nil
  induction ops with
  | nil => exact fun _ h => h
  | cons o ops ih => exact fun s h => ih _ (step_inOrder sf s o h)

/-- The frames of the last file. -/
theorem frames_of_last {l : Log F} (hl : InOrder l) {g : Nat × List (Nat × F)} (hg : g ∈ l.getLast?) :
    framesOf (lastSeg l) l = g.2 := by
  rw [Option.mem_def] at hg
  have e : lastSeg l = g.1 := by unfold lastSeg; rw [hg]
  rw [e]
  obtain ⟨pre, rfl⟩ := List.getLast?_eq_some_iff.1 hg
  unfold framesOf
  have hp : pre.find? (fun s => s.1 == g.1) = none := by
    rw [List.find?_eq_none]
    intro x hx
    have := (List.pairwise_append.1 hl).2.2 x hx g (List.mem_singleton.2 rfl)
    simp only [beq_iff_eq]
    omega
  rw [List.find?_append, hp]
  simp

end Tonbo.Lemmas.Fence
