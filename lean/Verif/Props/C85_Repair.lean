import Verif.Lemmas.Repair

/-!
# C85: what the log acknowledged stays in it while its tail is looked at and repaired

Every flush, every transaction that commits and every opening of the database looks at the tail of the active log
segment, and rewrites the file if its last frame is incomplete. Frames that were acknowledged have to survive that.

They do if no look meets a frame on its way into the file and a repair, once begun, is finished before anything else
happens (`acknowledged_frames_stay_partial`). Nothing in the code ensures either. A look that meets a frame half written
erases it after the writer has acknowledged it (`a_look_erases_what_is_acknowledged_after_it`), or leaves a file that
nobody can read any more (`a_look_breaks_the_log`); a crash during the repair loses every frame of the segment
(`a_crash_during_the_repair_loses_the_segment`).
-/

namespace Tonbo.Props.C85
open Tonbo.Model.Wal Tonbo.Model.Repair Tonbo.Spec Tonbo.Spec.Repair Tonbo.Lemmas.Repair Tonbo.Lemmas.FrameWalk Tonbo.Lemmas.WalTail

theorem sentIn_eq (ops : List Op) : sentIn ops = written ops := by
  unfold sentIn written
  congr 1

theorem inv_of (ops : List Op) (hw : Writes ops) (hu : Undisturbed St.new ops) : Inv (run St.new ops) (written ops) := by
  have := inv_run ops St.new [] inv_new hw hu
  rwa [List.nil_append, sentIn_eq] at this

/-- **C85 (part).** For every history of writes, looks at the tail, crashes and restarts in which looks are undisturbed,
whenever no repair is under way: the log can be read, it contains every acknowledged frame in order, and nothing in it is
invented. And no look ever fails, so the database can always be opened again. -/
theorem acknowledged_frames_stay_partial (ops : List Op) (hw : Writes ops) (hu : Undisturbed St.new ops) :
    (¬ Repairing (run St.new ops) → ∃ fs tail, readLog (run St.new ops).file = .ok (fs, tail) ∧
      (run St.new ops).acked.Sublist fs ∧ fs.Sublist (written ops)) ∧
    (∀ r, Scan.done r ∈ (run St.new ops).scans → ∃ last, r = .ok last) := by
  rcases inv_of ops hw hu with ⟨all, rest, h⟩ | ⟨good, i, h⟩
  · refine ⟨fun _ => ?_, fun r hr => ?_⟩
    · obtain ⟨tail, _, t2⟩ := readLog_cut h.wf (run St.new ops).file.length
      rw [← cut_of h.cut] at t2
      exact ⟨_, tail, t2, h.acked, (framesWithin_prefix _ _).sublist.trans h.sub⟩
    · obtain ⟨last, hl⟩ := h.scans _ hr
      exact ⟨last, by injection hl⟩
  · refine ⟨fun hn => absurd (mid_busy h) hn, fun r hr => ?_⟩
    obtain ⟨j, hj⟩ := List.mem_iff_getElem?.1 hr
    by_cases hji : j = i
    · subst hji
      obtain ⟨last, h1 | ⟨h1, _⟩⟩ := h.here
      · rw [hj] at h1; cases h1
      · rw [hj] at h1; cases h1
    · obtain ⟨last, hl⟩ := h.others j _ hji hj
      exact ⟨last, by injection hl⟩

/-- A repair that nothing disturbs is over after two steps. -/
theorem a_repair_ends (ops : List Op) (hw : Writes ops) (hu : Undisturbed St.new ops)
    (hr : Repairing (run St.new ops)) :
    ∃ i, Undisturbed St.new (ops ++ [.go i, .go i]) ∧ ¬ Repairing (run St.new (ops ++ [.go i, .go i])) ∧
      (run St.new (ops ++ [.go i, .go i])).acked = (run St.new ops).acked ∧
      ∃ fs, readLog (run St.new (ops ++ [.go i, .go i])).file = .ok (fs, none) := by
  have split : ∀ (a : List Op) (s : St) (b : List Op), Undisturbed s a → Undisturbed (run s a) b → Undisturbed s (a ++ b) := by
    intro a
    induction a with
    | nil => intro s b _ h; exact h
    | cons o a ih =>
      intro s b h1 h2
      exact ⟨h1.1, h1.2.1, ih _ _ h1.2.2 h2⟩
  rcases inv_of ops hw hu with ⟨all, rest, h⟩ | ⟨good, i, h⟩
  · exact absurd hr (calm_quiet h)
  · have hrun : run St.new (ops ++ [.go i, .go i]) = step (step (run St.new ops) (.go i)) (.go i) := by
      simp [run]
    have hend : let s' := step (step (run St.new ops) (.go i)) (.go i)
        s'.file = logBytes good ∧ s'.acked = (run St.new ops).acked ∧
          ∃ last, s'.scans = (run St.new ops).scans.set i (.done (.ok last)) := by
      obtain ⟨last, h1 | ⟨h1, hf⟩⟩ := h.here
      · have hlen : i < (run St.new ops).scans.length := (List.getElem?_eq_some_iff.1 h1).1
        have a : step (run St.new ops) (.go i) =
            { run St.new ops with file := [], scans := (run St.new ops).scans.set i (.emptied (logBytes good) last) } := by
          simp only [step, h1]
        rw [a]
        simp only [step, List.getElem?_set_self hlen, List.drop_nil, List.append_nil, List.set_set]
        exact ⟨trivial, trivial, last, rfl⟩
      · have hlen : i < (run St.new ops).scans.length := (List.getElem?_eq_some_iff.1 h1).1
        have a : step (run St.new ops) (.go i) =
            { run St.new ops with file := logBytes good, scans := (run St.new ops).scans.set i (.done (.ok last)) } := by
          simp only [step, h1, hf, List.drop_nil, List.append_nil]
        rw [a]
        simp only [step, List.getElem?_set_self hlen, List.drop_nil, List.append_nil, List.set_set]
        exact ⟨trivial, trivial, last, rfl⟩
    obtain ⟨e1, e2, last, e3⟩ := hend
    refine ⟨i, split _ _ _ hu ⟨fun _ => ⟨i, rfl⟩, (fun e => nomatch e), fun _ => ⟨i, rfl⟩, (fun e => nomatch e), trivial⟩, ?_, ?_, good, ?_⟩
    · rw [hrun]
      rintro ⟨c, hc, hb⟩
      rw [e3] at hc
      obtain ⟨k, hk⟩ := List.mem_iff_getElem?.1 hc
      by_cases hki : k = i
      · subst hki
        rw [List.getElem?_set_self (by
          have := (List.getElem?_eq_some_iff.1 hk).1
          simpa using this)] at hk
        injection hk with hk
        rw [← hk] at hb
        cases hb
      · rw [List.getElem?_set_ne (fun e => hki e.symm)] at hk
        obtain ⟨l', rfl⟩ := h.others k c hki hk
        cases hb
    · rw [hrun, e2]
    · rw [hrun, e1]
      obtain ⟨tail, t1, t2⟩ := readLog_cut h.wf (logBytes good).length
      rw [framesWithin_all, List.take_length] at t1 t2
      rw [t2, t1.2 rfl]

/-- **The database is not open before the repair of its tail is over**: in every history, whatever comes next. -/
theorem not_open_before_the_repair_is_over (ops : List Op) (o : Op) (hr : Repairing (run St.new ops))
    (hd : (run St.new ops).up = false) : (run St.new (ops ++ [o])).up = false := by
  have e : run St.new (ops ++ [o]) = step (run St.new ops) o := by simp [run]
  rw [e]
  generalize run St.new ops = s at hr hd
  have hb : s.scans.any Scan.busy = true := List.any_eq_true.2 hr
  cases o <;> simp only [step, hd, hb] <;> (try split) <;> simp_all

/-- What was acknowledged stays acknowledged. -/
theorem acknowledgements_are_final (s : St) (ops : List Op) : s.acked <+: (run s ops).acked := by
  induction ops generalizing s with
  | nil => exact List.prefix_refl _
  | cons o ops ih =>
    refine List.IsPrefix.trans ?_ (ih (step s o))
    cases o <;> simp only [step]
    · split_ifs <;> exact List.prefix_refl _
    · exact List.prefix_refl _
    · split_ifs
      · exact List.prefix_append _ _
      · exact List.prefix_refl _
    · exact List.prefix_refl _
    · split <;> exact List.prefix_refl _
    · split_ifs <;> exact List.prefix_refl _
    · exact List.prefix_refl _

/-- In the life of one process: once everything handed over is in the file, everything written is acknowledged. -/
theorem acknowledged_is_everything_written (ops : List Op) (hc : Op.crash ∉ ops) (hp : (run St.new ops).pending = []) :
    (run St.new (ops ++ [.ack])).acked = written ops := by
  have key : ∀ (ops : List Op) (s : St), Op.crash ∉ ops → s.up = true →
      (run s ops).acked ++ (run s ops).unacked = s.acked ++ s.unacked ++ written ops := by
    intro ops
    induction ops with
    | nil => intro s _ _; simp [run, written]
    | cons o ops ih =>
      intro s hc hup
      have hc' : Op.crash ∉ ops := fun h => hc (List.mem_cons_of_mem _ h)
      have hstep : (step s o).up = true ∧
          (step s o).acked ++ (step s o).unacked = s.acked ++ s.unacked ++ written [o] := by
        cases o <;> simp only [step, written]
        · simp [hup]
        · simp [hup]
        · split_ifs <;> simp [hup]
        · simp [hup]
        · split <;> simp [hup]
        · split_ifs <;> simp [hup]
        · exact absurd List.mem_cons_self hc
      have : run s (o :: ops) = run (step s o) ops := rfl
      rw [this, ih _ hc' hstep.1, hstep.2]
      simp [written]
  have := key ops St.new hc rfl
  simp only [run, List.foldl_append, List.foldl_cons, List.foldl_nil] at hp ⊢
  simp only [step, hp, if_true]
  simpa [run, St.new] using this

/-! ## Where it fails -/

theorem run_append (s : St) (a b : List Op) : run s (a ++ b) = run (run s a) b := by simp [run]

theorem run_writes (fs : List RawFrame) (s : St) (hup : s.up = true) :
    run s (fs.map Op.write) = { s with pending := s.pending ++ logBytes fs, unacked := s.unacked ++ fs } := by
  induction fs generalizing s with
  | nil => simp [run, logBytes]
  | cons f fs ih =>
    have : run s ((f :: fs).map Op.write) = run (step s (.write f)) (fs.map Op.write) := rfl
    rw [this, ih _ (by simp [step, hup])]
    simp only [step, hup, if_true]
    rw [show f :: fs = [f] ++ fs from rfl, logBytes_append, logBytes_one]
    simp

/-- Frames written, in the file and acknowledged. -/
def settled (fs : List RawFrame) : List Op := fs.map Op.write ++ [.move (logBytes fs).length, .ack]

theorem run_settled (fs : List RawFrame) : run St.new (settled fs) = ⟨logBytes fs, [], true, fs, [], []⟩ := by
  unfold settled
  rw [run_append, run_writes fs _ rfl]
  simp [run, step, St.new]

theorem frame_size (f : RawFrame) : (frameBytes f).length = 24 + f.2.2.length := by
  exact bytes_len f.1 f.2.2 f.2.1

theorem look_torn {fs : List RawFrame} {f : RawFrame} (hf : ∀ g ∈ fs ++ [f], Writable g) {n : Nat} (h0 : 0 < n)
    (hn : n < (frameBytes f).length) :
    look (logBytes fs ++ (frameBytes f).take n) = .found (logBytes fs) (metaOf 0 fs) := by
  have hcut : logBytes fs ++ (frameBytes f).take n = (logBytes (fs ++ [f])).take ((logBytes fs).length + n) := by
    rw [logBytes_append, logBytes_one, List.take_append, List.take_of_length_le (Nat.le_add_right _ _), Nat.add_sub_cancel_left]
  have hw : framesWithin ((logBytes fs).length + n) (fs ++ [f]) = fs := by
    clear hcut hf
    induction fs with
    | nil =>
      obtain ⟨t, seq, p⟩ := f
      have := frame_size (t, seq, p)
      simp only at this
      simp only [List.nil_append, framesWithin, logBytes, List.length_nil, Nat.zero_add]
      rw [if_neg (by omega)]
    | cons g fs ih =>
      obtain ⟨t, seq, p⟩ := g
      have hl : (logBytes ((t, seq, p) :: fs)).length = 24 + p.length + (logBytes fs).length := by
        rw [show (t, seq, p) :: fs = [(t, seq, p)] ++ fs from rfl, logBytes_append, logBytes_one, List.length_append, frame_size]
      simp only [List.cons_append, framesWithin]
      rw [if_pos (by omega), hl, show 24 + p.length + (logBytes fs).length + n - (24 + p.length) = (logBytes fs).length + n by omega, ih]
  rw [hcut, look_cut (fun g hg => ⟨(hf g hg).1, (hf g hg).2.1⟩) (fun g hg => (hf g hg).2.2), hw, if_neg]
  intro he
  have := congrArg List.length (hcut.trans he)
  rw [List.length_append, List.length_take, Nat.min_eq_left (Nat.le_of_lt hn)] at this
  omega

theorem readLog_whole {fs : List RawFrame} (hf : ∀ g ∈ fs, Writable g) : readLog (logBytes fs) = .ok (fs, none) := by
  obtain ⟨tail, t1, t2⟩ := readLog_cut (fs := fs) (fun g hg => ⟨(hf g hg).1, (hf g hg).2.1⟩) (logBytes fs).length
  rw [framesWithin_all, List.take_length] at t1 t2
  rw [t2, t1.2 rfl]

/-- Whatever the log holds, whatever is written next and wherever it is met half-way: a look at the tail between the two
halves of a frame removes the frame, although the writer acknowledges it before the repair begins. -/
theorem a_look_erases_what_is_acknowledged_after_it (fs : List RawFrame) (f : RawFrame) (hf : ∀ g ∈ fs ++ [f], Writable g)
    (n : Nat) (h0 : 0 < n) (hn : n < (frameBytes f).length) :
    let s := run St.new (settled fs ++
      [.write f, .move n, .scan, .move ((frameBytes f).length - n), .ack, .go 0, .go 0])
    s.acked = fs ++ [f] ∧ readLog s.file = .ok (fs, none) ∧ ¬ Repairing s := by
  intro s
  have hs : s = ⟨logBytes fs, [], true, fs ++ [f], [], [.done (.ok (metaOf 0 fs))]⟩ := by
    simp only [s]
    rw [run_append, run_settled]
    have e1 : (frameBytes f).drop (n + ((frameBytes f).length - n)) = [] := List.drop_eq_nil_of_le (by omega)
    simp only [run, List.foldl_cons, List.foldl_nil, step, if_true, List.nil_append]
    rw [look_torn hf h0 hn, List.drop_drop, e1]
    simp
  rw [hs]
  refine ⟨rfl, readLog_whole (fun g hg => hf g (List.mem_append_left _ hg)), ?_⟩
  rintro ⟨c, hc, hb⟩
  obtain rfl := List.mem_singleton.1 hc
  cases hb

/-- Whatever the log holds: a crash within a frame, and another one during the repair at the next opening, and every
acknowledged frame of the segment is gone. -/
theorem a_crash_during_the_repair_loses_the_segment (fs : List RawFrame) (f : RawFrame)
    (hf : ∀ g ∈ fs ++ [f], Writable g) (n : Nat) (h0 : 0 < n) (hn : n < (frameBytes f).length) :
    let s := run St.new (settled fs ++ [.write f, .move n, .crash, .scan, .go 0, .crash])
    s.acked = fs ∧ readLog s.file = .ok ([], none) := by
  intro s
  have hs : s = ⟨[], [], false, fs, [], []⟩ := by
    simp only [s]
    rw [run_append, run_settled]
    simp only [run, List.foldl_cons, List.foldl_nil, step, if_true, List.nil_append]
    rw [look_torn hf h0 hn]
    simp
  rw [hs]
  exact ⟨rfl, rfl⟩

section Example

/-- Two frames: a plain append and a transaction's commit. -/
def exA : RawFrame := (.txnAppend, 1, [1, 2, 3, 4, 5, 6, 7, 8, 9, 10, 11, 12, 13, 14, 15, 16, 17, 18, 19, 20, 21, 22, 23, 24, 25, 26])
def exB : RawFrame := (.txnCommit, 2, [1, 2, 3, 4, 5, 6, 7, 8])

theorem ex_writable : ∀ g ∈ [exA] ++ [exB], Writable g := by
  intro g hg
  simp only [List.mem_append, List.mem_singleton] at hg
  rcases hg with rfl | rfl <;> refine ⟨by decide, by decide, fun _ => by decide⟩

/-- A check for `Undisturbed`. -/
def calmly : St → List Op → Bool
  | _, [] => true
  | s, o :: os =>
    (!s.scans.any Scan.busy || (match o with | .go _ => true | _ => false)) &&
    (match o with
     | .scan => !s.up || (match readLog s.file with | .ok (_, some _) => false | _ => true)
     | _ => true) && calmly (step s o) os

theorem undisturbed_of : ∀ (ops : List Op) (s : St), calmly s ops = true → Undisturbed s ops
  | [], _, _ => trivial
  | o :: os, s, h => by
    simp only [calmly, Bool.and_eq_true] at h
    refine ⟨fun hr => ?_, fun ho hup ht => ?_, undisturbed_of os _ h.2⟩
    · have : s.scans.any Scan.busy = true := List.any_eq_true.2 hr
      have h1 := h.1.1
      rw [this] at h1
      cases o <;> simp at h1
      exact ⟨_, rfl⟩
    · subst ho
      obtain ⟨fs, e, he⟩ := ht
      have h2 := h.1.2
      simp only [hup, he] at h2
      cases h2

/-- A frame acknowledged, the next one torn by a crash, the repair, the restart, another frame: the hypotheses of the
first theorems are met, and a repair happened. -/
def exOps : List Op := settled [exA] ++ [.write exB, .move 10, .crash, .scan, .go 0, .go 0, .resume, .write exB, .move 99, .ack, .scan]

/-- **An opening in the middle of its repair.** -/
example : Repairing (run St.new (settled [exA] ++ [.write exB, .move 10, .crash, .scan])) ∧
    (run St.new (settled [exA] ++ [.write exB, .move 10, .crash, .scan])).up = false :=
  ⟨List.any_eq_true.1 (by decide +kernel), by decide +kernel⟩

example : Writes exOps ∧ Undisturbed St.new exOps ∧ ¬ Repairing (run St.new exOps) ∧
    (run St.new exOps).acked = [exA, exB] ∧ readLog (run St.new exOps).file = .ok ([exA, exB], none) := by
  refine ⟨?_, ?_, ?_, by decide +kernel, by decide +kernel⟩
  · intro f hf
    apply ex_writable
    simp [exOps, settled] at hf
    simp
    tauto
  · exact undisturbed_of _ _ (by decide +kernel)
  · rintro ⟨c, hc, hb⟩
    have : (run St.new exOps).scans.all (fun c => !c.busy) = true := by decide +kernel
    have := List.all_eq_true.1 this c hc
    rw [hb] at this
    cases this

/-- A history that ends within a repair. -/
example : Repairing (run St.new (exOps.take 7)) ∧ Undisturbed St.new (exOps.take 7) :=
  ⟨List.any_eq_true.1 (by decide +kernel : (run St.new (exOps.take 7)).scans.any Scan.busy = true),
    undisturbed_of _ _ (by decide +kernel)⟩

example := a_look_erases_what_is_acknowledged_after_it [exA] exB ex_writable 10 (by decide) (by decide)
example := a_crash_during_the_repair_loses_the_segment [exA] exB ex_writable 10 (by decide) (by decide)

/-- The rest of a frame that arrives after the repair makes the segment unreadable, with the frames acknowledged before:
the database cannot be opened any more. -/
theorem a_look_breaks_the_log :
    let s := run St.new (settled [exB] ++ [.write exA, .move 10, .scan, .go 0, .go 0, .move 99, .ack])
    s.acked = [exB, exA] ∧ readLog s.file = .error .magic ∧ look s.file = .done (.error .magic) := by
  decide +kernel

end Example

end Tonbo.Props.C85
