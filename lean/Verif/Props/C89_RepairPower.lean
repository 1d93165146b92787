import Verif.Lemmas.RepairPower
import Verif.Props.C85_Repair

/-!
# C89: what the log synced stays in it through power losses and repairs
-/

namespace Tonbo.Props.C89
open Tonbo.Model.Wal Tonbo.Model.Repair Tonbo.Model.RepairPower Tonbo.Spec Tonbo.Spec.Repair Tonbo.Spec.RepairPower
open Tonbo.Lemmas.Repair Tonbo.Lemmas.RepairPower Tonbo.Lemmas.FrameWalk Tonbo.Lemmas.WalTail
open Tonbo.Props.C85 (settled run_settled look_torn exA exB ex_writable)

theorem sent_eq (ops : List POp) : ops.flatMap sentByP = writtenP ops := by
  unfold writtenP
  congr 1

/-- **C89 (partial).** For every steady history of writes, looks at the tail, syncs, crashes, power losses and restarts,
whenever no repair is under way: the log can be read. It has every acknowledged frame in order, except those that a power
loss took: those acknowledged after the last sync before it. Nothing in it is invented, and no look at the tail fails.

Missing: power losses between a repair and the next sync, after which it does not hold
(`synced_frames_are_lost_with_their_repair`), looks at a frame on its way into the file (C85), and devices that bring back
anything else than a beginning of the file. -/
theorem synced_frames_stay_partial (ops : List POp) (hw : WritesP ops) (hu : Steady P.new ops) :
    (¬ Repairing (prun P.new ops).st → ∃ fs tail, readLog (prun P.new ops).st.file = .ok (fs, tail) ∧
      (prun P.new ops).st.acked.Sublist fs ∧ fs.Sublist (writtenP ops)) ∧
    (∀ r, Scan.done r ∈ (prun P.new ops).st.scans → ∃ last, r = .ok last) := by
  have hinv := (pinv_run ops P.new [] pinv_new hw hu).1
  rw [List.nil_append, sent_eq] at hinv
  generalize (prun P.new ops).st = s at hinv
  rcases hinv with ⟨all, rest, h⟩ | ⟨good, i, h⟩
  · refine ⟨fun _ => ?_, fun r hr => ?_⟩
    · obtain ⟨tail, _, t2⟩ := readLog_cut h.wf s.file.length
      rw [← cut_of h.cut] at t2
      exact ⟨_, tail, t2, h.acked, (framesWithin_prefix _ _).sublist.trans h.sub⟩
    · obtain ⟨last, hl⟩ := h.scans _ hr
      exact ⟨last, by injection hl⟩
  · refine ⟨fun hn => absurd (mid_busy h) hn, fun r hr => ?_⟩
    obtain ⟨j, hj⟩ := List.mem_iff_getElem?.1 hr
    by_cases hji : j = i
    · subst hji
      obtain ⟨last, h1 | ⟨h1, _⟩⟩ := h.here
      · rw [hj] at h1; cases h1
      · rw [hj] at h1; cases h1
    · obtain ⟨last, hl⟩ := h.others j _ hji hj
      exact ⟨last, by injection hl⟩

/-- **C89, readability.** Crashes and power losses may fall anywhere, within a repair and before the next sync as well:
at every moment of every history in which no look meets a frame on its way into the file, the log can be read up to an
incomplete frame at its end, nothing in it is invented or out of order, and no look at the tail fails. So a database can
always be opened again, whatever was lost. -/
theorem the_log_stays_readable (ops : List POp) (hw : WritesP ops) (hu : Shaken P.new ops) :
    (∃ fs tail, readLog (prun P.new ops).st.file = .ok (fs, tail) ∧ fs.Sublist (writtenP ops)) ∧
    (∀ r, Scan.done r ∈ (prun P.new ops).st.scans → ∃ last, r = .ok last) := by
  obtain ⟨⟨a, hinv⟩, all, rest, h1, _, h3, h4⟩ := winv_run ops P.new [] winv_new hw hu
  rw [List.nil_append, sent_eq] at hinv h3
  generalize (prun P.new ops).st = s at hinv h4
  refine ⟨?_, fun r hr => ?_⟩
  · obtain ⟨tail, _, t2⟩ := readLog_cut h1 s.file.length
    rw [← cut_of h4] at t2
    exact ⟨_, tail, t2, (framesWithin_prefix _ _).sublist.trans h3⟩
  rcases hinv with ⟨all, rest, h⟩ | ⟨good, i, h⟩
  · obtain ⟨last, hl⟩ := h.scans _ hr
    exact ⟨last, by injection hl⟩
  · obtain ⟨j, hj⟩ := List.mem_iff_getElem?.1 hr
    have hj : (with_ s a).scans[j]? = _ := hj
    by_cases hji : j = i
    · subst hji
      obtain ⟨last, h1 | ⟨h1, _⟩⟩ := h.here
      · rw [hj] at h1; cases h1
      · rw [hj] at h1; cases h1
    · obtain ⟨last, hl⟩ := h.others j _ hji hj
      exact ⟨last, by injection hl⟩

/-- The power fails right after a steady history in which the last thing that was rewritten is synced: whatever else is
left, the log has every frame that was acknowledged when the last sync returned. -/
theorem a_power_loss_keeps_what_was_synced (ops : List POp) (hw : WritesP ops) (hu : Steady P.new ops)
    (hn : ¬ Repairing (prun P.new ops).st) (hr : (prun P.new ops).rewritten = false) (n : Nat) :
    ∃ fs tail, readLog (prun P.new (ops ++ [.power n])).st.file = .ok (fs, tail) ∧ (prun P.new ops).safe.Sublist fs := by
  have split : ∀ (a : List POp) (s : P) (b : List POp), Steady s a → Steady (prun s a) b → Steady s (a ++ b) := by
    intro a
    induction a with
    | nil => intro s b _ h; exact h
    | cons o a ih =>
      intro s b h1 h2
      exact ⟨h1.1, h1.2.1, h1.2.2.1, ih _ _ h1.2.2.2 h2⟩
  have e : prun P.new (ops ++ [.power n]) = pstep (prun P.new ops) (.power n) := by simp [prun]
  have hw' : WritesP (ops ++ [.power n]) := by
    intro f hf
    rcases List.mem_append.1 hf with hf | hf
    · exact hw f hf
    · cases List.mem_singleton.1 hf
  obtain ⟨fs, tail, h1, h2, _⟩ := (synced_frames_stay_partial (ops ++ [.power n]) hw'
    (split _ _ _ hu ⟨fun h => absurd h hn, (fun h => nomatch h), fun _ _ => hr, trivial⟩)).1 (by
      rw [e]
      rintro ⟨c, hc, _⟩
      cases hc)
  refine ⟨fs, tail, h1, ?_⟩
  rw [e] at h2
  exact h2

/-- What a sync covers is everything that was acknowledged before it. -/
theorem a_sync_covers_what_is_acknowledged (s : P) : (pstep s .sync).safe = s.st.acked ∧ (pstep s .sync).rewritten = false :=
  ⟨rfl, rfl⟩

/-! ## Where it fails -/

/-- **The repair of a segment is not synced.** Whatever the log holds, acknowledged and synced: a crash within a frame,
the repair at the next opening, the restart, all of it complete; then the power fails, and every frame of the segment can
be gone. -/
theorem synced_frames_are_lost_with_their_repair (fs : List RawFrame) (f : RawFrame)
    (hf : ∀ g ∈ fs ++ [f], Writable g) (n : Nat) (h0 : 0 < n) (hn : n < (frameBytes f).length) :
    let ops := (settled fs).map POp.op ++ [.sync] ++
      [Op.write f, .move n, .crash, .scan, .go 0, .go 0, .resume].map POp.op
    (prun P.new ops).safe = fs ∧ (prun P.new ops).st.up = true ∧ readLog (prun P.new ops).st.file = .ok (fs, none) ∧
    readLog (prun P.new (ops ++ [.power 0])).st.file = .ok ([], none) := by
  intro ops
  have map : ∀ (os : List Op) (s : P), (prun s (os.map POp.op)).st = run s.st os ∧
      (prun s (os.map POp.op)).safe = s.safe := by
    intro os
    induction os with
    | nil => intro s; exact ⟨rfl, rfl⟩
    | cons o os ih => intro s; exact ih (pstep s (.op o))
  have app : ∀ (s : P) (a b : List POp), prun s (a ++ b) = prun (prun s a) b := fun s a b => by simp [prun]
  have hs : prun P.new ops = ⟨⟨logBytes fs, [], true, fs, [], [.done (.ok (metaOf 0 fs))]⟩, (logBytes fs).length, true, fs⟩ := by
    have h1 : prun P.new ((settled fs).map POp.op ++ [.sync]) =
        ⟨⟨logBytes fs, [], true, fs, [], []⟩, (logBytes fs).length, false, fs⟩ := by
      rw [app]
      obtain ⟨e1, _⟩ := map (settled fs) P.new
      rw [show P.new.st = St.new from rfl, run_settled] at e1
      simp only [prun, List.foldl_cons, List.foldl_nil, pstep] at e1 ⊢
      rw [e1]
    simp only [ops]
    rw [app, h1]
    simp only [prun, List.map_cons, List.map_nil, List.foldl_cons, List.foldl_nil, pstep, step, rewrites, if_true, List.nil_append]
    rw [look_torn hf h0 hn]
    simp [Scan.busy, Scan.fine]
  have e : prun P.new (ops ++ [.power 0]) = pstep (prun P.new ops) (.power 0) := app _ _ _
  rw [e, hs]
  refine ⟨rfl, rfl, ?_, rfl⟩
  exact C85.readLog_whole (fun g hg => hf g (List.mem_append_left _ hg))

/-! ## Histories -/

/-- A check for `Steady`. -/
def steadily : P → List POp → Bool
  | _, [] => true
  | s, o :: os =>
    (!s.st.scans.any Scan.busy || (match o with | .op (.go _) => true | _ => false)) &&
    (match o with
     | .op .scan => !s.st.up || (match readLog s.st.file with | .ok (_, some _) => false | _ => true)
     | .power _ => !s.rewritten
     | _ => true) && steadily (pstep s o) os

theorem steady_of : ∀ (ops : List POp) (s : P), steadily s ops = true → Steady s ops
  | [], _, _ => trivial
  | o :: os, s, h => by
    simp only [steadily, Bool.and_eq_true] at h
    refine ⟨fun hr => ?_, fun ho hup ht => ?_, fun n ho => ?_, steady_of os _ h.2⟩
    · have : s.st.scans.any Scan.busy = true := List.any_eq_true.2 hr
      have h1 := h.1.1
      rw [this] at h1
      cases o with
      | op o => cases o <;> simp at h1; exact ⟨_, rfl⟩
      | sync => simp at h1
      | power n => simp at h1
    · subst ho
      obtain ⟨fs, e, he⟩ := ht
      have h2 := h.1.2
      simp only [hup, he] at h2
      cases h2
    · subst ho
      have h2 := h.1.2
      simpa using h2

/-- A frame, synced; the next one torn by a power loss; the repair, the restart, a sync; a frame that is acknowledged and
taken by a second power loss. -/
def exOps : List POp :=
  (settled [exA]).map POp.op ++ [.sync] ++ [Op.write exB, .move 99, .ack].map POp.op ++ [.power 60] ++
  [Op.scan, .go 0, .go 0, .resume].map POp.op ++ [.sync] ++ [Op.write exB, .move 99, .ack].map POp.op ++ [.power 0]

/-- **The hypotheses can be met**, by a history with two power losses and a repair. -/
example : WritesP exOps ∧ Steady P.new exOps ∧ ¬ Repairing (prun P.new exOps).st ∧
    (prun P.new (exOps.take 8)).st.file.length = 60 ∧
    (prun P.new exOps).st.acked = [exA] ∧ readLog (prun P.new exOps).st.file = .ok ([exA], none) := by
  refine ⟨?_, steady_of _ _ (by decide +kernel), ?_, by decide +kernel, by decide +kernel, by decide +kernel⟩
  · intro f hf
    apply ex_writable
    simp [exOps, settled] at hf
    simp
    tauto
  · rintro ⟨c, hc, hb⟩
    have : (prun P.new exOps).st.scans.all (fun c => !c.busy) = true := by decide +kernel
    have := List.all_eq_true.1 this c hc
    rw [hb] at this
    cases this

/-- Two frames; a crash within the second; a power loss after the repair has emptied the file; a restart, a frame, a crash
within the next, the repair and a power loss before any sync. -/
def exRough : List POp :=
  [Op.write exA, .write exB, .move 60, .crash, .scan, .go 0].map POp.op ++ [.power 0] ++
  [Op.scan, .resume, .write exB, .move 99, .ack, .write exA, .move 7, .crash, .scan, .go 0, .go 0].map POp.op ++ [.power 20]

/-- The step may fall into a repair. -/
def mayInterrupt : POp → Bool
  | .op (.go _) => true
  | .op .crash => true
  | .op _ => false
  | _ => true

/-- A check for `Shaken`. -/
def shaken : P → List POp → Bool
  | _, [] => true
  | s, o :: os =>
    (!s.st.scans.any Scan.busy || mayInterrupt o) &&
    (match o with
     | .op .scan => !s.st.up || (match readLog s.st.file with | .ok (_, some _) => false | _ => true)
     | _ => true) && shaken (pstep s o) os

theorem shaken_of : ∀ (ops : List POp) (s : P), shaken s ops = true → Shaken s ops
  | [], _, _ => trivial
  | o :: os, s, h => by
    simp only [shaken, Bool.and_eq_true] at h
    refine ⟨fun hr => ?_, fun ho hup ht => ?_, shaken_of os _ h.2⟩
    · have : s.st.scans.any Scan.busy = true := List.any_eq_true.2 hr
      have h1 := h.1.1
      rw [this] at h1
      cases o with
      | op o => cases o <;> simp [mayInterrupt] at h1 <;> simp
      | sync => exact .inr (.inr (.inl rfl))
      | power n => exact .inr (.inr (.inr ⟨n, rfl⟩))
    · subst ho
      obtain ⟨fs, e, he⟩ := ht
      have h2 := h.1.2
      simp only [hup, he] at h2
      cases h2

/-- **The hypotheses can be met**, by power losses within a repair and after one; a frame is cut short by the last. -/
example : WritesP exRough ∧ Shaken P.new exRough ∧ (prun P.new (exRough.take 7)).st.file = [] ∧
    (prun P.new (exRough.take 18)).st.acked = [exB] ∧ (prun P.new exRough).st.file.length = 20 := by
  refine ⟨?_, shaken_of _ _ (by decide +kernel), by decide +kernel, by decide +kernel, by decide +kernel⟩
  intro f hf
  apply ex_writable
  simp [exRough] at hf
  simp
  tauto

example := synced_frames_are_lost_with_their_repair [exA] exB ex_writable 10 (by decide) (by decide)

end Tonbo.Props.C89
