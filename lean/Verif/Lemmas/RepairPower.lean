import Verif.Spec.RepairPowerView
import Verif.Lemmas.Repair

/-!
# A log with power losses
-/

namespace Tonbo.Lemmas.RepairPower
open Tonbo.Model.Wal Tonbo.Model.Repair Tonbo.Model.RepairPower Tonbo.Spec Tonbo.Spec.Repair Tonbo.Spec.RepairPower
open Tonbo.Lemmas.Repair Tonbo.Lemmas.FrameWalk Tonbo.Lemmas.WalTail

/-- What the last sync covered is in the part of the file that is on the device. -/
structure Kept (s : P) : Prop where
  len : s.synced ≤ s.st.file.length
  safe : ∃ fs tail, readLog (s.st.file.take s.synced) = .ok (fs, tail) ∧ s.safe.Sublist fs

def PInv (s : P) (sent : List RawFrame) : Prop := Inv s.st sent ∧ (s.rewritten = false → Kept s)

theorem pinv_new : PInv P.new [] :=
  ⟨inv_new, fun _ => ⟨Nat.le_refl _, [], none, rfl, List.Sublist.refl _⟩⟩

/-- A step that does not rewrite the file appends to it. -/
theorem step_grows (s : St) (o : Op) (h : rewrites s o = false) : ∃ x, (step s o).file = s.file ++ x := by
  cases o with
  | write f => simp only [step]; split_ifs <;> exact ⟨[], by simp⟩
  | move n => exact ⟨_, rfl⟩
  | ack => simp only [step]; split_ifs <;> exact ⟨[], by simp⟩
  | scan => exact ⟨[], by simp [step]⟩
  | go i =>
    simp only [rewrites] at h
    simp only [step]
    cases hi : s.scans[i]? with
    | none => exact ⟨[], by simp⟩
    | some c =>
      rw [hi] at h
      cases c with
      | found a b => cases h
      | emptied a b => cases h
      | done r => exact ⟨[], by simp⟩
  | resume => simp only [step]; split_ifs <;> exact ⟨[], by simp⟩
  | crash => exact ⟨[], by simp [step]⟩

/-- The frames a step hands over. -/
def sentByP : POp → List RawFrame
  | .op (.write f) => [f]
  | _ => []

theorem take_cut {file rest : Bytes} {fs : List RawFrame} (h : file ++ rest = logBytes fs) {k : Nat} (hk : k ≤ file.length) :
    file.take k = (logBytes fs).take k := by
  rw [← h, List.take_append_of_le_length hk]

theorem pinv_step {s : P} {sent : List RawFrame} (h : PInv s sent) (o : POp) (hw : ∀ f, o = .op (.write f) → Writable f)
    (u1 : Repairing s.st → ∃ i, o = .op (.go i)) (u2 : o = .op .scan → s.st.up = true → ¬ Torn s.st.file)
    (u3 : ∀ n, o = .power n → s.rewritten = false) : PInv (pstep s o) (sent ++ sentByP o) := by
  obtain ⟨hi, hk⟩ := h
  cases o with
  | op o =>
    refine ⟨?_, ?_⟩
    · have e : sentByP (.op o) = sentBy o := by cases o <;> rfl
      rw [e]
      change Inv (step s.st o) _
      rcases hi with ⟨all, rest, h⟩ | ⟨good, i, h⟩
      · exact calm_step h o (fun f e => hw f (by rw [e])) (fun e => u2 (by rw [e]))
      · obtain ⟨j, hj⟩ := u1 (mid_busy h)
        cases hj
        simpa [sentBy] using mid_go h j
    · intro hr
      simp only [pstep, Bool.or_eq_false_iff] at hr
      obtain ⟨k1, fs, tail, k2, k3⟩ := hk hr.1
      obtain ⟨x, hx⟩ := step_grows s.st o hr.2
      refine ⟨?_, fs, tail, ?_, k3⟩
      · change s.synced ≤ (step s.st o).file.length
        rw [hx, List.length_append]
        omega
      · change readLog ((step s.st o).file.take s.synced) = _
        rw [hx, List.take_append_of_le_length k1]
        exact k2
  | sync =>
    refine ⟨by simpa [sentByP, pstep] using hi, fun _ => ⟨Nat.le_refl _, ?_⟩⟩
    simp only [pstep, List.take_length]
    rcases hi with ⟨all, rest, h⟩ | ⟨good, i, h⟩
    · obtain ⟨tail, _, t2⟩ := readLog_cut h.wf s.st.file.length
      rw [← cut_of h.cut] at t2
      exact ⟨_, tail, t2, h.acked⟩
    · obtain ⟨j, hj⟩ := u1 (mid_busy h)
      cases hj
  | power n =>
    have hr := u3 n rfl
    obtain ⟨k1, fs, tail, k2, k3⟩ := hk hr
    rcases hi with ⟨all, rest, h⟩ | ⟨good, i, h⟩
    swap
    · obtain ⟨j, hj⟩ := u1 (mid_busy h)
      cases hj
    have hl : left s n = s.st.file.take (max n s.synced) := by unfold left; rw [hr]; rfl
    have hlen : (left s n).length = min (max n s.synced) s.st.file.length := by rw [hl, List.length_take]
    have hcut : left s n = (logBytes all).take (left s n).length := by
      rw [← take_cut h.cut (by rw [hlen]; omega), hlen, hl, List.take_eq_take_iff]
      omega
    have hsafe : s.safe.Sublist (framesWithin (left s n).length all) := by
      obtain ⟨t, _, t2⟩ := readLog_cut h.wf s.synced
      rw [← take_cut h.cut k1, k2] at t2
      injection t2 with t2
      injection t2 with t2 _
      rw [t2] at k3
      exact k3.trans (within_mono all (by rw [hlen]; omega)).sublist
    refine ⟨.inl ⟨all, s.st.file.drop (max n s.synced) ++ rest, h.wf, h.ids, ?_, ?_, (fun e => by cases e),
      fun _ => ⟨rfl, rfl, fun e => absurd rfl e⟩, hsafe, (fun _ hc => by cases hc)⟩, fun _ => ⟨Nat.le_refl _, ?_⟩⟩
    · exact h.sub.trans (List.sublist_append_left _ _)
    · simp only [pstep]
      rw [hl, ← List.append_assoc, List.take_append_drop]
      exact h.cut
    · simp only [pstep, List.take_length]
      obtain ⟨t, _, t2⟩ := readLog_cut h.wf (left s n).length
      rw [← hcut] at t2
      exact ⟨_, t, t2, hsafe⟩

theorem pinv_run : ∀ (ops : List POp) (s : P) (sent : List RawFrame), PInv s sent → WritesP ops → Steady s ops →
    PInv (prun s ops) (sent ++ ops.flatMap sentByP)
  | [], s, sent, h, _, _ => by simpa [prun] using h
  | o :: os, s, sent, h, hw, hu => by
    obtain ⟨u1, u2, u3, u4⟩ := hu
    have := pinv_run os (pstep s o) _ (pinv_step h o (fun f e => hw f (by rw [e]; exact List.mem_cons_self)) u1 u2 u3)
      (fun f hf => hw f (List.mem_cons_of_mem _ hf)) u4
    rw [List.append_assoc] at this
    exact this

/-! ## Crashes and power losses anywhere -/

/-- The file is a beginning of the bytes of some of the frames. -/
def Cut (file : Bytes) (sent : List RawFrame) : Prop :=
  ∃ all rest, WellFormed all ∧ IdsFit all ∧ all.Sublist sent ∧ file ++ rest = logBytes all

theorem cut_take {file : Bytes} {sent : List RawFrame} (h : Cut file sent) (n : Nat) : Cut (file.take n) sent := by
  obtain ⟨all, rest, h1, h2, h3, h4⟩ := h
  exact ⟨all, file.drop n ++ rest, h1, h2, h3, by rw [← List.append_assoc, List.take_append_drop, h4]⟩

theorem cut_more {file : Bytes} {sent : List RawFrame} (h : Cut file sent) (more : List RawFrame) : Cut file (sent ++ more) := by
  obtain ⟨all, rest, h1, h2, h3, h4⟩ := h
  exact ⟨all, rest, h1, h2, h3.trans (List.sublist_append_left _ _), h4⟩

theorem cut_nil (sent : List RawFrame) : Cut [] sent :=
  ⟨[], [], (fun _ h => by cases h), (fun _ h => by cases h), List.nil_sublist _, rfl⟩

/-- The log with other frames acknowledged. -/
def with_ (s : St) (a : List RawFrame) : St := { s with acked := a }

theorem step_with (s : St) (a : List RawFrame) (o : Op) : ∃ b, step (with_ s a) o = with_ (step s o) b := by
  cases o with
  | write f => exact ⟨a, by by_cases h : s.up = true <;> simp [step, with_, h]⟩
  | move n => exact ⟨a, rfl⟩
  | ack =>
    by_cases h : s.pending = []
    · exact ⟨a ++ s.unacked, by simp [step, with_, h]⟩
    · exact ⟨a, by simp [step, with_, h]⟩
  | scan => exact ⟨a, rfl⟩
  | go i => simp only [step, with_]; split <;> exact ⟨_, rfl⟩
  | resume =>
    refine ⟨a, ?_⟩
    by_cases h : (s.scans.any Scan.fine && !s.scans.any Scan.busy) = true
    · simp only [step, with_, if_pos h]
      exact if_pos h
    · simp only [step, with_, if_neg h]
      exact if_neg h
  | crash => exact ⟨a, rfl⟩

/-- The invariant of C85 but for what is acknowledged. -/
def WInv (s : St) (sent : List RawFrame) : Prop := (∃ a, Inv (with_ s a) sent) ∧ Cut s.file sent

theorem winv_new : WInv St.new [] := ⟨⟨[], inv_new⟩, cut_nil _⟩

/-- A process that has just ended. -/
theorem winv_down {file : Bytes} {sent : List RawFrame} (h : Cut file sent) (a : List RawFrame) :
    WInv ⟨file, [], false, a, [], []⟩ sent := by
  refine ⟨⟨[], ?_⟩, h⟩
  obtain ⟨all, rest, h1, h2, h3, h4⟩ := h
  exact .inl ⟨all, rest, h1, h2, h3, h4, (fun e => by cases e), fun _ => ⟨rfl, rfl, fun e => absurd rfl e⟩,
    List.nil_sublist _, fun _ hc => by cases hc⟩

theorem winv_step {s : St} {sent : List RawFrame} (h : WInv s sent) (o : Op) (hw : ∀ f, o = .write f → Writable f)
    (u1 : Repairing s → (∃ i, o = .go i) ∨ o = .crash) (u2 : o = .scan → s.up = true → ¬ Torn s.file) :
    WInv (step s o) (sent ++ sentBy o) := by
  obtain ⟨⟨a, hi⟩, hc⟩ := h
  by_cases hcr : o = .crash
  · subst hcr
    exact winv_down (cut_more hc _) s.acked
  obtain ⟨b, hb⟩ := step_with s a o
  have hi' : Inv (with_ (step s o) b) (sent ++ sentBy o) := by
    rw [← hb]
    rcases hi with ⟨all, rest, h⟩ | ⟨good, i, h⟩
    · exact calm_step h o hw u2
    · rcases u1 (mid_busy (s := with_ s a) h) with ⟨j, rfl⟩ | e
      · simpa [sentBy] using mid_go h j
      · exact absurd e hcr
  refine ⟨⟨b, hi'⟩, ?_⟩
  rcases hi' with ⟨all, rest, h'⟩ | ⟨good, i, h'⟩
  · exact ⟨all, rest, h'.wf, h'.ids, h'.sub, h'.cut⟩
  obtain ⟨last, h1 | ⟨_, h2⟩⟩ := h'.here
  swap
  · have h2 : (step s o).file = [] := h2
    rw [h2]
    exact cut_nil _
  suffices hf : (step s o).file = s.file by rw [hf]; exact cut_more hc _
  have h1 : (step s o).scans[i]? = some (.found (logBytes good) last) := h1
  have old : o ≠ .scan → (∀ j, o ≠ .go j) → (step s o).scans = s.scans := by
    intro n1 n2
    cases o with
    | write f => simp only [step]; split_ifs <;> rfl
    | move n => rfl
    | ack => simp only [step]; split_ifs <;> rfl
    | scan => exact absurd rfl n1
    | go j => exact absurd rfl (n2 j)
    | resume => simp only [step]; split_ifs <;> rfl
    | crash => exact absurd rfl hcr
  by_cases n1 : o = .scan
  · subst n1; rfl
  by_cases n2 : ∃ j, o = .go j
  · obtain ⟨j, rfl⟩ := n2
    simp only [step] at h1 ⊢
    cases hj : s.scans[j]? with
    | none => rfl
    | some c =>
      cases c with
      | done r => rfl
      | found x y =>
        exfalso
        rw [hj] at h1
        simp only at h1
        rcases hi with ⟨all, rest, h⟩ | ⟨g, k, h⟩
        · obtain ⟨_, e⟩ := h.scans _ (List.mem_of_getElem? hj)
          cases e
        · by_cases hjk : j = k
          · subst hjk
            by_cases hij : i = j
            · subst hij
              rw [List.getElem?_set_self (List.getElem?_eq_some_iff.1 hj).1] at h1
              cases h1
            · rw [List.getElem?_set_ne (fun e => hij e.symm)] at h1
              obtain ⟨_, e⟩ := h.others i _ hij h1
              cases e
          · obtain ⟨_, e⟩ := h.others j _ hjk hj
            cases e
      | emptied x y =>
        exfalso
        rw [hj] at h1
        simp only at h1
        rcases hi with ⟨all, rest, h⟩ | ⟨g, k, h⟩
        · obtain ⟨_, e⟩ := h.scans _ (List.mem_of_getElem? hj)
          cases e
        · by_cases hjk : j = k
          · subst hjk
            by_cases hij : i = j
            · subst hij
              rw [List.getElem?_set_self (List.getElem?_eq_some_iff.1 hj).1] at h1
              cases h1
            · rw [List.getElem?_set_ne (fun e => hij e.symm)] at h1
              obtain ⟨_, e⟩ := h.others i _ hij h1
              cases e
          · obtain ⟨_, e⟩ := h.others j _ hjk hj
            cases e
  · exfalso
    rw [old n1 (fun j e => n2 ⟨j, e⟩)] at h1
    rcases u1 ⟨_, List.mem_of_getElem? h1, rfl⟩ with e | e
    · exact n2 e
    · exact hcr e

theorem winv_run : ∀ (ops : List POp) (s : P) (sent : List RawFrame), WInv s.st sent → WritesP ops → Shaken s ops →
    WInv (prun s ops).st (sent ++ ops.flatMap sentByP)
  | [], s, sent, h, _, _ => by simpa [prun] using h
  | o :: os, s, sent, h, hw, hu => by
    obtain ⟨u1, u2, u4⟩ := hu
    have next : WInv (pstep s o).st (sent ++ sentByP o) := by
      cases o with
      | op o =>
        have e : sentByP (.op o) = sentBy o := by cases o <;> rfl
        rw [e]
        refine winv_step h o (fun f e => hw f (by rw [e]; exact List.mem_cons_self)) (fun hr => ?_) (fun e => u2 (by rw [e]))
        rcases u1 hr with ⟨i, e⟩ | e | e | ⟨n, e⟩
        · exact .inl ⟨i, by injection e⟩
        · exact .inr (by injection e)
        · cases e
        · cases e
      | sync => simpa [sentByP, pstep] using h
      | power n =>
        simp only [sentByP, List.append_nil]
        exact winv_down (cut_take h.2 _) s.safe
    have := winv_run os (pstep s o) _ next (fun f hf => hw f (List.mem_cons_of_mem _ hf)) u4
    rw [List.append_assoc] at this
    exact this

end Tonbo.Lemmas.RepairPower
