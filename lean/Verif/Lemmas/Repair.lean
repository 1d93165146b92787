import Verif.Spec.RepairView
import Verif.Lemmas.WalTail

/-!
# The tail of a log in use
-/

namespace Tonbo.Lemmas.Repair
open Tonbo.Model.Wal Tonbo.Model.Repair Tonbo.Spec Tonbo.Spec.Repair Tonbo.Lemmas.FrameWalk Tonbo.Lemmas.WalTail

theorem logBytes_append (a b : List RawFrame) : logBytes (a ++ b) = logBytes a ++ logBytes b := by
  induction a with
  | nil => rfl
  | cons f a ih =>
    obtain ⟨t, seq, p⟩ := f
    simp [logBytes, ih]

theorem logBytes_one (f : RawFrame) : logBytes [f] = frameBytes f := by
  obtain ⟨t, seq, p⟩ := f
  simp [logBytes, frameBytes]

theorem within_mono : ∀ (fs : List RawFrame) {n m : Nat}, n ≤ m → framesWithin n fs <+: framesWithin m fs
  | [], _, _, _ => by simp [framesWithin]
  | (t, seq, p) :: fs, n, m, h => by
    unfold framesWithin
    by_cases hn : 24 + p.length ≤ n
    · rw [if_pos hn, if_pos (by omega)]
      exact (List.cons_prefix_cons).2 ⟨rfl, within_mono fs (by omega)⟩
    · rw [if_neg hn]
      exact List.nil_prefix

theorem within_append : ∀ (fs gs : List RawFrame) (n : Nat), framesWithin n fs <+: framesWithin n (fs ++ gs)
  | [], _, _ => by simp [framesWithin]
  | (t, seq, p) :: fs, gs, n => by
    rw [List.cons_append]
    unfold framesWithin
    by_cases hn : 24 + p.length ≤ n
    · rw [if_pos hn, if_pos hn]
      exact (List.cons_prefix_cons).2 ⟨rfl, within_append fs gs _⟩
    · rw [if_neg hn, if_neg hn]
      exact List.nil_prefix

theorem scanTail_cut {fs : List RawFrame} (hw : WellFormed fs) (hi : IdsFit fs) (n : Nat) :
    scanTail ((logBytes fs).take n) = .ok (metaOf 0 (framesWithin n fs)) := by
  unfold scanTail
  obtain ⟨tail, _, _, h3⟩ := walk_cut tailVisit fs n
    (max fs.length ((logBytes fs).take n).length) hw (Nat.le_max_left _ _)
  rw [walk_fuel tailVisit ((logBytes fs).take n).length
    (max fs.length ((logBytes fs).take n).length) none _ (le_refl _) (Nat.le_max_right _ _),
    h3 none, visitAll_tail tail _ none (fit_within hi n)]
  simp [offOf]

theorem look_of {file : Bytes} {fs : List RawFrame} (h : scanTail file = .ok (metaOf 0 fs)) :
    look file = if (logBytes fs).length < file.length then .found (file.take (logBytes fs).length) (metaOf 0 fs)
      else .done (.ok (metaOf 0 fs)) := by
  unfold look
  rw [h]
  unfold metaOf
  cases hl : fs.getLast? with
  | none => rw [List.getLast?_eq_none_iff.1 hl]; simp [logBytes]; rfl
  | some f => simp

/-- Looking at a log that is cut anywhere. -/
theorem look_cut {fs : List RawFrame} (hw : WellFormed fs) (hi : IdsFit fs) (n : Nat) :
    look ((logBytes fs).take n) =
      if (logBytes fs).take n = logBytes (framesWithin n fs) then .done (.ok (metaOf 0 (framesWithin n fs)))
      else .found (logBytes (framesWithin n fs)) (metaOf 0 (framesWithin n fs)) := by
  rw [look_of (scanTail_cut hw hi n), take_within]
  have ht := take_within fs n
  have hle : (logBytes (framesWithin n fs)).length ≤ ((logBytes fs).take n).length := by
    have := congrArg List.length ht
    rw [List.length_take] at this
    omega
  by_cases h : (logBytes fs).take n = logBytes (framesWithin n fs)
  · rw [if_pos h, if_neg (by rw [h]; omega)]
  · rw [if_neg h, if_pos]
    rcases Nat.lt_or_eq_of_le hle with h' | h'
    · exact h'
    · rw [h', List.take_length] at ht
      exact absurd ht h

theorem readLog_cut {fs : List RawFrame} (hw : WellFormed fs) (n : Nat) :
    ∃ tail : Option WErr, (tail = none ↔ (logBytes fs).take n = logBytes (framesWithin n fs)) ∧
      readLog ((logBytes fs).take n) = .ok (framesWithin n fs, tail) := by
  have key : ∀ (tail : Option WErr) (gs : List RawFrame) (acc : List RawFrame),
      visitAll (fun acc h p => .ok (some (acc ++ [(h.type, h.seq, p)]))) tail acc gs = .ok (acc ++ gs, tail) := by
    intro tail gs
    induction gs with
    | nil => intro acc; simp [visitAll]
    | cons g gs ih =>
      intro acc
      obtain ⟨t, seq, p⟩ := g
      simp only [visitAll]
      rw [ih]
      simp [Header.new]
  obtain ⟨tail, _, h2, h3⟩ := walk_cut (fun acc h p => .ok (some (acc ++ [(h.type, h.seq, p)]))) fs n
    (max fs.length ((logBytes fs).take n).length) hw (Nat.le_max_left _ _)
  refine ⟨tail, h2, ?_⟩
  unfold readLog
  rw [walk_fuel _ ((logBytes fs).take n).length
    (max fs.length ((logBytes fs).take n).length) _ _ (le_refl _) (Nat.le_max_right _ _), h3 [], key]
  rfl

theorem cut_of {file rest : Bytes} {fs : List RawFrame} (h : file ++ rest = logBytes fs) :
    file = (logBytes fs).take file.length := by rw [← h, List.take_left]

/-- A log without a repair under way: the file is a beginning of `all`, and `rest` is what is missing. -/
structure Calm (s : St) (sent all : List RawFrame) (rest : Bytes) : Prop where
  wf : WellFormed all
  ids : IdsFit all
  sub : all.Sublist sent
  cut : s.file ++ rest = logBytes all
  open_ : s.up = true → rest = s.pending ∧ (s.acked ++ s.unacked).Sublist all
  closed : s.up = false → s.pending = [] ∧ s.unacked = [] ∧ (s.scans ≠ [] → rest = [])
  acked : s.acked.Sublist (framesWithin s.file.length all)
  scans : ∀ c ∈ s.scans, ∃ last, c = .done (.ok last)

/-- A repair under way, by look `i`. -/
structure Mid (s : St) (sent good : List RawFrame) (i : Nat) : Prop where
  wf : WellFormed good
  ids : IdsFit good
  sub : good.Sublist sent
  up : s.up = false
  pending : s.pending = []
  unacked : s.unacked = []
  acked : s.acked.Sublist good
  here : ∃ last, s.scans[i]? = some (.found (logBytes good) last) ∨ (s.scans[i]? = some (.emptied (logBytes good) last) ∧ s.file = [])
  others : ∀ j c, j ≠ i → s.scans[j]? = some c → ∃ last, c = .done (.ok last)

def Inv (s : St) (sent : List RawFrame) : Prop := (∃ all rest, Calm s sent all rest) ∨ ∃ good i, Mid s sent good i

theorem inv_new : Inv St.new [] :=
  .inl ⟨[], [], (fun _ h => by cases h), (fun _ h => by cases h), List.Sublist.refl _, rfl,
    (fun _ => ⟨rfl, List.Sublist.refl _⟩), (fun h => by cases h), List.Sublist.refl _, (fun _ h => by cases h)⟩

theorem calm_quiet {s : St} {sent all : List RawFrame} {rest : Bytes} (h : Calm s sent all rest) : ¬ Repairing s := by
  rintro ⟨c, hc, hb⟩
  obtain ⟨last, rfl⟩ := h.scans c hc
  cases hb

theorem mid_busy {s : St} {sent good : List RawFrame} {i : Nat} (h : Mid s sent good i) : Repairing s := by
  obtain ⟨last, h1 | ⟨h1, _⟩⟩ := h.here
  · exact ⟨_, List.mem_of_getElem? h1, rfl⟩
  · exact ⟨_, List.mem_of_getElem? h1, rfl⟩

/-- The frames a step hands over. -/
def sentBy : Op → List RawFrame
  | .write f => [f]
  | _ => []

theorem calm_step {s : St} {sent all : List RawFrame} {rest : Bytes} (h : Calm s sent all rest) (o : Op)
    (hw : ∀ f, o = .write f → Writable f) (ht : o = .scan → s.up = true → ¬ Torn s.file) :
    Inv (step s o) (sent ++ sentBy o) := by
  have sub' : all.Sublist (sent ++ sentBy o) := h.sub.trans (List.sublist_append_left _ _)
  cases o with
  | write f =>
    simp only [step]
    split_ifs with hup
    · obtain ⟨h1, h2⟩ := h.open_ hup
      obtain ⟨w1, w2, w3⟩ := hw f rfl
      refine .inl ⟨all ++ [f], s.pending ++ frameBytes f, ?_, ?_, ?_, ?_, ?_, ?_, ?_, h.scans⟩
      · intro g hg
        rcases List.mem_append.1 hg with hg | hg
        · exact h.wf g hg
        · obtain rfl := List.mem_singleton.1 hg
          exact ⟨w1, w2⟩
      · intro g hg
        rcases List.mem_append.1 hg with hg | hg
        · exact h.ids g hg
        · obtain rfl := List.mem_singleton.1 hg
          exact w3
      · exact h.sub.append (List.Sublist.refl _)
      · rw [logBytes_append, logBytes_one, ← h.cut, h1, List.append_assoc]
      · intro _
        refine ⟨rfl, ?_⟩
        rw [← List.append_assoc]
        exact h2.append (List.Sublist.refl _)
      · intro hd; rw [hup] at hd; cases hd
      · exact h.acked.trans (within_append all [f] _).sublist
    · exact .inl ⟨all, rest, h.wf, h.ids, sub', h.cut, h.open_, h.closed, h.acked, h.scans⟩
  | move n =>
    simp only [step]
    by_cases hup : s.up = true
    · obtain ⟨h1, h2⟩ := h.open_ hup
      refine .inl ⟨all, s.pending.drop n, h.wf, h.ids, sub', ?_, fun _ => ⟨rfl, h2⟩, ?_, ?_, h.scans⟩
      · rw [List.append_assoc, List.take_append_drop, ← h.cut, h1]
      · intro hd; rw [hup] at hd; cases hd
      · exact h.acked.trans (within_mono all (by simp)).sublist
    · have hd : s.up = false := by simpa using hup
      obtain ⟨h1, h2, h3⟩ := h.closed hd
      rw [h1, List.take_nil, List.drop_nil, List.append_nil]
      refine .inl ⟨all, rest, h.wf, h.ids, sub', h.cut, fun hu => ?_, fun _ => ⟨rfl, h2, h3⟩, h.acked, h.scans⟩
      rw [hd] at hu; cases hu
  | ack =>
    simp only [step]
    split_ifs with hp
    · by_cases hup : s.up = true
      · obtain ⟨h1, h2⟩ := h.open_ hup
        have hf : s.file = logBytes all := by rw [← h.cut, h1, hp, List.append_nil]
        refine .inl ⟨all, rest, h.wf, h.ids, sub', h.cut, fun _ => ⟨h1, by simpa using h2⟩, ?_, ?_, h.scans⟩
        · intro hd; rw [hup] at hd; cases hd
        · rw [hf, framesWithin_all]; exact h2
      · have hd : s.up = false := by simpa using hup
        obtain ⟨h1, h2, h3⟩ := h.closed hd
        refine .inl ⟨all, rest, h.wf, h.ids, sub', h.cut, fun hu => ?_, fun _ => ⟨h1, rfl, h3⟩, ?_, h.scans⟩
        · have hu : s.up = true := hu
          rw [hd] at hu; cases hu
        · simp only [h2, List.append_nil]; exact h.acked
    · exact .inl ⟨all, rest, h.wf, h.ids, sub', h.cut, h.open_, h.closed, h.acked, h.scans⟩
  | scan =>
    simp only [step]
    have hc := cut_of h.cut
    obtain ⟨tail, t1, t2⟩ := readLog_cut h.wf s.file.length
    rw [← hc] at t1 t2
    have hl := look_cut h.wf h.ids s.file.length
    rw [← hc] at hl
    by_cases hwhole : s.file = logBytes (framesWithin s.file.length all)
    · rw [if_pos hwhole] at hl
      have good : ∀ c ∈ s.scans ++ [look s.file], ∃ last, c = .done (.ok last) := by
        intro c hc
        rcases List.mem_append.1 hc with hc | hc
        · exact h.scans c hc
        · rw [hl] at hc
          exact ⟨_, List.mem_singleton.1 hc⟩
      by_cases hup : s.up = true
      · refine .inl ⟨all, rest, h.wf, h.ids, sub', h.cut, h.open_, fun hd => ?_, h.acked, good⟩
        have hd : s.up = false := hd
        rw [hup] at hd; cases hd
      · have hd : s.up = false := by simpa using hup
        obtain ⟨h1, h2, h3⟩ := h.closed hd
        refine .inl ⟨framesWithin s.file.length all, [], fun f hf => h.wf f ((framesWithin_prefix _ _).subset hf),
          fit_within h.ids _, (framesWithin_prefix _ _).sublist.trans sub', by simp only [List.append_nil]; exact hwhole,
          fun hu => ?_, fun _ => ⟨h1, h2, fun _ => rfl⟩, ?_, good⟩
        · have hu : s.up = true := hu
          rw [hd] at hu; cases hu
        · have : framesWithin s.file.length (framesWithin s.file.length all) = framesWithin s.file.length all := by
            conv_lhs => rw [show framesWithin s.file.length (framesWithin s.file.length all) =
              framesWithin (logBytes (framesWithin s.file.length all)).length (framesWithin s.file.length all) from by
                rw [← hwhole]]
            exact framesWithin_all _
          simp only
          rw [this]
          exact h.acked
    · rw [if_neg hwhole] at hl
      have hd : s.up = false := by
        cases hup : s.up with
        | false => rfl
        | true =>
          exfalso
          refine ht rfl hup ?_
          cases tail with
          | none => exact absurd (t1.1 rfl) hwhole
          | some e => exact ⟨_, e, t2⟩
      obtain ⟨h1, h2, h3⟩ := h.closed hd
      refine .inr ⟨framesWithin s.file.length all, s.scans.length, fun f hf => h.wf f ((framesWithin_prefix _ _).subset hf),
        fit_within h.ids _, (framesWithin_prefix _ _).sublist.trans sub', hd, h1, h2, h.acked, ⟨metaOf 0 (framesWithin s.file.length all), .inl ?_⟩, ?_⟩
      · simp only
        rw [hl, List.getElem?_append_right (le_refl _), Nat.sub_self]
        rfl
      · intro j c hj hc
        simp only at hc
        rcases Nat.lt_or_ge j s.scans.length with hlt | hge
        · rw [List.getElem?_append_left hlt] at hc
          exact h.scans c (List.mem_of_getElem? hc)
        · rw [List.getElem?_append_right hge] at hc
          have : j - s.scans.length ≠ 0 := by omega
          obtain ⟨k, hk⟩ := Nat.exists_eq_succ_of_ne_zero this
          rw [hk] at hc
          cases hc
  | go i =>
    have : step s (.go i) = s := by
      simp only [step]
      cases hi : s.scans[i]? with
      | none => rfl
      | some c =>
        obtain ⟨last, rfl⟩ := h.scans c (List.mem_of_getElem? hi)
        rfl
    rw [this]
    exact .inl ⟨all, rest, h.wf, h.ids, sub', h.cut, h.open_, h.closed, h.acked, h.scans⟩
  | resume =>
    simp only [step]
    split_ifs with hg
    · rw [Bool.and_eq_true] at hg
      by_cases hup : s.up = true
      · refine .inl ⟨all, rest, h.wf, h.ids, sub', h.cut, fun _ => h.open_ hup, fun hd => ?_, h.acked, h.scans⟩
        cases hd
      · have hd : s.up = false := by simpa using hup
        obtain ⟨h1, h2, h3⟩ := h.closed hd
        have hr : rest = [] := h3 (by rintro hn; rw [hn] at hg; cases hg.1)
        have hf : s.file = logBytes all := by rw [← h.cut, hr, List.append_nil]
        refine .inl ⟨all, rest, h.wf, h.ids, sub', h.cut, fun _ => ⟨by rw [hr, h1], ?_⟩, fun hd => ?_, h.acked, h.scans⟩
        · have := h.acked
          rw [hf, framesWithin_all] at this
          simp only [h2, List.append_nil]
          exact this
        · cases hd
    · exact .inl ⟨all, rest, h.wf, h.ids, sub', h.cut, h.open_, h.closed, h.acked, h.scans⟩
  | crash =>
    simp only [step]
    exact .inl ⟨all, rest, h.wf, h.ids, sub', h.cut, (fun hu => by cases hu), fun _ => ⟨rfl, rfl, fun hn => absurd rfl hn⟩,
      h.acked, (fun _ hc => by cases hc)⟩

theorem mid_go {s : St} {sent good : List RawFrame} {i : Nat} (h : Mid s sent good i) (j : Nat) : Inv (step s (.go j)) sent := by
  by_cases hj : j = i
  · subst hj
    obtain ⟨last, h1 | ⟨h1, hf⟩⟩ := h.here
    · have hlen : j < s.scans.length := (List.getElem?_eq_some_iff.1 h1).1
      simp only [step, h1]
      refine .inr ⟨good, j, h.wf, h.ids, h.sub, h.up, h.pending, h.unacked, h.acked, ⟨last, .inr ⟨?_, rfl⟩⟩, ?_⟩
      · simp [hlen]
      · intro k c hk hc
        simp only [List.getElem?_set_ne (fun e => hk e.symm)] at hc
        exact h.others k c hk hc
    · simp only [step, h1]
      rw [hf, List.drop_nil, List.append_nil]
      refine .inl ⟨good, [], h.wf, h.ids, h.sub, List.append_nil _, fun hu => ?_, fun _ => ⟨h.pending, h.unacked, fun _ => rfl⟩,
        ?_, ?_⟩
      · have hu : s.up = true := hu
        rw [h.up] at hu; cases hu
      · simp only [framesWithin_all]; exact h.acked
      · intro c hc
        obtain ⟨k, hk⟩ := List.mem_iff_getElem?.1 hc
        by_cases hkj : k = j
        · subst hkj
          have hlen : k < s.scans.length := (List.getElem?_eq_some_iff.1 h1).1
          simp only [List.getElem?_set_self hlen, Option.some.injEq] at hk
          exact ⟨last, hk.symm⟩
        · simp only [List.getElem?_set_ne (fun e => hkj e.symm)] at hk
          exact h.others k c hkj hk
  · have : step s (.go j) = s := by
      simp only [step]
      cases hc : s.scans[j]? with
      | none => rfl
      | some c =>
        obtain ⟨last, rfl⟩ := h.others j c hj hc
        rfl
    rw [this]
    exact .inr ⟨good, i, h⟩

/-- The frames a history hands over. -/
def sentIn (ops : List Op) : List RawFrame := ops.flatMap sentBy

theorem inv_run : ∀ (ops : List Op) (s : St) (sent : List RawFrame), Inv s sent → Writes ops → Undisturbed s ops →
    Inv (run s ops) (sent ++ sentIn ops)
  | [], s, sent, h, _, _ => by simpa [run, sentIn] using h
  | o :: os, s, sent, h, hw, hu => by
    obtain ⟨u1, u2, u3⟩ := hu
    have next : Inv (step s o) (sent ++ sentBy o) := by
      rcases h with ⟨all, rest, h⟩ | ⟨good, i, h⟩
      · exact calm_step h o (fun f e => hw f (by rw [e]; exact List.mem_cons_self)) u2
      · obtain ⟨j, rfl⟩ := u1 (mid_busy h)
        simpa [sentBy] using mid_go h j
    have := inv_run os (step s o) _ next (fun f hf => hw f (List.mem_cons_of_mem _ hf)) u3
    rw [List.append_assoc] at this
    exact this

end Tonbo.Lemmas.Repair
