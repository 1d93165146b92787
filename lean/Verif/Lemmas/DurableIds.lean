import Verif.Lemmas.DurableClock
import Verif.Spec.Settled

/-!
# Transaction ids in the log of a calm history
-/

set_option linter.unusedSectionVars false

namespace Tonbo.Lemmas.Durable
open Tonbo.Model Tonbo.Model.Manifest Tonbo.Model.Lsm Tonbo.Model.Durable Tonbo.Spec Tonbo.Spec.Durable
open Tonbo.Model.Wal (Event Batch Sch WState)

variable {A K R : Type} [LinearOrder K]

/-- Ids in the log do not descend, and none is above that of the write in flight. -/
structure Ids (s : Sys A K R) : Prop where
  asc : (entries s.segs).Pairwise (fun a b => evId a.2.2 ≤ evId b.2.2)
  flight : ∀ w ∈ s.writers, ∀ x ∈ entries s.segs, evId x.2.2 ≤ w.id
  one : s.writers.length ≤ 1

theorem entries_filter (segs : List (LSeg A)) (p : LSeg A → Bool) : (entries (segs.filter p)).Sublist (entries segs) := by
  unfold entries
  rw [List.flatMap_def, List.flatMap_def]
  exact (List.filter_sublist.map _).flatten

/-- What a step of a writer does to the log. -/
inductive LogStep (id : Nat) (a : List (LSeg A)) : List (LSeg A) → Prop where
  | same : LogStep id a a
  | push (p : Nat × Event A) (h : evId p.2 = id) : LogStep id a (pushLast a p)
  | drop (f : LSeg A → Bool) : LogStep id a (a.filter f)

theorem logStep_frame {s : Sys A K R} {w : Writer K R} {b : Bool} {e : Event A} {p : Phase} (he : evId e = w.id) :
    LogStep w.id s.segs (frameStep s w b e p).1.segs := by
  unfold frameStep
  cases b
  · exact .same
  · exact .push _ he

theorem moveRange_segs (s : Sys A K R) (t : Mem.Runs K R) : (moveRange s t).segs = s.segs := by
  unfold moveRange
  split <;> rfl

theorem moveRange_writers (s : Sys A K R) (t : Mem.Runs K R) : (moveRange s t).writers = s.writers := by
  unfold moveRange
  split <;> rfl

theorem logStep_apply {c : Ctx A K R} {s : Sys A K R} {w : Writer K R} {b : Bool} {op : Mem.Op K R} {p : Phase} {id : Nat} :
    LogStep id s.segs (applyStep c s w b op p).1.segs := by
  unfold applyStep
  cases b
  · exact .same
  · have : (memCall c s op).2.segs = s.segs := moveRange_segs _ _
    simp only [if_true, this]
    exact .same

theorem logStep_prune {c : Ctx A K R} {s : Sys A K R} {id : Nat} : LogStep id s.segs (prune c s).segs := by
  unfold prune
  split
  · exact .same
  · exact .drop _

theorem advance_segs (c : Ctx A K R) (s : Sys A K R) (w : Writer K R) (h : w.id < 2 ^ 64) :
    LogStep w.id s.segs (advance c s w).1.segs := by
  have hid : (BitVec.ofNat 64 w.id).toNat = w.id := by
    rw [BitVec.toNat_ofNat]
    exact Nat.mod_eq_of_lt h
  unfold advance
  cases w.phase with
  | begin => exact logStep_frame hid
  | up => exact logStep_frame hid
  | del => exact logStep_frame hid
  | commit => exact .push _ hid
  | record =>
    simp only
    cases w.span <;> exact .same
  | applyUp => exact logStep_apply
  | applyDel => exact logStep_apply
  | look => exact .same
  | publish =>
    simp only
    by_cases hr : w.refs = []
    · rw [if_pos hr]; exact .same
    · rw [if_neg hr]
      rcases Manifest.apply s.db.kv c.table [.setWal w.refs] none with ⟨kv, _ | _⟩ <;> exact .same
  | prune => exact logStep_prune
  | ack => exact .same

theorem advance_id (c : Ctx A K R) (s : Sys A K R) (w : Writer K R) : ∀ w' ∈ (advance c s w).2, w'.id = w.id := by
  intro w' hw
  have hw : (advance c s w).2 = some w' := hw
  have hfr : ∀ (b : Bool) (e : Event A) (p : Phase), (frameStep s w b e p).2 = some w' → w'.id = w.id := by
    intro b e p h
    unfold frameStep at h
    cases b <;> cases h <;> rfl
  have hap : ∀ (b : Bool) (op : Mem.Op K R) (p : Phase), (applyStep c s w b op p).2 = some w' → w'.id = w.id := by
    intro b op p h
    unfold applyStep at h
    cases b
    · cases h; rfl
    · simp only [if_true] at h
      split at h
      · cases h; rfl
      · cases h
  unfold advance at hw
  cases hp : w.phase with
  | begin => rw [hp] at hw; exact hfr _ _ _ hw
  | up => rw [hp] at hw; exact hfr _ _ _ hw
  | del => rw [hp] at hw; exact hfr _ _ _ hw
  | commit => rw [hp] at hw; cases hw; rfl
  | record =>
    rw [hp] at hw
    simp only at hw
    cases hs : w.span <;> rw [hs] at hw <;> cases hw <;> rfl
  | applyUp => rw [hp] at hw; exact hap _ _ _ hw
  | applyDel => rw [hp] at hw; exact hap _ _ _ hw
  | look => rw [hp] at hw; cases hw; rfl
  | publish =>
    rw [hp] at hw
    simp only at hw
    by_cases hr : w.refs = []
    · rw [if_pos hr] at hw; cases hw; rfl
    · rw [if_neg hr] at hw
      rcases ha : Manifest.apply s.db.kv c.table [.setWal w.refs] none with ⟨kv, _ | _⟩ <;> rw [ha] at hw <;> cases hw
      rfl
  | prune => rw [hp] at hw; cases hw; rfl
  | ack => rw [hp] at hw; cases hw

section
variable {c : Ctx A K R} {s : Sys A K R} {n : Nat} {log : List (Ver K R)} {logs : List (List (Ver K R))}
  {cur : List (Ver K R)}

theorem ids_logStep {segs : List (LSeg A)} {ws : List (Writer K R)} {id : Nat} (hne : s.segs ≠ [])
    (h : Ids s) (hid : ∀ x ∈ entries s.segs, evId x.2.2 ≤ id) (hl : LogStep id s.segs segs) (hw : ∀ w ∈ ws, w.id = id) :
    (entries segs).Pairwise (fun a b => evId a.2.2 ≤ evId b.2.2) ∧
    ∀ w ∈ ws, ∀ x ∈ entries segs, evId x.2.2 ≤ w.id := by
  cases hl with
  | same => exact ⟨h.asc, fun w hw' x hx => by rw [hw w hw']; exact hid x hx⟩
  | push p hp =>
    rw [entries_push (List.getLast?_eq_some_getLast hne)]
    refine ⟨List.pairwise_append.2 ⟨h.asc, by simp, ?_⟩, ?_⟩
    · intro a ha b hb
      rw [List.mem_singleton.1 hb]
      simp only [hp]
      exact hid a ha
    · intro w hw' x hx
      rw [hw w hw']
      rcases List.mem_append.1 hx with hx | hx
      · exact hid x hx
      · rw [List.mem_singleton.1 hx]
        exact Nat.le_of_eq hp
  | drop f =>
    exact ⟨h.asc.sublist (entries_filter _ _), fun w hw' x hx => by
      rw [hw w hw']
      exact hid x ((entries_filter _ _).subset hx)⟩

theorem ids_same {s' : Sys A K R} (h : Ids s) (h1 : s'.segs = s.segs) (h2 : s'.writers = s.writers) : Ids s' :=
  ⟨by rw [h1]; exact h.asc, by rw [h1, h2]; exact h.flight, by rw [h2]; exact h.one⟩

theorem ids_step (hd : D c s n log logs cur) (h : Ids s) (o : Durable.Op K R) (hcalm : Calm c s o)
    (hal : Alone s o) : Ids (Durable.step c s o) := by
  unfold Durable.step
  rw [hd.open_]
  simp only [Bool.false_eq_true, if_false]
  cases o with
  | write mode rows keys =>
    obtain ⟨_, h2, _⟩ := hcalm
    have h1 : s.writers = [] := hal
    change Ids (begin c _ (newWriter s mode rows keys))
    unfold begin
    rw [if_neg (show ¬ (newWriter s mode rows keys).mode = .fast from h2)]
    refine ⟨h.asc, ?_, by simp [h1]⟩
    intro w hw x hx
    simp only [h1, List.nil_append, List.mem_singleton] at hw
    rw [hw]
    exact Nat.le_of_lt (hd.lg.lt x hx).2.2
  | advance i =>
    simp only [stepLive]
    cases hi : s.writers[i]? with
    | none => exact h
    | some w =>
      simp only
      have hm := List.mem_of_getElem? hi
      have hw := one_writer h.one hm
      have hok := hd.writer w hm
      obtain ⟨a1, a2⟩ := ids_logStep (ws := setWriter s.writers i (advance c s w).2) hd.lg.ne h (h.flight w hm)
        (advance_segs c s w hok.id) (by
          intro w' hw'
          cases hadv : (advance c s w).2 with
          | none =>
            rw [hadv] at hw'
            have := List.mem_of_mem_eraseIdx hw'
            rw [hw] at this
            rw [List.mem_singleton.1 this]
          | some w'' =>
            rw [hadv] at hw'
            rcases List.mem_or_eq_of_mem_set hw' with h | h
            · rw [hw] at h
              rw [List.mem_singleton.1 h]
            · rw [h]
              exact advance_id c s w w'' hadv)
      refine ⟨a1, a2, ?_⟩
      have := h.one
      cases (advance c s w).2 with
      | none => exact Nat.le_trans (List.eraseIdx_sublist _ _).length_le this
      | some w' => simp only [setWriter, List.length_set]; exact this
  | cancel i => exact ⟨h.asc, fun w hw => h.flight w (List.mem_of_mem_eraseIdx hw),
      Nat.le_trans (List.eraseIdx_sublist _ _).length_le h.one⟩
  | rotate =>
    have : entries (s.segs ++ [⟨s.nextSeg, []⟩]) = entries s.segs := by
      rw [entries_append]
      simp [entries]
    exact ⟨by simp only [stepLive, this]; exact h.asc, by simp only [stepLive, this]; exact h.flight, h.one⟩
  | freeze => exact ids_same h (moveRange_segs _ _) (moveRange_writers _ _)
  | flushBegin =>
    simp only [stepLive]
    split
    · exact ids_same h rfl rfl
    · exact h
  | flushWrite =>
    simp only [stepLive]
    cases s.flushCount with
    | none => exact h
    | some n => exact ids_same h rfl rfl
  | flushPublish => exact ids_same h rfl rfl
  | flushDrain => exact ids_same h rfl rfl
  | prune =>
    simp only [stepLive, prune]
    cases floorOf c s with
    | none => exact h
    | some f =>
      exact ⟨h.asc.sublist (entries_filter _ _), fun w hw x hx => h.flight w hw x ((entries_filter _ _).subset hx), h.one⟩
  | start t head skip => exact ids_same h rfl rfl
  | finish i => exact ids_same h rfl rfl
  | crash cap pol st =>
    simp only [stepLive, crash]
    cases reopen cap c.table s.db with
    | error _ => exact ids_same h rfl rfl
    | ok db =>
      simp only
      cases Wal.replay c.ext c.sch pol (Mem.Runs.new cap) (replayed (floorOf c s) s.segs) with
      | none => exact ids_same h rfl rfl
      | some r => exact ⟨h.asc, fun w hw => absurd hw (by simp), Nat.zero_le _⟩

theorem telling_id {e : Event A} (h : Telling e) : eventId e = some (evId e) := by
  cases e <;> first | rfl | cases h

/-- Numbers go on above a log whose last frame has the largest number. -/
theorem topped_numbers (hd : D c s n log logs cur) (hs : Topped s.segs) (st : Option WState) :
    ∀ g ∈ s.segs, ∀ p ∈ g.frames, p.1 < (Wal.resume (tailOf s.segs) st).nextFrame ∧
      evId p.2 < (Wal.resume (tailOf s.segs) st).nextId := by
  intro g hg p hp
  obtain ⟨l, hl, q, hq, ht, hmax⟩ := hs
  have hl : s.segs.getLast? = some l := hl
  have hq : l.frames.getLast? = some q := hq
  have htail : tailOf s.segs = some ⟨⟨l.seq, [], []⟩, [], some q.1, some (evId q.2)⟩ := by
    unfold tailOf
    rw [hl]
    simp only [Option.map_some, hq, Option.bind_some, telling_id ht]
  obtain ⟨ys, hys⟩ := List.getLast?_eq_some_iff.1 hl
  obtain ⟨zs, hzs⟩ := List.getLast?_eq_some_iff.1 hq
  have hE : entries s.segs = (entries ys ++ zs.map (fun p => (l.seq, p.1, p.2))) ++ [(l.seq, q.1, q.2)] := by
    rw [hys, entries_append]
    simp [entries, hzs]
  have hx : (g.seq, p.1, p.2) ∈ entries s.segs := mem_entries.2 ⟨g, hg, p, hp, rfl⟩
  have hle : p.1 ≤ q.1 := by
    have ho := hd.lg.ord
    unfold Ord at ho
    rw [hE] at ho hx
    rcases List.mem_append.1 hx with hx | hx
    · exact Nat.le_of_lt ((List.pairwise_append.1 ho).2.2 _ hx _ (List.mem_singleton.2 rfl)).2
    · have := List.mem_singleton.1 hx
      simp only [Prod.mk.injEq] at this
      rw [this.2.1]
  have hid := hmax g hg p hp
  rw [htail]
  simp only [Wal.resume, Option.bind_some, Wal.succOr]
  constructor
  · have := Nat.le_max_right (match st.bind (·.lastFrame) with
      | some s => max (q.1 + 1) (s + 1)
      | none => q.1 + 1) (max (q.1 + 1) Wal.initialFrameSeq)
    have := Nat.le_max_left (q.1 + 1) Wal.initialFrameSeq
    omega
  · omega

/-- Numbers go on above a settled log. -/
theorem settled_numbers (hd : D c s n log logs cur) (h : Ids s) (hs : Settled s.segs) (st : Option WState) :
    ∀ g ∈ s.segs, ∀ p ∈ g.frames, p.1 < (Wal.resume (tailOf s.segs) st).nextFrame ∧
      evId p.2 < (Wal.resume (tailOf s.segs) st).nextId := by
  intro g hg p hp
  rcases hs with hs | ⟨l, hl, q, hq, ht⟩
  · rw [hs g hg] at hp
    cases hp
  have hl : s.segs.getLast? = some l := hl
  have hq : l.frames.getLast? = some q := hq
  have htail : tailOf s.segs = some ⟨⟨l.seq, [], []⟩, [], some q.1, some (evId q.2)⟩ := by
    unfold tailOf
    rw [hl]
    simp only [Option.map_some, hq, Option.bind_some, telling_id ht]
  obtain ⟨ys, hys⟩ := List.getLast?_eq_some_iff.1 hl
  obtain ⟨zs, hzs⟩ := List.getLast?_eq_some_iff.1 hq
  have hE : entries s.segs = (entries ys ++ zs.map (fun p => (l.seq, p.1, p.2))) ++ [(l.seq, q.1, q.2)] := by
    rw [hys, entries_append]
    simp [entries, hzs]
  have hx : (g.seq, p.1, p.2) ∈ entries s.segs := mem_entries.2 ⟨g, hg, p, hp, rfl⟩
  have hle : p.1 ≤ q.1 ∧ evId p.2 ≤ evId q.2 := by
    have ho := hd.lg.ord
    have hi := h.asc
    unfold Ord at ho
    rw [hE] at ho hi hx
    rcases List.mem_append.1 hx with hx | hx
    · exact ⟨Nat.le_of_lt ((List.pairwise_append.1 ho).2.2 _ hx _ (List.mem_singleton.2 rfl)).2,
        (List.pairwise_append.1 hi).2.2 _ hx _ (List.mem_singleton.2 rfl)⟩
    · have := List.mem_singleton.1 hx
      simp only [Prod.mk.injEq] at this
      rw [this.2.1, this.2.2]
      exact ⟨Nat.le_refl _, Nat.le_refl _⟩
  rw [htail]
  simp only [Wal.resume, Option.bind_some, Wal.succOr]
  constructor
  · have := Nat.le_max_right (match st.bind (·.lastFrame) with
      | some s => max (q.1 + 1) (s + 1)
      | none => q.1 + 1) (max (q.1 + 1) Wal.initialFrameSeq)
    have := Nat.le_max_left (q.1 + 1) Wal.initialFrameSeq
    omega
  · omega

end

end Tonbo.Lemmas.Durable
