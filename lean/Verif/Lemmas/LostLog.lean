import Verif.Spec.LostLogView

/-!
# After the log was lost
-/

namespace Tonbo.Lemmas.LostLog
open Tonbo.Model Tonbo.Model.Manifest Tonbo.Model.Lsm Tonbo.Model.Durable Tonbo.Model.LostLog Tonbo.Spec Tonbo.Spec.LostLog
open Tonbo.Model.Wal (WState)

variable {A K R : Type} [LinearOrder K]

theorem lose_open (c : Ctx A K R) (s : Sys A K R) (cap : Nat) (st : Option WState) (hd : s.dead = false) :
    (lose c s cap st).dead = true ∨
    ((lose c s cap st).dead = false ∧ (lose c s cap st).db.kv = s.db.kv ∧ (lose c s cap st).db.files = s.db.files ∧
      (lose c s cap st).db.runs = Mem.Runs.new cap ∧ (lose c s cap st).clock = 0 ∧ (lose c s cap st).writers = [] ∧
      (lose c s cap st).acked = s.acked ∧ (lose c s cap st).committed = s.committed ∧
      ∀ g ∈ (lose c s cap st).segs, g.seq < (lose c s cap st).nextSeg) := by
  unfold lose reopen
  cases allocator s.db.kv c.table with
  | error e => exact .inl rfl
  | ok n =>
    refine .inr ⟨hd, rfl, rfl, rfl, rfl, rfl, rfl, rfl, ?_⟩
    intro g hg
    rw [List.mem_singleton.1 hg]
    show (Wal.resume none st).segment < (Wal.resume none st).nextSegment
    unfold Wal.resume
    simp only
    cases st.bind (·.lastSegment) with
    | none => simp
    | some n => simp only; omega

/-- Reads of a database with nothing in memory depend on the manifest and the files only. -/
theorem scan_empty (t : Nat) (a b : Db K R) (h1 : a.kv = b.kv) (h2 : a.files = b.files)
    (ha : a.runs.runs = [] ∧ a.runs.mem.index = []) (hb : b.runs.runs = [] ∧ b.runs.mem.index = []) (rts : Nat) :
    scanAll t a rts = scanAll t b rts := by
  have hf : latestFiles t a = latestFiles t b := by
    unfold latestFiles tableFiles
    rw [h1, h2]
  have hm : ∀ m : Mem.Inner K R, m.index = [] → memStream m rts = some [(Merge.Prio.mutable, [])] := by
    intro m hm
    unfold memStream Mem.scan
    simp only
    rw [hm]
    rfl
  unfold scanAll allStreams
  rw [hf, hm _ ha.2, hm _ hb.2, ha.1, hb.1]

/-- What ordinary steps leave as it is. -/
structure Same (s s' : Sys A K R) : Prop where
  kv : s'.db.kv = s.db.kv
  files : s'.db.files = s.db.files
  next : s.nextSeg ≤ s'.nextSeg

/-- Every writer is an ordinary one, and every segment has a number below the next. -/
structure Ord (s : Sys A K R) : Prop where
  writers : ∀ w ∈ s.writers, (w.mode = .plain ∨ w.mode = .tomb) ∧ w.refs = []
  segs : ∀ g ∈ s.segs, g.seq < s.nextSeg

theorem pushLast_seq {segs : List (LSeg A)} {p : Nat × Wal.Event A} {g : LSeg A} (h : g ∈ pushLast segs p) :
    ∃ g' ∈ segs, g'.seq = g.seq := by
  unfold pushLast at h
  cases hl : segs.getLast? with
  | none => rw [hl] at h; exact ⟨g, h, rfl⟩
  | some x =>
    rw [hl] at h
    rcases List.mem_append.1 h with h | h
    · exact ⟨g, List.dropLast_subset _ h, rfl⟩
    · rw [List.mem_singleton.1 h]
      exact ⟨x, List.mem_of_getLast? hl, rfl⟩

theorem moveRange_same (s : Sys A K R) (t : Mem.Runs K R) : (moveRange s t).db.kv = s.db.kv ∧ (moveRange s t).db.files = s.db.files ∧
    (moveRange s t).nextSeg = s.nextSeg ∧ (moveRange s t).segs = s.segs ∧ (moveRange s t).writers = s.writers := by
  unfold moveRange
  split_ifs <;> exact ⟨rfl, rfl, rfl, rfl, rfl⟩

/-- One step of an ordinary writer. -/
theorem advance_same {c : Ctx A K R} {s : Sys A K R} {w : Writer K R} (hm : w.mode = .plain ∨ w.mode = .tomb) (hr : w.refs = [])
    (hs : ∀ g ∈ s.segs, g.seq < s.nextSeg) :
    (advance c s w).1.db.kv = s.db.kv ∧ (advance c s w).1.db.files = s.db.files ∧ (advance c s w).1.nextSeg = s.nextSeg ∧
    (∀ g ∈ (advance c s w).1.segs, g.seq < s.nextSeg) ∧
    ∀ w' ∈ (advance c s w).2, (w'.mode = .plain ∨ w'.mode = .tomb) ∧ w'.refs = [] := by
  have push : ∀ p, ∀ g ∈ pushLast s.segs p, g.seq < s.nextSeg := by
    intro p g hg
    obtain ⟨g', h1, h2⟩ := pushLast_seq hg
    rw [← h2]
    exact hs g' h1
  have frm : ∀ b e p, (frameStep s w b e p).1.db.kv = s.db.kv ∧ (frameStep s w b e p).1.db.files = s.db.files ∧
      (frameStep s w b e p).1.nextSeg = s.nextSeg ∧ (∀ g ∈ (frameStep s w b e p).1.segs, g.seq < s.nextSeg) ∧
      ∀ w' ∈ (frameStep s w b e p).2, (w'.mode = .plain ∨ w'.mode = .tomb) ∧ w'.refs = [] := by
    intro b e p
    unfold frameStep
    cases b with
    | false =>
      refine ⟨rfl, rfl, rfl, hs, ?_⟩
      rintro w' hw
      cases hw
      exact ⟨hm, hr⟩
    | true =>
      refine ⟨rfl, rfl, rfl, push _, ?_⟩
      rintro w' hw
      cases hw
      exact ⟨hm, hr⟩
  have app : ∀ b o p, (applyStep c s w b o p).1.db.kv = s.db.kv ∧ (applyStep c s w b o p).1.db.files = s.db.files ∧
      (applyStep c s w b o p).1.nextSeg = s.nextSeg ∧ (∀ g ∈ (applyStep c s w b o p).1.segs, g.seq < s.nextSeg) ∧
      ∀ w' ∈ (applyStep c s w b o p).2, (w'.mode = .plain ∨ w'.mode = .tomb) ∧ w'.refs = [] := by
    intro b o p
    unfold applyStep
    cases b with
    | false =>
      refine ⟨rfl, rfl, rfl, hs, ?_⟩
      rintro w' hw
      cases hw
      exact ⟨hm, hr⟩
    | true =>
      obtain ⟨m1, m2, m3, m4, _⟩ := moveRange_same s (s.db.runs.call c.ext o).2
      refine ⟨m1, m2, m3, ?_, ?_⟩
      · show ∀ g ∈ (moveRange s (s.db.runs.call c.ext o).2).segs, _
        rw [m4]; exact hs
      · simp only [if_true]
        intro w' hw
        split_ifs at hw with h
        · cases hw; exact ⟨hm, hr⟩
        · cases hw
  have txn : w.isTxn = false := by
    unfold Writer.isTxn
    rcases hm with h | h <;> rw [h] <;> rfl
  unfold advance
  cases w.phase with
  | begin => exact frm _ _ _
  | up => exact frm _ _ _
  | del => exact frm _ _ _
  | commit =>
    refine ⟨rfl, rfl, rfl, push _, ?_⟩
    rintro w' hw
    cases hw
    exact ⟨hm, hr⟩
  | record =>
    simp only
    cases w.span with
    | none =>
      refine ⟨rfl, rfl, rfl, hs, ?_⟩
      rintro w' hw; cases hw; exact ⟨hm, hr⟩
    | some sp =>
      refine ⟨rfl, rfl, rfl, hs, ?_⟩
      rintro w' hw; cases hw; exact ⟨hm, hr⟩
  | applyUp => exact app _ _ _
  | applyDel => exact app _ _ _
  | look =>
    refine ⟨rfl, rfl, rfl, hs, ?_⟩
    rintro w' hw
    cases hw
    exact ⟨hm, by simp [txn]⟩
  | publish =>
    simp only
    rw [if_pos hr]
    refine ⟨rfl, rfl, rfl, hs, ?_⟩
    rintro w' hw; cases hw; exact ⟨hm, hr⟩
  | prune => 
    simp only
    refine ⟨?_, ?_, ?_, ?_, ?_⟩
    · unfold prune; split <;> rfl
    · unfold prune; split <;> rfl
    · unfold prune; split <;> rfl
    · unfold prune
      split
      · exact hs
      · exact fun g hg => hs g (List.mem_of_mem_filter hg)
    · rintro w' hw; cases hw; exact ⟨hm, hr⟩
  | ack =>
    refine ⟨rfl, rfl, rfl, hs, ?_⟩
    rintro w' hw; cases hw

theorem step_same {c : Ctx A K R} {s : Sys A K R} (h : Ord s) (o : Durable.Op K R) (ho : Ordinary o) :
    Same s (Durable.step c s o) ∧ Ord (Durable.step c s o) := by
  unfold Durable.step
  cases hd : s.dead with
  | true => exact ⟨⟨rfl, rfl, le_refl _⟩, h⟩
  | false =>
    simp only [Bool.false_eq_true, if_false]
    cases o with
    | write mode rows keys =>
      have hn : mode ≠ .fast := by rcases ho with h | h <;> rw [h] <;> exact (fun h => nomatch h)
      have e : stepLive c s (.write mode rows keys) = { s with
          clock := s.clock + 1, nextId := s.nextId + 1, writers := s.writers ++ [newWriter s mode rows keys] } := by
        unfold stepLive begin
        exact if_neg hn
      rw [e]
      refine ⟨⟨rfl, rfl, le_refl _⟩, ?_, h.segs⟩
      intro w hw
      rcases List.mem_append.1 hw with hw | hw
      · exact h.writers w hw
      · rw [List.mem_singleton.1 hw]
        exact ⟨ho, rfl⟩
    | advance i =>
      simp only [stepLive]
      cases hw : s.writers[i]? with
      | none => exact ⟨⟨rfl, rfl, le_refl _⟩, h⟩
      | some w =>
        simp only
        have hmem := List.mem_of_getElem? hw
        obtain ⟨a1, a2⟩ := h.writers w hmem
        obtain ⟨b1, b2, b3, b4, b5⟩ := advance_same (c := c) a1 a2 h.segs
        refine ⟨⟨b1, b2, le_of_eq b3.symm⟩, ?_, fun g hg => by simpa only [b3] using b4 g hg⟩
        intro w' hw'
        have hw' : w' ∈ setWriter s.writers i (advance c s w).2 := hw'
        unfold setWriter at hw'
        cases ha : (advance c s w).2 with
        | none => rw [ha] at hw'; exact h.writers w' (List.mem_of_mem_eraseIdx hw')
        | some x =>
          rw [ha] at hw'
          rcases List.mem_or_eq_of_mem_set hw' with hw' | rfl
          · exact h.writers w' hw'
          · exact b5 _ (by rw [ha]; rfl)
    | cancel i => exact ⟨⟨rfl, rfl, le_refl _⟩, fun w hw => h.writers w (List.mem_of_mem_eraseIdx hw), h.segs⟩
    | rotate =>
      refine ⟨⟨rfl, rfl, Nat.le_succ _⟩, h.writers, ?_⟩
      intro g hg
      have hg : g ∈ s.segs ++ [⟨s.nextSeg, []⟩] := hg
      rcases List.mem_append.1 hg with hg | hg
      · exact Nat.lt_succ_of_lt (h.segs g hg)
      · rw [List.mem_singleton.1 hg]; exact Nat.lt_succ_self _
    | freeze =>
      obtain ⟨m1, m2, m3, m4, m5⟩ := moveRange_same s (s.db.runs.call c.ext .freeze).2
      refine ⟨⟨m1, m2, le_of_eq m3.symm⟩, ?_, ?_⟩
      · intro w hw
        have hw : w ∈ (moveRange s (s.db.runs.call c.ext .freeze).2).writers := hw
        rw [m5] at hw
        exact h.writers w hw
      · intro g hg
        have hg : g ∈ (moveRange s (s.db.runs.call c.ext .freeze).2).segs := hg
        rw [m4] at hg
        show g.seq < (moveRange s (s.db.runs.call c.ext .freeze).2).nextSeg
        rw [m3]
        exact h.segs g hg
    | _ => exact absurd ho (fun h => h)

theorem run_same {c : Ctx A K R} : ∀ (ops : List (Durable.Op K R)) (s : Sys A K R), Ord s → (∀ o ∈ ops, Ordinary o) →
    Same s (Durable.run c s ops) ∧ Ord (Durable.run c s ops)
  | [], _, h, _ => ⟨⟨rfl, rfl, le_refl _⟩, h⟩
  | o :: ops, s, h, ho => by
    obtain ⟨a, b⟩ := step_same (c := c) h o (ho o List.mem_cons_self)
    obtain ⟨a', b'⟩ := run_same (c := c) ops _ b (fun o h => ho o (List.mem_cons_of_mem _ h))
    exact ⟨⟨a'.kv.trans a.kv, a'.files.trans a.files, a.next.trans a'.next⟩, b'⟩

/-- Below the floor nothing is replayed. -/
theorem replayed_below {f : WalRef} {segs : List (LSeg A)} (h : ∀ g ∈ segs, g.seq < f.seq) : replayed (some f) segs = [] := by
  unfold replayed
  rw [List.flatMap_eq_nil_iff]
  intro g hg
  rw [List.map_eq_nil_iff, List.filter_eq_nil_iff]
  intro p _
  simp [visited, h g hg]

end Tonbo.Lemmas.LostLog
