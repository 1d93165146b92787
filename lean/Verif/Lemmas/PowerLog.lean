import Verif.Lemmas.DurableTrace
import Verif.Lemmas.DurableClock
import Verif.Model.PowerLog
import Mathlib.Tactic.ByContra
import Mathlib.Tactic.Tauto

/-!
# A log that lost its end
-/

set_option linter.unusedSectionVars false

namespace Tonbo.Lemmas.PowerLog
open Tonbo.Model Tonbo.Model.Manifest Tonbo.Model.Lsm Tonbo.Model.Durable Tonbo.Model.PowerLog Tonbo.Spec Tonbo.Spec.Durable
open Tonbo.Model.Wal (Event Batch Sch commitCol WState)
open Tonbo.Spec.Wal (GoodPayload payloadWrites bodyOf payloadOf finishes logBatches)
open Tonbo.Lemmas.Lsm Tonbo.Lemmas.Durable
open Tonbo.Lemmas.Replay (Fine good_all loop_all)
open Tonbo.Lemmas.Mem (call_last rep_new Rep Imm.Rep)
open Tonbo.Lemmas.Plan (forall₂_mem_right)

variable {A K R : Type} [LinearOrder K]

/-! ## The cut -/

theorem entries_cut (keep there : Nat → Bool) (segs : List (LSeg A)) :
    entries (cut keep there segs) = (entries segs).filter (fun x => keep x.2.1) := by
  induction segs with
  | nil => rfl
  | cons g segs ih =>
    have e1 : ∀ (g : LSeg A) (l : List (LSeg A)), entries (g :: l) = g.frames.map (fun p => (g.seq, p.1, p.2)) ++ entries l :=
      fun _ _ => rfl
    have e2 : entries (cut keep there (g :: segs)) = (g.frames.filter (fun p => keep p.1)).map (fun p => (g.seq, p.1, p.2)) ++
        entries (cut keep there segs) := by
      unfold cut
      rw [List.map_cons, List.filter_cons]
      split
      · rfl
      · next h =>
        have : g.frames.filter (fun p => keep p.1) = [] := by
          simp only [Bool.or_eq_true, not_or, Bool.not_eq_true, Bool.not_eq_false', List.isEmpty_iff] at h
          exact h.2
        rw [this]
        rfl
    rw [e2, e1, List.filter_append, ih, List.filter_map]
    rfl

/-- A write whose commit record is among the frames that are left. -/
theorem logged_cut {ext : R → Option K} {sch : Sch A K R} {E : List (Ent A)} {u : Ver K R} {g n m : Nat} {keep : Nat → Bool}
    (hm : ∀ i, i < m → keep i = true) (ho : Ord E)
    (h : LoggedAt ext sch E u g n)
    (hN : ∀ x ∈ E, m ≤ x.2.1 → ∀ id ts, x.2.2 = .commit id ts → ∀ e, u ∉ lastOnly (payloadWrites ext sch ts e)) :
    LoggedAt ext sch (E.filter (fun x => keep x.2.1)) u g n := by
  obtain ⟨id, ts, e, pre, mid, post, g', n', h1, h2, h3, h4⟩ := h
  subst h1
  have hn : n' < m := by
    by_contra hge
    exact hN (g', n', Event.commit id ts) (by simp) (by simp only; omega) id ts rfl e h4
  have e1 : pre ++ (g, n, e) :: (mid ++ (g', n', Event.commit id ts) :: post) =
      (pre ++ (g, n, e) :: mid) ++ (g', n', Event.commit id ts) :: post := by simp
  rw [e1] at ho
  have hlt : ∀ x ∈ pre ++ (g, n, e) :: mid, x.2.1 < m := by
    intro x hx
    have := ((List.pairwise_append.1 ho).2.2 x hx (g', n', Event.commit id ts) (by simp)).2
    simp only at this
    omega
  rw [e1, List.filter_append, List.filter_eq_self.2 (fun x hx => hm _ (hlt x hx)), List.filter_cons_of_pos (by simpa using hm _ hn)]
  exact ⟨id, ts, e, pre, mid, post.filter (fun x => keep x.2.1), g', n', by simp, h2, h3, h4⟩

/-! ## Memory after replay -/

theorem calls_rep {ext : R → Option K} : ∀ (ops : List (Mem.Op K R)) {t t' : Mem.Runs K R} {logs : List (List (Ver K R))}
    {cur : List (Ver K R)}, List.Forall₂ (Imm.Rep ext) t.runs logs → Rep ext t.mem cur → t.calls ext ops = (true, t') →
    ∃ logs' cur', List.Forall₂ (Imm.Rep ext) t'.runs logs' ∧ Rep ext t'.mem cur' ∧
      ∀ w, w ∈ logs'.flatten ++ cur' ↔ w ∈ logs.flatten ++ cur ++ ops.flatMap (batchWrites ext)
  | [], t, t', logs, cur, hl, hr, h => by
    cases h
    exact ⟨logs, cur, hl, hr, by simp⟩
  | op :: ops, t, t', logs, cur, hl, hr, h => by
    simp only [Mem.Runs.calls, Prod.mk.injEq, Bool.and_eq_true] at h
    obtain ⟨⟨h1, h2⟩, h3⟩ := h
    have hc : t.call ext op = (true, (t.call ext op).2) := Prod.ext h1 rfl
    have hcs : (t.call ext op).2.calls ext ops = (true, t') := Prod.ext h2 h3
    rcases call_last hr hc with ⟨g1, g2⟩ | ⟨m, g1, g2, g3⟩
    · obtain ⟨l, c, a1, a2, a3⟩ := calls_rep ops (by rw [g1]; exact hl) g2 hcs
      refine ⟨l, c, a1, a2, fun w => (a3 w).trans ?_⟩
      simp only [List.mem_append, List.flatMap_cons]
      tauto
    · obtain ⟨l, c, a1, a2, a3⟩ := calls_rep ops (logs := logs ++ [cur]) (by rw [g1]; exact forall₂_snoc hl g2) g3 hcs
      refine ⟨l, c, a1, a2, fun w => (a3 w).trans ?_⟩
      simp only [List.mem_append, List.flatMap_cons, List.flatten_append, List.flatten_singleton]
      tauto

theorem memOk_calls {ext : R → Option K} : ∀ (ops : List (Mem.Op K R)) {t : Mem.Runs K R}, MemOk ext t →
    MemOk ext (t.calls ext ops).2
  | [], _, h => h
  | op :: ops, _, h => by
    simp only [Mem.Runs.calls]
    exact memOk_calls ops (memOk_call h op)

/-! ## The history after the sync -/

section
variable {c : Ctx A K R} {s : Sys A K R} {n : Nat} {log : List (Ver K R)} {logs : List (List (Ver K R))}
  {cur : List (Ver K R)} {w : Writer K R}

/-- Every write of `acked` is, or a newer one of its key is: in memory and of `com`, or in a table. -/
def Keeps (c : Ctx A K R) (s : Sys A K R) (n : Nat) (logs : List (List (Ver K R))) (cur acked com : List (Ver K R)) : Prop :=
  ∀ w ∈ acked, ∃ u, u.key = w.key ∧ w.ts ≤ u.ts ∧ ((Held s.db logs cur u ∧ u ∈ com) ∨ OnDisk c.table n s.db u)

/-- The commit records from frame `m` on have timestamps of their own. -/
def NewRecords (s : Sys A K R) (m : Nat) (com : List (Ver K R)) : Prop :=
  ∀ x ∈ entries s.segs, m ≤ x.2.1 → ∀ id ts, x.2.2 = .commit id ts → ∀ v ∈ com, v.ts ≠ ts.toNat

theorem keeps_trace {s' : Sys A K R} {n' : Nat} {logs' : List (List (Ver K R))} {cur' acked com : List (Ver K R)}
    (h : Keeps c s n logs cur acked com) (ht : Trace c.table s.db n logs cur s'.db n' logs' cur') :
    Keeps c s' n' logs' cur' acked com := by
  intro w hw
  obtain ⟨u, h1, h2, ⟨h3, h4⟩ | h3⟩ := h w hw
  · rcases ht.mem u h3 with h5 | h5
    · exact ⟨u, h1, h2, .inl ⟨h5, h4⟩⟩
    · exact ⟨u, h1, h2, .inr h5⟩
  · obtain ⟨u', h4, h5, h6⟩ := ht.disk u h3
    exact ⟨u', h5.trans h1, Nat.le_trans h2 h6, .inr h4⟩

theorem keeps_start (h : D c s n log logs cur) : Keeps c s n logs cur s.acked s.committed := by
  intro w hw
  obtain ⟨u, hu, h1, h2, _⟩ := h.cont.cover w (h.acked w hw)
  refine ⟨u, h1, h2, ?_⟩
  have hm : Held s.db logs cur u → (Held s.db logs cur u ∧ u ∈ s.committed) ∨ OnDisk c.table n s.db u := by
    intro hh
    refine .inl ⟨hh, h.sub u (h.cont.sub u ?_)⟩
    rcases hh with hh | hh
    · obtain ⟨l, hl, hu⟩ := List.mem_flatten.1 hh
      exact List.mem_append_left _ (List.mem_flatten.2 ⟨l, List.mem_of_mem_drop hl, hu⟩)
    · exact List.mem_append_right _ hh
  rcases hu with hu | hu | hu
  · exact hm (.inl hu)
  · exact hm (.inr hu)
  · exact .inr hu

theorem newRecords_start (h : D c s n log logs cur) {m : Nat} (hm : s.nextFrame ≤ m) (com : List (Ver K R)) :
    NewRecords s m com := by
  intro x hx hge
  have := (h.lg.lt x hx).2.1
  omega

theorem push_entries (h : LogOk c s) (e : Event A) {x : Ent A}
    (hx : x ∈ entries (pushLast s.segs (s.nextFrame, e))) : x ∈ entries s.segs ∨ x.2.2 = e := by
  obtain ⟨g, hg, _⟩ := last_seg h
  rw [entries_push hg] at hx
  rcases List.mem_append.1 hx with hx | hx
  · exact .inl hx
  · rw [List.mem_singleton.1 hx]; exact .inr rfl

theorem frameStep_entries (h : LogOk c s) (w : Writer K R) (b : Bool) (e : Event A) (p : Phase) {x : Ent A}
    (hx : x ∈ entries (frameStep s w b e p).1.segs) : x ∈ entries s.segs ∨ x.2.2 = e := by
  unfold frameStep at hx
  cases b
  · exact .inl hx
  · exact push_entries h e hx

theorem prune_entries {x : Ent A} (hx : x ∈ entries (prune c s).segs) : x ∈ entries s.segs := by
  unfold prune at hx
  split at hx
  · exact hx
  · rw [entries_prune] at hx
    exact (List.mem_filter.1 hx).1

theorem applyStep_segs (w : Writer K R) (b : Bool) (op : Mem.Op K R) (p : Phase) :
    (applyStep c s w b op p).1.segs = s.segs := by
  unfold applyStep memCall moveRange
  split
  · simp only; split <;> rfl
  · rfl

/-- A commit record that a step of a writer adds is that of a writer that had none. -/
theorem advance_entries (h : LogOk c s) (w : Writer K R) {x : Ent A} (hx : x ∈ entries (advance c s w).1.segs) :
    x ∈ entries s.segs ∨ (∀ id ts, x.2.2 ≠ .commit id ts) ∨
      (w.phase = .commit ∧ x.2.2 = .commit (BitVec.ofNat 64 w.id) (BitVec.ofNat 64 w.ts)) := by
  unfold advance at hx
  cases hp : w.phase with
  | begin =>
    rw [hp] at hx
    rcases frameStep_entries h _ _ _ _ hx with hx | hx
    · exact .inl hx
    · exact .inr (.inl (fun _ _ => by rw [hx]; simp))
  | up =>
    rw [hp] at hx
    rcases frameStep_entries h _ _ _ _ hx with hx | hx
    · exact .inl hx
    · exact .inr (.inl (fun _ _ => by rw [hx]; simp [Writer.upEvent]))
  | del =>
    rw [hp] at hx
    rcases frameStep_entries h _ _ _ _ hx with hx | hx
    · exact .inl hx
    · exact .inr (.inl (fun _ _ => by rw [hx]; simp [Writer.delEvent]))
  | commit =>
    rw [hp] at hx
    rcases push_entries h _ hx with hx | hx
    · exact .inl hx
    · exact .inr (.inr ⟨rfl, hx⟩)
  | record =>
    rw [hp] at hx
    simp only at hx
    cases hs : w.span with
    | none => rw [hs] at hx; exact .inl hx
    | some sp => rw [hs] at hx; exact .inl hx
  | applyUp => rw [hp] at hx; simp only [applyStep_segs] at hx; exact .inl hx
  | applyDel => rw [hp] at hx; simp only [applyStep_segs] at hx; exact .inl hx
  | look => rw [hp] at hx; exact .inl hx
  | publish =>
    rw [hp] at hx
    simp only at hx
    by_cases hr : w.refs = []
    · rw [if_pos hr] at hx; exact .inl hx
    · rw [if_neg hr] at hx
      split at hx <;> exact .inl hx
  | prune => rw [hp] at hx; exact .inl (prune_entries hx)
  | ack => rw [hp] at hx; exact .inl hx

theorem step_entries (h : D c s n log logs cur) (o : Durable.Op K R) (hcalm : Calm c s o) (hrun : Running o) {x : Ent A}
    (hx : x ∈ entries (Durable.step c s o).segs) : x ∈ entries s.segs ∨ (∀ id ts, x.2.2 ≠ .commit id ts) ∨
      ∃ w ∈ s.writers, w.phase = .commit ∧ x.2.2 = .commit (BitVec.ofNat 64 w.id) (BitVec.ofNat 64 w.ts) := by
  unfold Durable.step at hx
  rw [h.open_] at hx
  simp only [Bool.false_eq_true, if_false] at hx
  cases o with
  | write mode rows keys =>
    change x ∈ entries (Durable.begin c { s with clock := s.clock + 1, nextId := s.nextId + 1 }
      (newWriter s mode rows keys)).segs at hx
    unfold Durable.begin at hx
    rw [if_neg (show ¬ (newWriter s mode rows keys).mode = .fast from hcalm.2.1)] at hx
    exact .inl hx
  | advance i =>
    simp only [stepLive] at hx
    cases hi : s.writers[i]? with
    | none => rw [hi] at hx; exact .inl hx
    | some w =>
      rw [hi] at hx
      rcases advance_entries h.lg w hx with h1 | h1 | h1
      · exact .inl h1
      · exact .inr (.inl h1)
      · exact .inr (.inr ⟨w, List.mem_of_getElem? hi, h1⟩)
  | cancel i => exact .inl hx
  | rotate =>
    change x ∈ entries (s.segs ++ [⟨s.nextSeg, []⟩]) at hx
    rw [entries_append] at hx
    rcases List.mem_append.1 hx with hx | hx
    · exact .inl hx
    · simp [entries] at hx
  | freeze =>
    change x ∈ entries (moveRange s _).segs at hx
    unfold moveRange at hx
    split at hx <;> exact .inl hx
  | flushBegin =>
    simp only [stepLive] at hx
    split at hx <;> exact .inl hx
  | flushWrite =>
    simp only [stepLive] at hx
    split at hx <;> exact .inl hx
  | flushPublish => exact .inl hx
  | flushDrain => exact .inl hx
  | prune => exact .inl (prune_entries hx)
  | start t head skip => exact .inl hx
  | finish i => exact .inl hx
  | crash cap pol st => exact absurd hrun id

theorem newRecords_step (h : D c s n log logs cur) (hck : Ck c s) (o : Durable.Op K R) (hcalm : Calm c s o)
    (hrun : Running o) {m : Nat} {com : List (Ver K R)} (hcom : ∀ v ∈ com, v ∈ s.committed) (hN : NewRecords s m com) :
    NewRecords (Durable.step c s o) m com := by
  intro x hx hge id ts he v hv
  rcases step_entries h o hcalm hrun hx with h1 | h1 | ⟨w, hw, hp, h1⟩
  · exact hN x h1 hge id ts he v hv
  · exact absurd he (h1 id ts)
  · rw [h1] at he
    cases he
    rw [BitVec.toNat_ofNat, Nat.mod_eq_of_lt (h.writer w hw).ts]
    exact (hck.wlt w hw).2.1 (by rw [hp]; rfl) v (hcom v hv)

end

end Tonbo.Lemmas.PowerLog
