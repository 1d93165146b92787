import Verif.Lemmas.DurableCrash

/-!
# Timestamps of a durable table
-/

set_option linter.unusedSectionVars false

namespace Tonbo.Lemmas.Durable
open Tonbo.Model Tonbo.Model.Manifest Tonbo.Model.Lsm Tonbo.Model.Durable Tonbo.Spec Tonbo.Spec.Durable
open Tonbo.Model.Wal (Event Batch Sch WState)
open Tonbo.Spec.Wal (payloadWrites committedTxns logBatches)
open Tonbo.Lemmas.Replay (loop_all lastOf max_of_last)
open Tonbo.Lemmas.Mem (lastOnly_functional lastOnly_mem)

variable {A K R : Type} [LinearOrder K]

section
variable {c : Ctx A K R} {s : Sys A K R} {w : Writer K R}

theorem put_writes_mem {v : Ver K R} (h : v ∈ batchWrites c.ext w.putOp) :
    v.ts = w.ts ∧ ∃ r ∈ w.rows, c.ext r = some v.key := by
  have h := lastOnly_mem h
  unfold opWrites Writer.putOp putWrites at h
  simp only [List.filterMap_map, List.mem_filterMap, Function.comp] at h
  obtain ⟨r, hr, hv⟩ := h
  cases he : c.ext r with
  | none => rw [he] at hv; simp at hv
  | some k =>
    rw [he] at hv
    simp at hv
    subst hv
    exact ⟨rfl, r, hr, he⟩

theorem del_writes_mem {v : Ver K R} (h : v ∈ batchWrites c.ext w.delOp) : v.ts = w.ts ∧ v.key ∈ w.keys := by
  have h := lastOnly_mem h
  unfold opWrites Writer.delOp delWrites at h
  simp only [List.map_map, List.mem_map, Function.comp] at h
  obtain ⟨k, hk, rfl⟩ := h
  exact ⟨rfl, hk⟩

theorem writes_ts {v : Ver K R} (h : v ∈ w.writes c) : v.ts = w.ts := by
  unfold Writer.writes at h
  rcases List.mem_append.1 h with h | h
  · split at h
    · exact (put_writes_mem h).1
    · cases h
  · split at h
    · exact (del_writes_mem h).1
    · cases h

theorem writes_functional (hk : ∀ r ∈ w.rows, ∀ k ∈ w.keys, c.ext r ≠ some k) : Functional (· ∈ w.writes c) := by
  intro a b ha hb h1 h2
  unfold Writer.writes at ha hb
  have hput : ∀ v, v ∈ (if w.hasUp then batchWrites c.ext w.putOp else []) → v ∈ batchWrites c.ext w.putOp := by
    intro v hv
    split at hv
    · exact hv
    · cases hv
  have hdel : ∀ v, v ∈ (if w.hasDel then batchWrites c.ext w.delOp else []) → v ∈ batchWrites c.ext w.delOp := by
    intro v hv
    split at hv
    · exact hv
    · cases hv
  rcases List.mem_append.1 ha with ha | ha <;> rcases List.mem_append.1 hb with hb | hb
  · exact lastOnly_functional _ a b (hput _ ha) (hput _ hb) h1 h2
  · obtain ⟨_, r, hr, he⟩ := put_writes_mem (hput _ ha)
    exact absurd he (hk r hr _ (h1 ▸ (del_writes_mem (hdel _ hb)).2))
  · obtain ⟨_, r, hr, he⟩ := put_writes_mem (hput _ hb)
    exact absurd he (hk r hr _ (h1 ▸ (del_writes_mem (hdel _ ha)).2))
  · exact lastOnly_functional _ a b (hdel _ ha) (hdel _ hb) h1 h2

/-- Timestamps are apart. -/
structure Ck (c : Ctx A K R) (s : Sys A K R) : Prop where
  fn : Functional (· ∈ s.committed)
  lt : ∀ v ∈ s.committed, v.ts < s.clock
  apart : s.writers.Pairwise (fun a b => a.ts ≠ b.ts)
  wlt : ∀ w ∈ s.writers, w.ts < s.clock ∧ (uncommitted w.phase = true → ∀ v ∈ s.committed, v.ts ≠ w.ts) ∧
    ∀ r ∈ w.rows, ∀ k ∈ w.keys, c.ext r ≠ some k

theorem ck_same {s' : Sys A K R} (h : Ck c s) (h1 : s'.committed = s.committed) (h2 : s'.clock = s.clock)
    (h3 : s'.writers = s.writers) : Ck c s' :=
  ⟨by rw [h1]; exact h.fn, by rw [h1, h2]; exact h.lt, by rw [h3]; exact h.apart, by rw [h1, h2, h3]; exact h.wlt⟩

/-- What a step of a writer leaves alone. -/
structure Kept (s : Sys A K R) (w : Writer K R) (r : Sys A K R × Option (Writer K R)) : Prop where
  clock : r.1.clock = s.clock
  writer : ∀ w', r.2 = some w' → w'.ts = w.ts ∧ w'.rows = w.rows ∧ w'.keys = w.keys

theorem kept_frame (s : Sys A K R) (w : Writer K R) (b : Bool) (e : Event A) (p : Phase) :
    Kept s w (frameStep s w b e p) := by
  unfold frameStep
  split
  · exact ⟨rfl, fun w' h => by cases h; exact ⟨rfl, rfl, rfl⟩⟩
  · exact ⟨rfl, fun w' h => by cases h; exact ⟨rfl, rfl, rfl⟩⟩

theorem moveRange_clock (s : Sys A K R) (t : Mem.Runs K R) :
    (moveRange s t).clock = s.clock ∧ (moveRange s t).writers = s.writers := by
  unfold moveRange
  split <;> exact ⟨rfl, rfl⟩

theorem kept_apply (c : Ctx A K R) (s : Sys A K R) (w : Writer K R) (b : Bool) (op : Mem.Op K R) (p : Phase) :
    Kept s w (applyStep c s w b op p) := by
  unfold applyStep
  split
  · refine ⟨(moveRange_clock _ _).1, fun w' h => ?_⟩
    simp only at h
    split at h
    · cases h; exact ⟨rfl, rfl, rfl⟩
    · cases h
  · exact ⟨rfl, fun w' h => by cases h; exact ⟨rfl, rfl, rfl⟩⟩

theorem prune_clock (c : Ctx A K R) (s : Sys A K R) : (prune c s).clock = s.clock := by
  unfold prune
  split <;> rfl

theorem kept_advance (c : Ctx A K R) (s : Sys A K R) (w : Writer K R) : Kept s w (advance c s w) := by
  unfold advance
  cases w.phase with
  | begin => exact kept_frame _ _ _ _ _
  | up => exact kept_frame _ _ _ _ _
  | del => exact kept_frame _ _ _ _ _
  | commit => exact ⟨rfl, fun w' h => by cases h; exact ⟨rfl, rfl, rfl⟩⟩
  | record =>
    simp only
    cases w.span with
    | none => exact ⟨rfl, fun w' h => by cases h; exact ⟨rfl, rfl, rfl⟩⟩
    | some _ => exact ⟨rfl, fun w' h => by cases h; exact ⟨rfl, rfl, rfl⟩⟩
  | applyUp => exact kept_apply _ _ _ _ _ _
  | applyDel => exact kept_apply _ _ _ _ _ _
  | look => exact ⟨rfl, fun w' h => by cases h; exact ⟨rfl, rfl, rfl⟩⟩
  | publish =>
    simp only
    by_cases hr : w.refs = []
    · rw [if_pos hr]; exact ⟨rfl, fun w' h => by cases h; exact ⟨rfl, rfl, rfl⟩⟩
    · rw [if_neg hr]
      rcases Manifest.apply s.db.kv c.table [.setWal w.refs] none with ⟨kv, _ | _⟩
      · exact ⟨rfl, fun w' h => by cases h⟩
      · exact ⟨rfl, fun w' h => by cases h; exact ⟨rfl, rfl, rfl⟩⟩
  | prune => exact ⟨prune_clock _ _, fun w' h => by cases h; exact ⟨rfl, rfl, rfl⟩⟩
  | ack => exact ⟨rfl, fun w' h => by cases h⟩

/-- Before the commit record nothing is committed, and afterwards the phase is not before it. -/
theorem advance_commits (c : Ctx A K R) (s : Sys A K R) (w : Writer K R) :
    ((advance c s w).1.committed = s.committed ∧
      ∀ w', (advance c s w).2 = some w' → uncommitted w'.phase = true → uncommitted w.phase = true) ∨
    (uncommitted w.phase = true ∧ (advance c s w).1.committed = s.committed ++ w.writes c ∧
      ∀ w', (advance c s w).2 = some w' → uncommitted w'.phase = false) := by
  have happ : ∀ b op p, uncommitted p = false → (applyStep c s w b op p).1.committed = s.committed ∧
      ∀ w', (applyStep c s w b op p).2 = some w' → uncommitted w'.phase = true → uncommitted w.phase = true := by
    intro b op p hp
    refine ⟨applyStep_committed _ _ _ _ _ _, fun w' h hu => ?_⟩
    unfold applyStep at h
    split at h
    · simp only at h
      split at h
      · cases h
        simp only [Writer.at] at hu
        rw [hp] at hu
        cases hu
      · cases h
    · cases h
      simp only [Writer.at] at hu
      rw [hp] at hu
      cases hu
  unfold advance
  cases hph : w.phase with
  | begin => exact .inl ⟨frameStep_committed _ _ _ _ _, fun _ _ _ => rfl⟩
  | up => exact .inl ⟨frameStep_committed _ _ _ _ _, fun _ _ _ => rfl⟩
  | del => exact .inl ⟨frameStep_committed _ _ _ _ _, fun _ _ _ => rfl⟩
  | commit => exact .inr ⟨rfl, rfl, fun w' h => by cases h; rfl⟩
  | record =>
    simp only
    cases w.span with
    | none => exact .inl ⟨rfl, fun w' h hu => by cases h; cases hu⟩
    | some _ => exact .inl ⟨rfl, fun w' h hu => by cases h; cases hu⟩
  | applyUp =>
    have := happ (w.mode != .fast && w.hasUp) w.putOp .applyDel rfl
    rw [hph] at this
    exact .inl this
  | applyDel =>
    have := happ (w.mode != .fast && w.hasDel) w.delOp .look rfl
    rw [hph] at this
    exact .inl this
  | look => exact .inl ⟨rfl, fun w' h hu => by cases h; cases hu⟩
  | publish =>
    simp only
    by_cases hr : w.refs = []
    · rw [if_pos hr]; exact .inl ⟨rfl, fun w' h hu => by cases h; cases hu⟩
    · rw [if_neg hr]
      rcases Manifest.apply s.db.kv c.table [.setWal w.refs] none with ⟨kv, _ | _⟩
      · exact .inl ⟨rfl, fun w' h => by cases h⟩
      · exact .inl ⟨rfl, fun w' h hu => by cases h; cases hu⟩
  | prune => exact .inl ⟨prune_committed _ _, fun w' h hu => by cases h; cases hu⟩
  | ack => exact .inl ⟨rfl, fun w' h => by cases h⟩

theorem functional_append {a b : List (Ver K R)} (ha : Functional (· ∈ a)) (hb : Functional (· ∈ b))
    (hab : ∀ x ∈ a, ∀ y ∈ b, x.ts ≠ y.ts) : Functional (· ∈ a ++ b) := by
  intro x y hx hy h1 h2
  rcases List.mem_append.1 hx with hx | hx <;> rcases List.mem_append.1 hy with hy | hy
  · exact ha x y hx hy h1 h2
  · exact absurd h2 (hab x hx y hy)
  · exact absurd h2.symm (hab y hy x hx)
  · exact hb x y hx hy h1 h2

theorem apart_set {ws : List (Writer K R)} (h : ws.Pairwise (fun a b => a.ts ≠ b.ts)) {i : Nat} {w : Writer K R}
    (hw : ws[i]? = some w) {o : Option (Writer K R)} (ho : ∀ w', o = some w' → w'.ts = w.ts) :
    (setWriter ws i o).Pairwise (fun a b => a.ts ≠ b.ts) := by
  cases o with
  | none => exact h.sublist (List.eraseIdx_sublist ws i)
  | some w' =>
    obtain ⟨hi, hwi⟩ := List.getElem?_eq_some_iff.1 hw
    have hts : w'.ts = ws[i].ts := by rw [hwi]; exact ho w' rfl
    change (ws.set i w').Pairwise _
    rw [List.pairwise_iff_getElem]
    intro a b ha hb hab
    rw [List.length_set] at ha hb
    have := List.pairwise_iff_getElem.1 h a b ha hb hab
    rw [List.getElem_set, List.getElem_set]
    by_cases h1 : i = a
    · have h2 : ¬ i = b := by omega
      subst h1
      rw [if_pos rfl, if_neg h2, hts]
      exact this
    · by_cases h2 : i = b
      · subst h2
        rw [if_neg h1, if_pos rfl, hts]
        exact this
      · rw [if_neg h1, if_neg h2]
        exact this

/-- The writers after a step of one of them: what it has become, and the others. -/
theorem apart_other {ws : List (Writer K R)} (h : ws.Pairwise (fun a b => a.ts ≠ b.ts)) {i : Nat} {w : Writer K R}
    (hw : ws[i]? = some w) {o : Option (Writer K R)} {x : Writer K R} (hx : x ∈ setWriter ws i o) :
    o = some x ∨ (x ∈ ws ∧ x.ts ≠ w.ts) := by
  obtain ⟨hi, hwi⟩ := List.getElem?_eq_some_iff.1 hw
  have key : ∀ j (hj : j < ws.length), j ≠ i → ws[j] = x → x ∈ ws ∧ x.ts ≠ w.ts := by
    intro j hj hji hxj
    refine ⟨by rw [← hxj]; exact List.getElem_mem hj, ?_⟩
    rw [← hxj, ← hwi]
    rcases Nat.lt_or_gt_of_ne hji with hlt | hlt
    · exact List.pairwise_iff_getElem.1 h j i hj hi hlt
    · exact fun e => List.pairwise_iff_getElem.1 h i j hi hj hlt e.symm
  cases o with
  | none =>
    obtain ⟨j, hj, hji, hxj⟩ := List.mem_eraseIdx_iff_getElem.1 hx
    exact .inr (key j hj hji hxj)
  | some w' =>
    obtain ⟨j, hj, hxj⟩ := List.mem_iff_getElem.1 hx
    change j < (ws.set i w').length at hj
    change (ws.set i w')[j] = x at hxj
    rw [List.length_set] at hj
    rw [List.getElem_set] at hxj
    by_cases hij : i = j
    · rw [if_pos hij] at hxj
      exact .inl (by rw [hxj])
    · rw [if_neg hij] at hxj
      exact .inr (key j hj (Ne.symm hij) hxj)

theorem ck_advance (h : Ck c s) (i : Nat) : Ck c (stepLive c s (.advance i)) := by
  simp only [stepLive]
  cases hi : s.writers[i]? with
  | none => exact h
  | some w =>
    simp only
    obtain ⟨h1, h2, h3⟩ := h.wlt w (List.mem_of_getElem? hi)
    have hk := kept_advance c s w
    have hap := apart_set h.apart hi (fun w' hw' => (hk.writer w' hw').1)
    rcases advance_commits c s w with ⟨hc, hu⟩ | ⟨hun, hc, hu⟩
    · refine ⟨by simp only [hc]; exact h.fn, by simp only [hc, hk.clock]; exact h.lt, hap, ?_⟩
      intro w' hw'
      simp only [hc, hk.clock]
      rcases apart_other h.apart hi hw' with hw' | ⟨hw', _⟩
      · obtain ⟨k1, k2, k3⟩ := hk.writer w' hw'
        simp only [k1, k2, k3]
        exact ⟨h1, fun hx => h2 (hu w' hw' hx), h3⟩
      · exact h.wlt w' hw'
    · refine ⟨?_, ?_, hap, ?_⟩
      · simp only [hc]
        exact functional_append h.fn (writes_functional h3) (fun x hx y hy => by rw [writes_ts hy]; exact h2 hun x hx)
      · simp only [hc, hk.clock]
        intro v hv
        rcases List.mem_append.1 hv with hv | hv
        · exact h.lt v hv
        · rw [writes_ts hv]; exact h1
      · intro w' hw'
        simp only [hc, hk.clock]
        rcases apart_other h.apart hi hw' with hw' | ⟨hw', hne⟩
        · obtain ⟨k1, k2, k3⟩ := hk.writer w' hw'
          simp only [k1, k2, k3]
          refine ⟨h1, fun hx => ?_, h3⟩
          rw [hu w' hw'] at hx
          cases hx
        · obtain ⟨g1, g2, g3⟩ := h.wlt w' hw'
          refine ⟨g1, fun hx v hv => ?_, g3⟩
          rcases List.mem_append.1 hv with hv | hv
          · exact g2 hx v hv
          · rw [writes_ts hv]
            exact Ne.symm hne

theorem payload_ts {ts : BitVec 64} {e : Event A} {v : Ver K R} (h : v ∈ lastOnly (payloadWrites c.ext c.sch ts e)) :
    v.ts = ts.toNat := by
  have h := lastOnly_mem h
  cases e with
  | append i b o col =>
    simp only [payloadWrites, List.mem_filterMap] at h
    obtain ⟨r, _, hr⟩ := h
    cases he : c.ext r with
    | none => rw [he] at hr; simp at hr
    | some k => rw [he] at hr; simp at hr; rw [← hr]
  | delete i b o =>
    simp only [payloadWrites, List.mem_filterMap] at h
    obtain ⟨r, _, hr⟩ := h
    cases r with
    | none => simp at hr
    | some k => simp at hr; rw [← hr]
  | _ => simp [payloadWrites] at h

theorem ck_crash (h : Ck c s) (cap : Nat) (pol : Nat → Bool) (st : Option WState) (hf : Fresh c s (.crash cap pol st)) :
    Ck c (crash c s cap pol st) := by
  unfold crash
  cases reopen cap c.table s.db with
  | error _ => exact ck_same h rfl rfl rfl
  | ok db =>
    simp only
    cases hr : Wal.replay c.ext c.sch pol (Mem.Runs.new cap) (replayed (floorOf c s) s.segs) with
    | none => exact ck_same h rfl rfl rfl
    | some r =>
      obtain ⟨t, last⟩ := r
      refine ⟨h.fn, ?_, by simp, by simp⟩
      simp only
      intro v hv
      obtain ⟨hmax, hf⟩ := hf
      unfold Wal.replay at hr
      cases hl : (replayed (floorOf c s) s.segs).foldlM (Wal.replayEvent c.ext c.sch pol)
          ⟨Mem.Runs.new cap, fun _ => none, none, 0⟩ with
      | none => rw [hl] at hr; cases hr
      | some rs =>
        rw [hl] at hr
        simp only [Option.map_some, Option.some.injEq, Prod.mk.injEq] at hr
        have hlast := (loop_all _ hl).last
        rw [hr.2] at hlast
        have key : ∀ m, v.ts ≤ m → v.ts < min (m + 1) Mem.tsMax := by
          intro m hm
          have := hmax v hv
          have : Mem.tsMax = 2 ^ 64 - 1 := rfl
          omega
        rcases hf with hf | ⟨he, m, hm, hf⟩
        · obtain ⟨u, hu, hle⟩ := hf v hv
          obtain ⟨p, hp, e, he, hue⟩ := mem_logBatches.1 hu
          obtain ⟨m, hm, hpm⟩ := (max_of_last _).1 p hp (List.ne_nil_of_mem he)
          rw [hlast, hm]
          have := payload_ts hue
          exact key m (by omega)
        · rw [hlast, he]
          have hm : st.bind (·.lastCommit) = some m := hm
          simp only [lastOf, List.filter_nil, List.foldl_nil, Wal.recoveredClock, Option.orElse_none, hm]
          exact key m (hf v hv)

theorem ck_step (h : Ck c s) (o : Durable.Op K R) (hcalm : Calm c s o) (hf : Fresh c s o) :
    Ck c (Durable.step c s o) := by
  unfold Durable.step
  by_cases hd : s.dead = true
  · rw [if_pos hd]; exact h
  rw [if_neg hd]
  cases o with
  | write mode rows keys =>
    obtain ⟨_, hm, _⟩ := hcalm
    have e : stepLive c s (.write mode rows keys) =
        { s with clock := s.clock + 1, nextId := s.nextId + 1, writers := s.writers ++ [newWriter s mode rows keys] } := by
      have hm : ¬ (newWriter s mode rows keys).mode = .fast := hm
      change begin c { s with clock := s.clock + 1, nextId := s.nextId + 1 } (newWriter s mode rows keys) = _
      unfold begin
      rw [if_neg hm]
    rw [e]
    refine ⟨h.fn, fun v hv => Nat.lt_succ_of_lt (h.lt v hv), ?_, ?_⟩
    · rw [List.pairwise_append]
      refine ⟨h.apart, List.pairwise_singleton _ _, fun a ha b hb => ?_⟩
      rw [List.mem_singleton.1 hb]
      exact Nat.ne_of_lt (h.wlt a ha).1
    · intro w hw
      rcases List.mem_append.1 hw with hw | hw
      · obtain ⟨g1, g2, g3⟩ := h.wlt w hw
        exact ⟨Nat.lt_succ_of_lt g1, g2, g3⟩
      · rw [List.mem_singleton.1 hw]
        exact ⟨Nat.lt_succ_self _, fun _ v hv => Nat.ne_of_lt (h.lt v hv), hf⟩
  | advance i => exact ck_advance h i
  | cancel i =>
    refine ⟨h.fn, h.lt, h.apart.sublist (List.eraseIdx_sublist _ _), ?_⟩
    · intro w hw
      exact h.wlt w (List.mem_of_mem_eraseIdx hw)
  | rotate => exact ck_same h rfl rfl rfl
  | freeze => exact ck_same h (moveRange_committed _ _) (moveRange_clock _ _).1 (moveRange_clock _ _).2
  | flushBegin =>
    simp only [stepLive]
    split
    · exact ck_same h rfl rfl rfl
    · exact h
  | flushWrite =>
    simp only [stepLive]
    cases s.flushCount
    · exact h
    · exact ck_same h rfl rfl rfl
  | flushPublish => exact ck_same h rfl rfl rfl
  | flushDrain => exact ck_same h rfl rfl rfl
  | prune => exact ck_same h (prune_committed _ _) (prune_clock _ _) (prune_writers _ _)
  | start t head skip => exact ck_same h rfl rfl rfl
  | finish i => exact ck_same h rfl rfl rfl
  | crash cap pol st => exact ck_crash h cap pol st hf

theorem ck_run : ∀ (ops : List (Durable.Op K R)) {s : Sys A K R}, Ck c s → CalmRun c s ops → FreshRun c s ops →
    Ck c (Durable.run c s ops)
  | [], _, h, _, _ => h
  | o :: ops, _, h, hc, hf => ck_run ops (ck_step h o hc.1 hf.1) hc.2 hf.2

theorem ck_new (c : Ctx A K R) (cap sv : Nat) : Ck c (Sys.new cap c.table sv) :=
  ⟨by intro a b ha; simp [Sys.new] at ha, by simp [Sys.new], by simp [Sys.new], by simp [Sys.new]⟩

end

end Tonbo.Lemmas.Durable
