import Verif.Lemmas.DurableCrash

/-!
# What memory holds stays in memory or gets into a table, and tables give way to tables with the same or newer versions
-/

set_option linter.unusedSectionVars false

namespace Tonbo.Lemmas.Lsm
open Tonbo.Model Tonbo.Model.Manifest Tonbo.Model.Planner Tonbo.Model.Outcome Tonbo.Model.Lsm Tonbo.Spec
open Tonbo.Lemmas.Manifest Tonbo.Lemmas.Outcome

variable {K R : Type} [LinearOrder K]

/-- Memory holds it, and no table is listed for the run that does. -/
def Held (s : Db K R) (logs : List (List (Ver K R))) (cur : List (Ver K R)) (u : Ver K R) : Prop :=
  u ∈ (logs.drop (doneRuns s)).flatten ∨ u ∈ cur

/-- A table that some version lists holds it. -/
def Ever (t : Nat) (s : Db K R) (u : Ver K R) : Prop :=
  ∃ l e f, Lst s.kv t l e ∧ s.files ⟨l, e.id⟩ = some f ∧ Holds f u

/-- What memory and tables held before and after. -/
structure Trace (t : Nat) (s : Db K R) (n : Nat) (logs : List (List (Ver K R))) (cur : List (Ver K R))
    (s' : Db K R) (n' : Nat) (logs' : List (List (Ver K R))) (cur' : List (Ver K R)) : Prop where
  mem : ∀ u, Held s logs cur u → Held s' logs' cur' u ∨ OnDisk t n' s' u
  disk : ∀ u, OnDisk t n s u → ∃ u', OnDisk t n' s' u' ∧ u'.key = u.key ∧ u.ts ≤ u'.ts
  old : ∀ u, Ever t s' u → Ever t s u ∨ OnDisk t n' s' u

section Steps
variable {ext : R → Option K} {x : Exec K R} {t n : Nat} {s s' : Db K R} {log : List (Ver K R)}
  {logs logs' : List (List (Ver K R))} {cur cur' : List (Ver K R)}

theorem onDisk_frame (h : Inv ext x t n s) (hkv : s'.kv = s.kv) (hf : ∀ p : Path, p.id < s.next → s'.files p = s.files p)
    {u : Ver K R} (hu : OnDisk t n s u) : OnDisk t n s' u := by
  obtain ⟨v, l, e, f, h1, h2, h3, h4⟩ := hu
  refine ⟨v, l, e, f, by rw [hkv]; exact h1, h2, ?_, h4⟩
  rw [hf _ (h.ent l e ⟨n, v, h1, h2⟩).2.1]
  exact h3

theorem trace_frame (h : Inv ext x t n s) (hkv : s'.kv = s.kv) (hf : ∀ p : Path, p.id < s.next → s'.files p = s.files p)
    (hm : ∀ u, Held s logs cur u → Held s' logs' cur' u) : Trace t s n logs cur s' n logs' cur' :=
  ⟨fun u hu => .inl (hm u hu), fun u hu => ⟨u, onDisk_frame h hkv hf hu, rfl, Nat.le_refl _⟩, by
    rintro u ⟨l, e, f, h1, h2, h3⟩
    rw [hkv] at h1
    rw [hf _ (h.ent l e h1).2.1] at h2
    exact .inl ⟨l, e, f, h1, h2, h3⟩⟩

theorem trace_same (h : Inv ext x t n s) (hkv : s'.kv = s.kv) (hf : s'.files = s.files) (hfl : s'.flushing = s.flushing)
    (hm : ∀ u ∈ cur, u ∈ cur') : Trace t s n logs cur s' n logs cur' := by
  refine trace_frame h hkv (fun _ _ => by rw [hf]) ?_
  have hdone : doneRuns s' = doneRuns s := by unfold doneRuns; rw [hfl]
  rintro u (hu | hu)
  · left; rw [hdone]; exact hu
  · exact .inr (hm u hu)

theorem trace_start (h : Inv ext x t n s) (hn : 0 < x.readRows) (task : PTask K) (head : Option Nat) (skip : Nat) :
    Trace t s n logs cur (Lsm.step ext x t s (.start task head skip)).2 n logs cur := by
  obtain ⟨s', r, e, a1, a2, a3, a4, a5, a6, a7, a8⟩ := start_spec h hn task head skip
  have key : ∀ q : Db K R, q.kv = s'.kv → q.files = s'.files → q.flushing = s'.flushing →
      Trace t s n logs cur q n logs cur := by
    intro q h1 h2 h3
    refine trace_frame h (h1.trans a2) (fun p hp => by rw [h2]; exact a7 p hp) ?_
    have hdone : doneRuns q = doneRuns s := by unfold doneRuns; rw [h3, a4]
    intro u hu
    unfold Held at hu ⊢
    rw [hdone]
    exact hu
  unfold Lsm.step
  simp only [e]
  cases r <;> exact key _ rfl rfl rfl

theorem trace_flushWrite (h : Inv ext x t n s) (count : Nat) (refs : Option (List WalRef)) :
    Trace t s n logs cur (flushWrite ext x s count refs) n logs cur := by
  have triv : ∀ q : Db K R, q.kv = s.kv → (∀ p : Path, p.id < s.next → q.files p = s.files p) → doneRuns q = doneRuns s →
      Trace t s n logs cur q n logs cur := by
    intro q h1 h2 h3
    refine trace_frame h h1 h2 ?_
    intro u hu
    unfold Held at hu ⊢
    rw [h3]
    exact hu
  unfold flushWrite
  cases hfl : s.flushing with
  | written p c => exact triv _ rfl (fun _ _ => rfl) rfl
  | published c => exact triv _ rfl (fun _ _ => rfl) rfl
  | idle =>
    have hdone : doneRuns s = 0 := by unfold doneRuns; rw [hfl]
    simp only
    by_cases hr : s.runs.runs.take count = []
    · rw [if_pos hr]; exact triv _ rfl (fun _ _ => rfl) rfl
    rw [if_neg hr]
    cases hf : Flush.flush ext (s.runs.runs.take count) with
    | error e => exact triv _ rfl (fun _ _ => rfl) (by rw [hdone]; rfl)
    | ok tab =>
      simp only
      cases hfile : tab.file ext with
      | none => exact triv _ rfl (fun _ _ => rfl) (by rw [hdone]; rfl)
      | some f =>
        refine triv _ rfl (fun p hp => ?_) (by rw [hdone]; rfl)
        simp only
        rw [setFile_ne]
        rintro rfl
        exact absurd hp (Nat.lt_irrefl _)

theorem trace_setWal (h : Inv ext x t n s) (refs : List WalRef) {n' : Nat} (h' : Inv ext x t n' (setWal t s refs)) :
    Trace t s n logs cur (setWal t s refs) n' logs cur := by
  obtain ⟨hd, hreg⟩ := h.reg
  rcases setWal_spec h refs with e | ⟨kv', e, h1, v, v', hb, hat, _, hk, hl, _⟩
  · rw [e] at h' ⊢
    rw [Durable.inv_unique h' h]
    exact trace_same h rfl rfl rfl (fun _ h => h)
  · rw [Durable.inv_unique h' h1]
    rw [e]
    refine ⟨fun u hu => .inl hu, ?_, ?_⟩
    · rintro u ⟨u', l, en, f, g1, g2, g3⟩
      have huv : u' = v := at_unique g1 (hb.2.2 (at_le hreg g1).1)
      rw [huv] at g2
      exact ⟨u, ⟨v', l, en, f, hat, (hl l en).2 g2, g3⟩, rfl, Nat.le_refl _⟩
    · rintro u ⟨l, en, f, g1, g2, g3⟩
      rcases (lst_publish hreg hk hat l en).1 g1 with h2 | h2
      · exact .inl ⟨l, en, f, h2, g2, g3⟩
      · exact .inr ⟨v', l, en, f, hat, h2, g2, g3⟩

theorem trace_flushPublish (hc : Cont ext t n s log False logs cur) (h : Inv ext x t n s) {n' : Nat}
    (h' : Inv ext x t n' (flushPublish t s)) : Trace t s n logs cur (flushPublish t s) n' logs cur := by
  have idle : flushPublish t s = s → Trace t s n logs cur (flushPublish t s) n' logs cur := by
    intro e
    rw [e] at h' ⊢
    rw [Durable.inv_unique h' h]
    exact trace_same h rfl rfl rfl (fun _ h => h)
  cases hfl : s.flushing with
  | idle => exact idle (by unfold flushPublish; rw [hfl])
  | published c => exact idle (by unfold flushPublish; rw [hfl])
  | written p c =>
    have hdone : doneRuns s = 0 := by unfold doneRuns; rw [hfl]
    have hpp : p ∈ pendings s := by unfold pendings; rw [hfl]; simp
    rcases flushPublish_spec h hfl with ⟨e, h1⟩ | ⟨kv', e, h1, d, refs, v, v', hpd, hb, hat, _, hk, hl, _⟩
    · rw [Durable.inv_unique h' h1]
      rw [e]
      refine trace_frame h rfl (fun _ _ => rfl) ?_
      intro u hu
      unfold Held at hu ⊢
      rw [hdone] at hu
      exact hu
    · rw [Durable.inv_unique h' h1]
      obtain ⟨hd0, hreg⟩ := h.reg
      obtain ⟨g1, g2⟩ := hc.flush p c hfl
      have hdp : d ∈ p.outputs := by rw [hpd]; simp
      obtain ⟨hdo, _⟩ := h.pend p hpp d hdp
      obtain ⟨f, hf, _⟩ := hdo.2.2.2
      rw [e]
      refine ⟨?_, ?_, ?_⟩
      · intro u hu
        unfold Held at hu
        rw [hdone, List.drop_zero] at hu
        rcases hu with hu | hu
        · rw [← List.take_append_drop c logs, List.flatten_append] at hu
          rcases List.mem_append.1 hu with hu | hu
          · exact .inr ⟨v', d.level, entryOf d, f, hat, (hl _ _).2 (.inl ⟨rfl, rfl⟩), hf, g2 d hdp f hf u hu⟩
          · exact .inl (.inl hu)
        · exact .inl (.inr hu)
      · rintro u ⟨v2, l, en, g, a1, a2, a3, a4⟩
        have h0 := (at_le hreg a1).1
        rw [at_unique a1 (hb.2.2 h0)] at a2
        exact ⟨u, ⟨v', l, en, g, hat, (hl _ _).2 (.inr a2), a3, a4⟩, rfl, Nat.le_refl _⟩
      · rintro u ⟨l, en, g, a1, a2, a3⟩
        rcases (lst_publish hreg hk hat l en).1 a1 with h2 | h2
        · exact .inl ⟨l, en, g, h2, a2, a3⟩
        · exact .inr ⟨v', l, en, g, hat, h2, a2, a3⟩

theorem trace_finish (h : Inv ext x t n s) (hfit : Fitting x.readRows t s) (i : Nat) {n' : Nat}
    (h' : Inv ext x t n' (Lsm.step ext x t s (.finish i)).2) :
    Trace t s n logs cur (Lsm.step ext x t s (.finish i)).2 n' logs cur := by
  obtain ⟨hd0, hreg⟩ := h.reg
  unfold Lsm.step at h' ⊢
  cases hi : s.jobs[i]? with
  | none =>
    simp only [hi] at h' ⊢
    rw [Durable.inv_unique h' h]
    exact trace_same h rfl rfl rfl (fun _ h => h)
  | some p =>
    have hpj : p ∈ s.jobs := List.mem_of_getElem? hi
    have hp : p ∈ pendings s := List.mem_append_right _ hpj
    simp only [hi] at h' ⊢
    obtain ⟨s', r, e, ⟨_, _, h1, hkv, hf, hr, _, _, hfl, hj⟩ | ⟨_, h1, hf, _, hr, _, hfl, hj, v, v', target, o, hjf, hat, hv', hk, hl, _⟩⟩ :=
      finish_spec h hi
    · rw [e] at h' ⊢
      rw [Durable.inv_unique h' h1]
      have hdone : doneRuns s' = doneRuns s := by unfold doneRuns; rw [hfl]
      refine ⟨?_, ?_, ?_⟩
      · intro u hu
        left
        unfold Held at hu ⊢
        rw [hdone]
        exact hu
      · rintro u ⟨v, l, en, g, a1, a2, a3, a4⟩
        refine ⟨u, ⟨v, l, en, g, by rw [hkv]; exact a1, a2, ?_, a4⟩, rfl, Nat.le_refl _⟩
        rw [hf, cleanup_other]
        · exact a3
        · intro d hd1 hc
          rw [(h.pend p hp d hd1).1.1] at hc
          simp only [Option.some.injEq, Path.mk.injEq] at hc
          exact (h.pend p hp d hd1).2 l en ⟨n, v, a1, a2⟩ hc.2.symm
      · rintro u ⟨l, en, g, a1, a2, a3⟩
        rw [hkv] at a1
        rw [hf] at a2
        exact .inl ⟨l, en, g, a1, cleanup_some _ _ _ _ a2, a3⟩
    · rw [e] at h' ⊢
      rw [Durable.inv_unique h' h1]
      have hdone : doneRuns s' = doneRuns s := by unfold doneRuns; rw [hfl]
      refine ⟨?_, ?_, ?_⟩
      · intro u hu
        left
        unfold Held at hu ⊢
        rw [hdone]
        exact hu
      · rintro u ⟨v2, l, en, g, a1, a2, a3, a4⟩
        rw [at_unique a1 hjf.here] at a2
        by_cases hin : ∃ d ∈ p.inputs, d.level = l ∧ d.id = en.id
        · obtain ⟨d, hd, rfl, hid⟩ := hin
          obtain ⟨fs, gs, c1, c2, _, _, _, c3⟩ := (h.jobs p hpj).2
          have hino : ∀ d ∈ p.inputs, DescOk s.files s.next d := fun d hd =>
            names_descOk h.ent hjf.here (hjf.names d hd)
          obtain ⟨f, hff, hfd⟩ := (readAll_mem hino c1).2 d hd
          rw [hid, a3] at hfd
          cases hfd
          obtain ⟨u', ⟨g', hg', hu'⟩, hk3, hk4⟩ := c3 (by
            intro f hf'
            obtain ⟨d', hd', hfd⟩ := (readAll_mem hino c1).1 f hf'
            exact hfit _ _ ⟨n, v, hjf.here, (hjf.names d' hd').1⟩ f hfd) u ⟨g, hff, a4⟩
          obtain ⟨d', hd', hgd⟩ := (readAll_mem (fun d hd => (h.pend p hp d hd).1) c2).1 g' hg'
          refine ⟨u', ⟨v', d'.level, entryOf d', g', hat, (hl _ _).2 (.inl ⟨d', hd', rfl, rfl⟩), ?_, hu'⟩, hk3, hk4⟩
          rw [hf]
          exact hgd
        · refine ⟨u, ⟨v', l, en, g, hat, (hl _ _).2 (.inr ⟨a2, ?_⟩), by rw [hf]; exact a3, a4⟩, rfl, Nat.le_refl _⟩
          intro d hd hc
          exact hin ⟨d, hd, hc⟩
      · rintro u ⟨l, en, g, a1, a2, a3⟩
        rcases (lst_publish hreg hk hat l en).1 a1 with h2 | h2
        · exact .inl ⟨l, en, g, h2, by rw [← hf]; exact a2, a3⟩
        · exact .inr ⟨v', l, en, g, hat, h2, a2, a3⟩

end Steps

end Tonbo.Lemmas.Lsm

namespace Tonbo.Lemmas.Durable
open Tonbo.Model Tonbo.Model.Manifest Tonbo.Model.Lsm Tonbo.Model.Durable Tonbo.Spec Tonbo.Spec.Durable
open Tonbo.Model.Wal (Event Batch Sch commitCol WState)
open Tonbo.Lemmas.Lsm

variable {A K R : Type} [LinearOrder K]

section
variable {c : Ctx A K R} {s : Sys A K R} {n : Nat} {log : List (Ver K R)} {logs : List (List (Ver K R))}
  {cur : List (Ver K R)} {w : Writer K R}

/-- Not a crash. -/
def Running : Durable.Op K R → Prop
  | .crash _ _ _ => False
  | _ => True

theorem frameStep_db (s : Sys A K R) (w : Writer K R) (b : Bool) (e : Event A) (p : Phase) :
    (frameStep s w b e p).1.db = s.db := by
  unfold frameStep
  split <;> rfl

theorem prune_db (c : Ctx A K R) (s : Sys A K R) : (prune c s).db = s.db := by
  unfold prune
  split <;> rfl

theorem moveRange_db (s : Sys A K R) (t : Mem.Runs K R) : (moveRange s t).db = { s.db with runs := t } := by
  unfold moveRange
  split <;> rfl

theorem applyStep_db (c : Ctx A K R) (s : Sys A K R) (w : Writer K R) (b : Bool) (op : Mem.Op K R) (p : Phase) :
    (applyStep c s w b op p).1.db.kv = s.db.kv ∧ (applyStep c s w b op p).1.db.files = s.db.files ∧
      (applyStep c s w b op p).1.db.flushing = s.db.flushing := by
  unfold applyStep memCall
  split
  · simp only [moveRange_db, and_self]
  · exact ⟨rfl, rfl, rfl⟩

theorem advance_db (c : Ctx A K R) (s : Sys A K R) (w : Writer K R) (hp : w.phase ≠ .publish) :
    (advance c s w).1.db.kv = s.db.kv ∧ (advance c s w).1.db.files = s.db.files ∧
      (advance c s w).1.db.flushing = s.db.flushing := by
  unfold advance
  cases h : w.phase with
  | begin => simp only [frameStep_db]; exact ⟨trivial, trivial, trivial⟩
  | up => simp only [frameStep_db]; exact ⟨trivial, trivial, trivial⟩
  | del => simp only [frameStep_db]; exact ⟨trivial, trivial, trivial⟩
  | commit => exact ⟨rfl, rfl, rfl⟩
  | record => simp only; split <;> exact ⟨rfl, rfl, rfl⟩
  | applyUp => exact applyStep_db _ _ _ _ _ _
  | applyDel => exact applyStep_db _ _ _ _ _ _
  | look => exact ⟨rfl, rfl, rfl⟩
  | publish => exact absurd h hp
  | prune => simp only [prune_db]; exact ⟨trivial, trivial, trivial⟩
  | ack => exact ⟨rfl, rfl, rfl⟩

theorem publish_db (c : Ctx A K R) (s : Sys A K R) (w : Writer K R) (hp : w.phase = .publish) :
    (advance c s w).1.db = setWal c.table s.db w.refs := by
  unfold advance setWal
  simp only [hp]
  by_cases hr : w.refs = []
  · rw [if_pos hr, if_pos hr]
  · rw [if_neg hr, if_neg hr]
    cases ha : apply s.db.kv c.table [.setWal w.refs] none with
    | mk kv r => cases r <;> rfl

theorem t_advance (h : D c s n log logs cur) (i : Nat) (hlen : ∀ w ∈ s.writers[i]?,
      (w.phase = .applyUp → (s.db.runs.call c.ext w.putOp).2.runs.length = s.db.runs.runs.length) ∧
      (w.phase = .applyDel → (s.db.runs.call c.ext w.delOp).2.runs.length = s.db.runs.runs.length)) :
    ∃ n' log' logs' cur', D c (stepLive c s (.advance i)) n' log' logs' cur' ∧
      Trace c.table s.db n logs cur (stepLive c s (.advance i)).db n' logs' cur' := by
  simp only [stepLive]
  cases hi : s.writers[i]? with
  | none => exact ⟨n, log, logs, cur, h, trace_same h.inv rfl rfl rfl (fun _ h => h)⟩
  | some w =>
    simp only
    have hw := hi
    obtain ⟨hl1, hl2⟩ := hlen w (by rw [hi]; rfl)
    have key : w.phase ≠ .publish → ∀ cur', (∀ u ∈ cur, u ∈ cur') →
        Trace c.table s.db n logs cur (advance c s w).1.db n logs cur' := by
      intro hp cur' hcur
      obtain ⟨h1, h2, h3⟩ := advance_db c s w hp
      exact trace_same h.inv h1 h2 h3 hcur
    cases hp : w.phase with
    | begin => exact ⟨_, _, _, _, d_begin h hw hp, key (by rw [hp]; simp) _ (fun _ h => h)⟩
    | up => exact ⟨_, _, _, _, d_up h hw hp, key (by rw [hp]; simp) _ (fun _ h => h)⟩
    | del => exact ⟨_, _, _, _, d_del h hw hp, key (by rw [hp]; simp) _ (fun _ h => h)⟩
    | commit => exact ⟨_, _, _, _, d_commit h hw hp, key (by rw [hp]; simp) _ (fun _ h => h)⟩
    | record => exact ⟨_, _, _, _, d_record h hw hp, key (by rw [hp]; simp) _ (fun _ h => h)⟩
    | applyUp =>
      obtain ⟨_, _, hc, hd⟩ := d_applyUp h hw hp (hl1 hp)
      exact ⟨_, _, _, _, hd, key (by rw [hp]; simp) _ hc⟩
    | applyDel =>
      obtain ⟨_, _, hc, hd⟩ := d_applyDel h hw hp (hl2 hp)
      exact ⟨_, _, _, _, hd, key (by rw [hp]; simp) _ hc⟩
    | look => exact ⟨_, _, _, _, d_look h hw hp, key (by rw [hp]; simp) _ (fun _ h => h)⟩
    | publish =>
      obtain ⟨n', hd⟩ := d_publish h hw hp
      refine ⟨n', _, _, _, hd, ?_⟩
      have hinv := hd.inv
      change Inv c.ext c.x c.table n' (advance c s w).1.db at hinv
      change Trace c.table s.db n logs cur (advance c s w).1.db n' logs cur
      rw [publish_db c s w hp] at hinv ⊢
      exact trace_setWal h.inv _ hinv
    | prune => exact ⟨_, _, _, _, d_pruneStep h hw hp, key (by rw [hp]; simp) _ (fun _ h => h)⟩
    | ack => exact ⟨_, _, _, _, d_ack h hw hp, key (by rw [hp]; simp) _ (fun _ h => h)⟩

theorem t_step (h : D c s n log logs cur) (hx : 0 < c.x.readRows) (o : Durable.Op K R) (hcalm : Calm c s o)
    (hfun : Functional (· ∈ s.committed)) (hrun : Running o) : ∃ n' log' logs' cur',
      D c (Durable.step c s o) n' log' logs' cur' ∧
      Trace c.table s.db n logs cur (Durable.step c s o).db n' logs' cur' := by
  have same : ∀ s' : Sys A K R, s'.db = s.db → Trace c.table s.db n logs cur s'.db n logs cur := by
    intro s' e
    rw [e]
    exact trace_same h.inv rfl rfl rfl (fun _ h => h)
  unfold Durable.step
  rw [h.open_]
  simp only [Bool.false_eq_true, if_false]
  cases o with
  | write mode rows keys =>
    obtain ⟨h1, h2, h3, h4, h5, h6, h7⟩ := hcalm
    refine ⟨_, _, _, _, d_write h mode rows keys h1 h2 h3 h4 h5 h6 h7, same _ ?_⟩
    change (Durable.begin c { s with clock := s.clock + 1, nextId := s.nextId + 1 } (newWriter s mode rows keys)).db = s.db
    unfold Durable.begin
    rw [if_neg (show ¬ (newWriter s mode rows keys).mode = .fast from h2)]
  | advance i => exact t_advance h i hcalm
  | cancel i => exact ⟨_, _, _, _, d_cancel h i, same _ rfl⟩
  | rotate => exact ⟨_, _, _, _, d_rotate h, same _ rfl⟩
  | freeze =>
    obtain ⟨_, _, hm, hd⟩ := d_freeze h hcalm
    refine ⟨_, _, _, _, hd, ?_⟩
    have e : (stepLive c s .freeze).db = { s.db with runs := (s.db.runs.call c.ext .freeze).2 } := moveRange_db _ _
    rw [e]
    exact trace_frame h.inv rfl (fun _ _ => rfl) hm
  | flushBegin =>
    simp only [stepLive]
    by_cases hb : s.flushCount = none ∧ s.db.flushing = .idle ∧ s.db.runs.runs ≠ []
    · simp only [if_pos hb]
      exact ⟨_, _, _, _, d_db h _ h.inv h.cont rfl rfl rfl, same s rfl⟩
    · simp only [if_neg hb]
      exact ⟨_, _, _, _, h, same s rfl⟩
  | flushWrite =>
    refine ⟨_, _, _, _, d_flushWrite h hfun hcalm.1 hcalm.2, ?_⟩
    simp only [stepLive]
    cases s.flushCount with
    | none => exact same s rfl
    | some k => exact trace_flushWrite h.inv k _
  | flushPublish =>
    obtain ⟨_, hd⟩ := d_flushPublish h
    exact ⟨_, _, _, _, hd, trace_flushPublish h.cont h.inv hd.inv⟩
  | flushDrain =>
    obtain ⟨_, hm, hd⟩ := d_flushDrain h
    refine ⟨_, _, _, _, hd, ?_⟩
    change Trace c.table s.db n logs cur (flushDrain s.db) n _ cur
    refine trace_frame h.inv ?_ ?_ ?_
    · unfold flushDrain; split <;> [(split <;> rfl); rfl]
    · intro p _
      unfold flushDrain; split <;> [(split <;> rfl); rfl]
    · intro u hu
      unfold Held at hu ⊢
      rw [hm]
      exact hu
  | prune => exact ⟨_, _, _, _, d_prune h, same _ (prune_db c s)⟩
  | start t head skip => exact ⟨_, _, _, _, d_start h hx t head skip, trace_start h.inv hx t head skip⟩
  | finish i =>
    obtain ⟨_, hd⟩ := d_finish h i hcalm.1 hcalm.2
    exact ⟨_, _, _, _, hd, trace_finish h.inv (fun l e he => hcalm.1 l e (Lsm.everListed_iff.2 he)) i hd.inv⟩
  | crash cap pol st => exact absurd hrun id

end

end Tonbo.Lemmas.Durable
