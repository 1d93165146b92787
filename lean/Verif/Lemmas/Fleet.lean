import Verif.Lemmas.LsmFront
import Verif.Model.Fleet

/-!
# One writer and its readers
-/

set_option linter.unusedSectionVars false

namespace Tonbo.Lemmas.Fleet
open Tonbo.Model Tonbo.Model.Manifest Tonbo.Model.Planner Tonbo.Model.Lsm Tonbo.Model.Fleet Tonbo.Spec
open Tonbo.Lemmas.Lsm
open Tonbo.Lemmas.Mem (lastOnly_functional lastOnly_mem)

variable {K R : Type} [LinearOrder K]

/-- A process that has only opened the table. -/
def Blank (q : Proc K R) : Prop := (∃ cap, q.runs = Mem.Runs.new cap) ∧ q.clock = 0 ∧ q.flushing = .idle ∧ q.jobs = []

theorem reopen_keeps (ext : R → Option K) (x : Exec K R) (t cap : Nat) (d : Db K R) :
    (Lsm.step ext x t d (.reopen cap)).1 = true ∧ (Lsm.step ext x t d (.reopen cap)).2.kv = d.kv ∧
    (Lsm.step ext x t d (.reopen cap)).2.files = d.files ∧ (Lsm.step ext x t d (.reopen cap)).2.gc = d.gc := by
  unfold Lsm.step Lsm.reopen
  cases allocator d.kv t <;> exact ⟨rfl, rfl, rfl, rfl⟩

theorem reopen_blank (ext : R → Option K) (x : Exec K R) (t cap : Nat) (s : Fleet K R) (p : Nat) (h : Blank (s.procs p)) :
    Blank ((Fleet.step ext x t s (p, .enter cap)).2.procs p) := by
  unfold Fleet.step Fleet.Fleet.set
  simp only [Act.op, Act.clock, if_true, Lsm.step, Lsm.reopen]
  cases allocator (s.db p).kv t with
  | error e => exact ⟨h.1, rfl, h.2.2⟩
  | ok k => exact ⟨⟨cap, rfl⟩, rfl, rfl, rfl⟩

theorem db_set (s : Fleet K R) (p c : Nat) (d : Db K R) : (s.set p c d).db p = d := by
  unfold Fleet.Fleet.set Fleet.Fleet.db
  simp

theorem clock_set (s : Fleet K R) (p c : Nat) (d : Db K R) : ((s.set p c d).procs p).clock = c := by
  unfold Fleet.Fleet.set
  simp

theorem timed_cons (c : Nat) (a : Act K R) (l : List (Act K R)) : timed c (a :: l) = a.op c :: timed (a.clock c) l := by
  cases a <;> rfl

theorem onlyReads_cons {p : Nat} {o : Nat × Act K R} {os : List (Nat × Act K R)} (h : OnlyReads p (o :: os)) :
    OnlyReads p os := fun q hq => h q (List.mem_cons_of_mem _ hq)

/-- The writer does not notice the readers. -/
theorem writer_alone (ext : R → Option K) (x : Exec K R) (t w : Nat) : ∀ (ops : List (Nat × Act K R)) (s : Fleet K R),
    OneWriter w ops → (Fleet.run ext x t s ops).1 = (Lsm.run ext x t (s.db w) (timed (s.procs w).clock (doneBy w ops))).1 ∧
      (Fleet.run ext x t s ops).2.db w = (Lsm.run ext x t (s.db w) (timed (s.procs w).clock (doneBy w ops))).2
  | [], _, _ => ⟨rfl, rfl⟩
  | (p, a) :: os, s, h => by
    obtain ⟨h1, h2⟩ := writer_alone ext x t w os (Fleet.step ext x t s (p, a)).2 (fun q hq => onlyReads_cons (h q hq))
    unfold Fleet.run
    simp only
    rw [h1, h2]
    by_cases hp : p = w
    · subst hp
      have e : doneBy p ((p, a) :: os) = a :: doneBy p os := by simp [doneBy]
      rw [e, timed_cons]
      unfold Fleet.step
      simp only
      rw [db_set, clock_set]
      exact ⟨rfl, rfl⟩
    · have e : doneBy w ((p, a) :: os) = doneBy w os := by simp [doneBy, hp]
      rw [e]
      obtain ⟨cap, rfl⟩ := h p hp (p, a) List.mem_cons_self rfl
      obtain ⟨k1, k2, k3, k4⟩ := reopen_keeps ext x t cap (s.db p)
      have hw : (Fleet.step ext x t s (p, .enter cap)).2.procs w = s.procs w := by
        unfold Fleet.step Fleet.Fleet.set
        simp only
        rw [if_neg (fun h => hp h.symm)]
      have hdb : (Fleet.step ext x t s (p, .enter cap)).2.db w = s.db w := by
        unfold Fleet.Fleet.db
        rw [hw]
        unfold Fleet.step Fleet.Fleet.set
        simp only [Act.op]
        rw [k2, k3, k4]
        rfl
      have hb : (Fleet.step ext x t s (p, .enter cap)).1 = true := k1
      rw [hb, hdb, hw]
      simp

/-- The clock of a process goes by its own steps. -/
theorem clock_run (ext : R → Option K) (x : Exec K R) (t p : Nat) : ∀ (ops : List (Nat × Act K R)) (s : Fleet K R),
    ((Fleet.run ext x t s ops).2.procs p).clock = (doneBy p ops).foldl (fun c a => a.clock c) (s.procs p).clock
  | [], _ => rfl
  | (q, a) :: os, s => by
    unfold Fleet.run
    simp only
    rw [clock_run ext x t p os]
    by_cases hq : q = p
    · subst hq
      have e : doneBy q ((q, a) :: os) = a :: doneBy q os := by simp [doneBy]
      rw [e, List.foldl_cons]
      unfold Fleet.step
      simp only
      rw [clock_set]
    · have e : doneBy p ((q, a) :: os) = doneBy p os := by simp [doneBy, hq]
      have : (Fleet.step ext x t s (q, a)).2.procs p = s.procs p := by
        unfold Fleet.step Fleet.Fleet.set
        simp only
        rw [if_neg (fun h => hq h.symm)]
      rw [e, this]

/-- A reader has nothing but what the store has. -/
theorem reader_blank (ext : R → Option K) (x : Exec K R) (t p : Nat) : ∀ (ops : List (Nat × Act K R)) (s : Fleet K R),
    OnlyReads p ops → Blank (s.procs p) → Blank ((Fleet.run ext x t s ops).2.procs p)
  | [], _, _, hb => hb
  | (q, a) :: os, s, h, hb => by
    unfold Fleet.run
    simp only
    refine reader_blank ext x t p os _ (onlyReads_cons h) ?_
    by_cases hq : q = p
    · subst hq
      obtain ⟨cap, rfl⟩ := h (q, a) List.mem_cons_self rfl
      exact reopen_blank ext x t cap s q hb
    · have : (Fleet.step ext x t s (q, a)).2.procs p = s.procs p := by
        unfold Fleet.step Fleet.Fleet.set
        simp only
        rw [if_neg (fun h => hq h.symm)]
      rw [this]
      exact hb

theorem scan_congr (t rts : Nat) {d e : Db K R} (h1 : d.runs = e.runs) (h2 : d.kv = e.kv) (h3 : d.files = e.files) :
    scanAll t d rts = scanAll t e rts := by
  obtain ⟨a1, a2, a3, a4, a5, a6, a7⟩ := d
  obtain ⟨b1, b2, b3, b4, b5, b6, b7⟩ := e
  simp only at h1 h2 h3
  subst h1
  subst h2
  subst h3
  rfl

/-- A reader's scan is a scan of the writer's store with empty memory. -/
theorem reader_scan (t rts : Nat) (s : Fleet K R) (p w : Nat) (h : Blank (s.procs p)) :
    ∃ cap, readAt t s p rts = scanAll t { s.db w with runs := Mem.Runs.new cap, flushing := .idle, jobs := [] } rts := by
  obtain ⟨cap, h1⟩ := h.1
  exact ⟨cap, scan_congr t rts h1 rfl rfl⟩

/-! ## Timestamps of one life -/

theorem stepWrites_ts (ext : R → Option K) (c : Nat) (a : Act K R) :
    (∀ v ∈ stepWrites ext (a.op c), v.ts = c ∧ a.clock c = c + 1) ∧ Functional (· ∈ stepWrites ext (a.op c)) := by
  cases a with
  | put rows =>
    refine ⟨fun v hv => ⟨?_, rfl⟩, lastOnly_functional _⟩
    have hv := lastOnly_mem hv
    simp only [opWrites, putWrites, List.filterMap_map, List.mem_filterMap, Function.comp_apply, Option.map_eq_some_iff] at hv
    obtain ⟨r, _, k, _, rfl⟩ := hv
    rfl
  | del keys =>
    refine ⟨fun v hv => ⟨?_, rfl⟩, lastOnly_functional _⟩
    have hv := lastOnly_mem hv
    simp only [opWrites, delWrites, List.map_map, List.mem_map, Function.comp_apply] at hv
    obtain ⟨r, _, rfl⟩ := hv
    rfl
  | freeze => exact ⟨fun v hv => absurd hv (by simp [Act.op, stepWrites, batchWrites, opWrites, lastOnly]),
      fun v _ hv => absurd hv (by simp [Act.op, stepWrites, batchWrites, opWrites, lastOnly])⟩
  | _ => exact ⟨fun v hv => absurd hv (by simp [Act.op, stepWrites]), fun v _ hv => absurd hv (by simp [Act.op, stepWrites])⟩

/-- In one life no two writes disagree. -/
theorem one_life_functional (ext : R → Option K) : ∀ (l : List (Act K R)) (c : Nat), (∀ cap, Act.enter cap ∉ l) →
    (∀ v ∈ logOf ext (timed c l), c ≤ v.ts) ∧ Functional (· ∈ logOf ext (timed c l))
  | [], _, _ => ⟨by simp [timed, logOf], fun _ _ h => absurd h (by simp [timed, logOf])⟩
  | a :: l, c, h => by
    obtain ⟨h1, h2⟩ := one_life_functional ext l (a.clock c) (fun cap hc => h cap (List.mem_cons_of_mem _ hc))
    obtain ⟨g1, g2⟩ := stepWrites_ts ext c a
    have hle : c ≤ a.clock c := by
      cases a with
      | enter cap => exact absurd List.mem_cons_self (h cap)
      | put _ => exact Nat.le_succ _
      | del _ => exact Nat.le_succ _
      | _ => exact Nat.le_refl _
    rw [timed_cons, logOf_cons]
    refine ⟨fun v hv => ?_, fun u v hu hv hk ht => ?_⟩
    · rcases List.mem_append.1 hv with hv | hv
      · exact (g1 v hv).1 ▸ Nat.le_refl _
      · exact Nat.le_trans hle (h1 v hv)
    · rcases List.mem_append.1 hu with hu | hu <;> rcases List.mem_append.1 hv with hv | hv
      · exact g2 u v hu hv hk ht
      · obtain ⟨e1, e2⟩ := g1 u hu
        have := h1 v hv
        omega
      · obtain ⟨e1, e2⟩ := g1 v hv
        have := h1 u hu
        omega
      · exact h2 u v hu hv hk ht

/-- One life: one session. -/
theorem sessions_one (ext : R → Option K) : ∀ (l : List (Act K R)) (c : Nat) (sofar : List (Ver K R)),
    (∀ cap, Act.enter cap ∉ l) → sessionsFrom ext sofar (timed c l) = [sofar ++ logOf ext (timed c l)]
  | [], _, sofar, _ => by simp [timed, sessionsFrom, logOf]
  | a :: l, c, sofar, h => by
    have hr : isReopen (a.op c) = false := by
      cases a with
      | enter cap => exact absurd List.mem_cons_self (h cap)
      | _ => rfl
    rw [timed_cons, sessionsFrom_cons ext _ _ _ hr,
      sessions_one ext l _ _ (fun cap hc => h cap (List.mem_cons_of_mem _ hc)), logOf_cons, List.append_assoc]

theorem doneBy_mem {p : Nat} {ops : List (Nat × Act K R)} {a : Act K R} : a ∈ doneBy p ops ↔ (p, a) ∈ ops := by
  unfold doneBy
  rw [List.mem_map]
  constructor
  · rintro ⟨⟨q, b⟩, h, rfl⟩
    rw [List.mem_filter] at h
    have : q = p := by simpa using h.2
    subst this
    exact h.1
  · intro h
    exact ⟨(p, a), List.mem_filter.2 ⟨h, by simp⟩, rfl⟩

end Tonbo.Lemmas.Fleet
