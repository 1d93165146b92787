import Verif.Spec.CachedView
import Verif.Lemmas.Cache
import Verif.Lemmas.Fleet
import Mathlib.Tactic.ByContra

/-!
# Caches over a changing store
-/

set_option linter.unusedSectionVars false

namespace Tonbo.Lemmas.Cached
open Tonbo.Model Tonbo.Model.Planner Tonbo.Model.Lsm Tonbo.Model.Fleet Tonbo.Model.Cached Tonbo.Spec
open Tonbo.Lemmas.Lsm Tonbo.Lemmas.Cache Tonbo.Lemmas.Fleet

variable {K R X V : Type} [LinearOrder K] [DecidableEq X]

/-- A version lists the table. -/
def Known (t : Nat) (s : Fleet K R) (p : Path) : Prop := ∃ l e, Lst s.kv t l e ∧ p = ⟨l, e.id⟩

open Classical in
/-- The store without what no version lists. -/
noncomputable def listedOnly (t : Nat) (part : X → Sst.File K R → Option V) (s : Fleet K R) (k : Path × X) : Option V :=
  if Known t s k.1 then stored part s k else none

/-- The key of a task. -/
def slotKey : Model.Cache.Slot (Path × X) V → Path × X
  | .loading k => k
  | .done k _ => k

/-- Everything in the cache of a process, and everything its tasks were told, is what the store has now. -/
structure Right (t max : Nat) (part : X → Sst.File K R → Option V) (s : Fleet K R) (c : Model.Cache.St (Path × X) V) : Prop where
  inv : TaskInv (listedOnly t part s) c max
  known : ∀ i a, c.tasks i = some a → Known t s (slotKey a).1

theorem right_empty (t max : Nat) (part : X → Sst.File K R → Option V) (s : Fleet K R) :
    Right t max part s (empty max : Model.Cache.St (Path × X) V) :=
  ⟨⟨ok_new max, rfl, fun k v h => (by cases h), fun t k r h => (by cases h)⟩, fun _ _ h => (by cases h)⟩

theorem Right.keep {t max : Nat} {part : X → Sst.File K R → Option V} {s s' : Fleet K R} {c : Model.Cache.St (Path × X) V}
    (h : Right t max part s c) (hk : ∀ p, Known t s p → Known t s' p ∧ s'.files p = s.files p) : Right t max part s' c := by
  have key : ∀ k : Path × X, Known t s k.1 → listedOnly t part s' k = listedOnly t part s k := by
    intro k hk'
    obtain ⟨h1, h2⟩ := hk _ hk'
    unfold listedOnly stored
    rw [if_pos h1, if_pos hk', h2]
  refine ⟨⟨h.inv.ok, h.inv.max, fun k v hv => ?_, fun i k r hr => ?_⟩, fun i a ha => (hk _ (h.known i a ha)).1⟩
  · have hv' := h.inv.cached k v hv
    have : Known t s k.1 := by
      by_contra hn
      unfold listedOnly at hv'
      rw [if_neg hn] at hv'
      cases hv'
    rw [key k this]
    exact hv'
  · rw [key k (h.known i _ hr)]
    exact h.inv.tasks i k r hr

theorem Right.start {t max : Nat} {part : X → Sst.File K R → Option V} {s : Fleet K R} {c : Model.Cache.St (Path × X) V}
    (h : Right t max part s c) (i : Nat) (k : Path × X) (hk : Known t s k.1) :
    ∃ c', Model.Cache.step (stored part s) c (.start i k) = some c' ∧ Right t max part s c' := by
  obtain ⟨c', h1, h2⟩ := step_inv h.inv (.start i k)
  refine ⟨c', h1, h2, ?_⟩
  intro j a ha
  simp only [Model.Cache.step] at h1
  split at h1 <;> obtain rfl := Option.some.inj h1 <;>
  · by_cases hj : j = i
    · subst hj
      simp only [Function.update_self] at ha
      obtain rfl := Option.some.inj ha
      exact hk
    · simp only [Function.update_of_ne hj] at ha
      exact h.known j a ha

theorem Right.finish {t max : Nat} {part : X → Sst.File K R → Option V} {s : Fleet K R} {c : Model.Cache.St (Path × X) V}
    (h : Right t max part s c) (i : Nat) :
    ∃ c', Model.Cache.step (stored part s) c (.finish i) = some c' ∧ Right t max part s c' := by
  have same : Model.Cache.step (stored part s) c (.finish i) = Model.Cache.step (listedOnly t part s) c (.finish i) := by
    simp only [Model.Cache.step]
    cases hi : c.tasks i with
    | none => rfl
    | some a =>
      cases a with
      | done k r => rfl
      | loading k =>
        have : listedOnly t part s k = stored part s k := if_pos (h.known i _ hi)
        simp only [this]
  obtain ⟨c', h1, h2⟩ := step_inv h.inv (.finish i)
  refine ⟨c', by rw [same]; exact h1, h2, ?_⟩
  intro j a ha
  simp only [Model.Cache.step] at h1
  split at h1
  · rename_i k hk
    have hkn : Known t s k.1 := h.known i _ hk
    split at h1
    · obtain rfl := Option.some.inj h1
      by_cases hj : j = i
      · subst hj
        simp only [Function.update_self] at ha
        obtain rfl := Option.some.inj ha
        exact hkn
      · simp only [Function.update_of_ne hj] at ha
        exact h.known j a ha
    · split at h1
      · cases h1
      · obtain rfl := Option.some.inj h1
        by_cases hj : j = i
        · subst hj
          simp only [Function.update_self] at ha
          obtain rfl := Option.some.inj ha
          exact hkn
        · simp only [Function.update_of_ne hj] at ha
          exact h.known j a ha
  · obtain rfl := Option.some.inj h1
    exact h.known j a ha

/-- A step of the one writer, or the opening of a reader, leaves what versions list as it is. -/
theorem fleet_keeps {ext : R → Option K} {x : Exec K R} (hn : 0 < x.readRows) {t w n : Nat} {s : Fleet K R}
    (hi : Inv ext x t n (s.db w)) (p : Nat) (a : Act K R) (h : p ≠ w → ∃ cap, a = .enter cap) :
    (∃ n', Inv ext x t n' ((Fleet.step ext x t s (p, a)).2.db w)) ∧
      ∀ q, Known t s q → Known t (Fleet.step ext x t s (p, a)).2 q ∧ (Fleet.step ext x t s (p, a)).2.files q = s.files q := by
  by_cases hp : p = w
  · subst hp
    obtain ⟨n', h1, h2⟩ := keeps_step hi hn (a.op (s.procs p).clock)
    refine ⟨⟨n', ?_⟩, ?_⟩
    · unfold Fleet.step
      simp only
      rw [db_set]
      exact h1
    · rintro q ⟨l, e, ⟨k, v, hv, he⟩, rfl⟩
      exact ⟨⟨l, e, ⟨k, v, h2.versions k v hv, he⟩, rfl⟩, h2.files l e ⟨k, v, hv, he⟩⟩
  · obtain ⟨cap, rfl⟩ := h hp
    obtain ⟨k1, k2, k3, k4⟩ := reopen_keeps ext x t cap (s.db p)
    have ekv : (Fleet.step ext x t s (p, .enter cap)).2.kv = s.kv := k2
    have ef : (Fleet.step ext x t s (p, .enter cap)).2.files = s.files := k3
    have hdb : (Fleet.step ext x t s (p, .enter cap)).2.db w = s.db w := by
      have hw : (Fleet.step ext x t s (p, .enter cap)).2.procs w = s.procs w := by
        unfold Fleet.step Fleet.Fleet.set
        simp only
        rw [if_neg (fun h => hp h.symm)]
      unfold Fleet.Fleet.db
      rw [hw, ekv, ef, show (Fleet.step ext x t s (p, .enter cap)).2.gc = s.gc from k4]
    refine ⟨⟨n, by rw [hdb]; exact hi⟩, ?_⟩
    rintro q ⟨l, e, h, rfl⟩
    exact ⟨⟨l, e, by rw [ekv]; exact h, rfl⟩, by rw [ef]⟩

theorem run_right {ext : R → Option K} {x : Exec K R} (hn : 0 < x.readRows) {t max w : Nat} {part : X → Sst.File K R → Option V} :
    ∀ (ops : List (Cached.Op K R X)) (s : Sys K R X V) (n : Nat), Inv ext x t n (s.fleet.db w) →
      (∀ p, Right t max part s.fleet (s.caches p)) → OneWriter w (acts ops) → AskedOfVersions ext x t max part s ops →
      ∃ s', Cached.run ext x t max part s ops = some s' ∧ (∀ p, Right t max part s'.fleet (s'.caches p)) ∧
        s'.fleet = (Fleet.run ext x t s.fleet (acts ops)).2
  | [], s, _, _, hr, _, _ => ⟨s, rfl, hr, rfl⟩
  | o :: os, s, n, hi, hr, hw, hp => by
    have next : ∀ s1, Cached.step ext x t max part s o = some s1 → AskedOfVersions ext x t max part s1 os := by
      intro s1 h1 before after p task k e s' hs'
      refine hp (o :: before) after p task k (by rw [e]; rfl) s' ?_
      unfold Cached.run
      rw [h1]
      exact hs'
    cases o with
    | act p a =>
      have ha : p ≠ w → ∃ cap, a = .enter cap := fun hpw => hw p hpw (p, a) List.mem_cons_self rfl
      obtain ⟨⟨n', hi'⟩, hk⟩ := fleet_keeps hn hi p a ha
      obtain ⟨s', h1, h2, h3⟩ := run_right hn os
        ⟨(Fleet.step ext x t s.fleet (p, a)).2, Function.update s.caches p (kept max (s.caches p) a)⟩ n' hi'
        (fun q => by
          by_cases hq : q = p
          · subst hq
            simp only [Function.update_self]
            cases a with
            | enter cap => exact right_empty t max part _
            | _ => exact (hr q).keep hk
          · simp only [Function.update_of_ne hq]
            exact (hr q).keep hk)
        (fun q hq => onlyReads_cons (hw q hq)) (next _ rfl)
      exact ⟨s', h1, h2, h3⟩
    | ask p i k =>
      obtain ⟨l, e, he, hke⟩ := hp [] os p i k rfl s rfl
      have he' : Lst s.fleet.kv t l e := everListed_iff.1 he
      obtain ⟨a, _⟩ := hi.ent l e he'
      obtain ⟨c', h1, h2⟩ := (hr p).start i k ⟨l, e, he', by rw [hke, a]⟩
      have hs : Cached.step ext x t max part s (.ask p i k) = some ⟨s.fleet, Function.update s.caches p c'⟩ := by
        simp only [Cached.step, h1, Option.map_some]
      obtain ⟨s', h3, h4, h5⟩ := run_right hn os ⟨s.fleet, Function.update s.caches p c'⟩ n hi
        (fun q => by
          by_cases hq : q = p
          · subst hq; simp only [Function.update_self]; exact h2
          · simp only [Function.update_of_ne hq]; exact hr q)
        hw (next _ hs)
      exact ⟨s', by unfold Cached.run; rw [hs]; exact h3, h4, h5⟩
    | load p i =>
      obtain ⟨c', h1, h2⟩ := (hr p).finish i
      have hs : Cached.step ext x t max part s (.load p i) = some ⟨s.fleet, Function.update s.caches p c'⟩ := by
        simp only [Cached.step, h1, Option.map_some]
      obtain ⟨s', h3, h4, h5⟩ := run_right hn os ⟨s.fleet, Function.update s.caches p c'⟩ n hi
        (fun q => by
          by_cases hq : q = p
          · subst hq; simp only [Function.update_self]; exact h2
          · simp only [Function.update_of_ne hq]; exact hr q)
        hw (next _ hs)
      exact ⟨s', by unfold Cached.run; rw [hs]; exact h3, h4, h5⟩

end Tonbo.Lemmas.Cached
