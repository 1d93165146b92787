import Verif.Lemmas.TxnLock
import Verif.Lemmas.LsmContent
import Verif.Lemmas.Conflict

/-!
# Timestamps, writes and memory over all interleavings of threads
-/

set_option linter.unusedSectionVars false

namespace Tonbo.Lemmas.Txn
open Tonbo.Model Tonbo.Model.Txn Tonbo.Model.Lsm Tonbo.Spec
open Tonbo.Lemmas.Mem (lastOnly_mem mem_lastOnly_functional lastOnly_functional)
open Tonbo.Lemmas.Lsm (stepWrites logOf_cons isFinish isReopen)

variable {K R : Type} [LinearOrder K]

/-! ## What a write looks like -/

/-- Writes come from a transaction or from an ingest. -/
structure WorkOk (e : Env K R) (I : List R → Prop) (w : Work K R) : Prop where
  held : ∀ k, k ∈ w.held ↔ w.snap.isSome = true ∧ Writes e.ext w k
  txn : w.snap.isSome = true → Functional (· ∈ writesOf e.ext w)
  batch : w.snap = none → ∃ rows, I rows ∧ w = ingestOf rows w.ts

theorem writesOf_ts {ext : R → Option K} {w : Work K R} {v : Ver K R} (h : v ∈ writesOf ext w) : v.ts = w.ts := by
  unfold writesOf upsOf delsOf batchWrites at h
  rcases List.mem_append.1 h with h | h
  · have h := lastOnly_mem h
    unfold opWrites putWrites at h
    obtain ⟨p, hp, hv⟩ := List.mem_filterMap.1 h
    obtain ⟨r, _, rfl⟩ := List.mem_map.1 hp
    obtain ⟨k, _, rfl⟩ := Option.map_eq_some_iff.1 hv
    rfl
  · have h := lastOnly_mem h
    unfold delWrites at h
    simp only [List.map_map, List.mem_map] at h
    obtain ⟨k, _, rfl⟩ := h
    rfl

theorem payload_getD {α : Type} (l : List α) : (payload l).getD [] = l := by
  unfold payload
  split
  · rename_i h; simp [h]
  · rfl

theorem sorted_unique {α β : Type} [LinearOrder α] {l : List (α × β)} (h : SMap.Sorted l) {k : α} {a b : β}
    (ha : (k, a) ∈ l) (hb : (k, b) ∈ l) : a = b := by
  induction l with
  | nil => cases ha
  | cons x l ih =>
    have hx : ∀ y ∈ l, x.1 < y.1 := fun y hy => List.rel_of_pairwise_cons h hy
    rcases List.mem_cons.1 ha with ha | ha <;> rcases List.mem_cons.1 hb with hb | hb
    · rw [← ha] at hb; exact (Prod.mk.inj hb).2.symm
    · have := hx _ hb; rw [← ha] at this; exact absurd this (lt_irrefl _)
    · have := hx _ ha; rw [← hb] at this; exact absurd this (lt_irrefl _)
    · exact ih (List.Pairwise.of_cons h) ha hb

/-- The writes of a transaction are its staged entries. -/
theorem mem_workOf_raw {e : Env K R} {t : Txn K R} (h : TxnOk e t) (ts : Nat) (v : Ver K R) :
    v ∈ putWrites e.ext ((stagedRows t.staged).map (fun r => (r, ts))) ++ delWrites ((stagedDels t.staged).map (fun k => (k, ts))) ↔ v.ts = ts ∧
      ((∃ r, (v.key, Stage.up r) ∈ t.staged ∧ v.op = .put r) ∨ ((v.key, Stage.del) ∈ t.staged ∧ v.op = .del)) := by
  unfold putWrites delWrites stagedRows stagedDels
  simp only [List.mem_append, List.mem_filterMap, List.mem_map]
  constructor
  · rintro (⟨p, ⟨r, ⟨⟨k, st⟩, hm, hst⟩, rfl⟩, hv⟩ | ⟨p, ⟨k, ⟨⟨k', st⟩, hm, hst⟩, rfl⟩, hv⟩)
    · cases st with
      | del => cases hst
      | up r' =>
        obtain rfl : r' = r := Option.some.inj hst
        obtain ⟨k', hk', rfl⟩ := Option.map_eq_some_iff.1 hv
        have := h.keyed k r' hm
        rw [this] at hk'
        cases hk'
        exact ⟨rfl, .inl ⟨r', hm, rfl⟩⟩
    · cases st with
      | up r => cases hst
      | del =>
        cases hst
        subst hv
        exact ⟨rfl, .inr ⟨hm, rfl⟩⟩
  · obtain ⟨k, t', op⟩ := v
    rintro ⟨rfl, ⟨r, hm, rfl⟩ | ⟨hm, rfl⟩⟩
    · exact .inl ⟨(r, t'), ⟨r, ⟨(k, .up r), hm, rfl⟩, rfl⟩, by simp [h.keyed k r hm]⟩
    · exact .inr ⟨(k, t'), ⟨k, ⟨(k, .del), hm, rfl⟩, rfl⟩, rfl⟩

/-- The writes of a transaction are its staged entries. -/
theorem mem_workOf {e : Env K R} {t : Txn K R} (h : TxnOk e t) (ts : Nat) (v : Ver K R) :
    v ∈ writesOf e.ext (workOf t ts) ↔ v.ts = ts ∧
      ((∃ r, (v.key, Stage.up r) ∈ t.staged ∧ v.op = .put r) ∨ ((v.key, Stage.del) ∈ t.staged ∧ v.op = .del)) := by
  have fn : Functional (· ∈ putWrites e.ext ((stagedRows t.staged).map (fun r => (r, ts))) ++
      delWrites ((stagedDels t.staged).map (fun k => (k, ts)))) := by
    intro a b ha hb hk _
    rcases ((mem_workOf_raw h ts a).1 ha).2 with ⟨r, hm, ho⟩ | ⟨hm, ho⟩ <;>
      rcases ((mem_workOf_raw h ts b).1 hb).2 with ⟨r', hm', ho'⟩ | ⟨hm', ho'⟩ <;>
      rw [hk] at hm <;> have := sorted_unique h.sorted hm hm' <;> rw [ho, ho']
    · cases this; rfl
    · cases this
    · cases this
  rw [← mem_workOf_raw h ts v]
  unfold writesOf upsOf delsOf workOf batchWrites opWrites
  simp only [payload_getD]
  rw [List.mem_append, List.mem_append, mem_lastOnly_functional, mem_lastOnly_functional]
  · exact fun a b ha hb => fn a b (List.mem_append_right _ ha) (List.mem_append_right _ hb)
  · exact fun a b ha hb => fn a b (List.mem_append_left _ ha) (List.mem_append_left _ hb)

theorem workOk_txn {e : Env K R} {I : List R → Prop} {t : Txn K R} (h : TxnOk e t) (ts : Nat) :
    WorkOk e I (workOf t ts) where
  held k := by
    refine ⟨fun hk => ⟨rfl, ?_⟩, ?_⟩
    · obtain ⟨⟨k', st⟩, hm, rfl⟩ := List.mem_map.1 (show k ∈ t.keys from hk)
      cases st with
      | up r => exact ⟨⟨k', ts, .put r⟩, (mem_workOf h ts _).2 ⟨rfl, .inl ⟨r, hm, rfl⟩⟩, rfl⟩
      | del => exact ⟨⟨k', ts, .del⟩, (mem_workOf h ts _).2 ⟨rfl, .inr ⟨hm, rfl⟩⟩, rfl⟩
    · rintro ⟨_, v, hv, rfl⟩
      show v.key ∈ t.keys
      rcases ((mem_workOf h ts v).1 hv).2 with ⟨r, hm, _⟩ | ⟨hm, _⟩
      · exact List.mem_map.2 ⟨_, hm, rfl⟩
      · exact List.mem_map.2 ⟨_, hm, rfl⟩
  txn _ := by
    intro a b ha hb hk _
    rcases ((mem_workOf h ts a).1 ha).2 with ⟨r, hm, ho⟩ | ⟨hm, ho⟩ <;>
      rcases ((mem_workOf h ts b).1 hb).2 with ⟨r', hm', ho'⟩ | ⟨hm', ho'⟩ <;>
      rw [hk] at hm <;> have := sorted_unique h.sorted hm hm' <;> rw [ho, ho']
    · cases this; rfl
    · cases this
    · cases this
  batch := by intro hc; cases hc

theorem workOk_ingest {e : Env K R} {I : List R → Prop} {rows : List R} (h : I rows) (ts : Nat) :
    WorkOk e I (ingestOf rows ts) where
  held k := by simp [ingestOf]
  txn hc := by cases hc
  batch _ := ⟨rows, h, rfl⟩

/-! ## The four effects on timestamps -/

inductive Eff (e : Env K R) (Q : Sys K R → Txn.Op K R → Prop) (s s' : Sys K R) : Prop where
  | same (hc : s.clock = s'.clock) (hd : s'.done = s.done) (hf : ∀ i, inFlight (s'.procs i) = inFlight (s.procs i))
  | stamp (p : Nat) (w : Work K R) (hc : s'.clock = s.clock + 1) (hd : s'.done = s.done) (hw : w.ts = s.clock)
      (h0 : inFlight (s.procs p) = none) (h1 : inFlight (s'.procs p) = some w)
      (hf : ∀ i, i ≠ p → inFlight (s'.procs i) = inFlight (s.procs i))
      (hk : (∃ t, s.procs p = .checking t [] ∧ w = workOf t s.clock) ∨
        ∃ rows, Q s (.ingest p rows) ∧ w = ingestOf rows s.clock)
  | lost (p : Nat) (w : Work K R) (hc : s'.clock = s.clock) (hd : s'.done = s.done)
      (h0 : inFlight (s.procs p) = some w) (h1 : inFlight (s'.procs p) = none)
      (hf : ∀ i, i ≠ p → inFlight (s'.procs i) = inFlight (s.procs i)) (hok : s'.ok = false)
  | finish (p : Nat) (w : Work K R) (hc : s'.clock = s.clock) (hd : s'.done = s.done ++ [w])
      (h0 : inFlight (s.procs p) = some w) (h1 : inFlight (s'.procs p) = none)
      (hf : ∀ i, i ≠ p → inFlight (s'.procs i) = inFlight (s.procs i))
      (hp : s'.procs = (setProc s p .idle).procs)

theorem fly_set {s s' : Sys K R} {p : Nat} {q : Proc K R} (hs : s'.procs = (setProc s p q).procs)
    (hq : inFlight q = inFlight (s.procs p)) (i : Nat) : inFlight (s'.procs i) = inFlight (s.procs i) := by
  rw [hs]
  by_cases hi : i = p
  · rw [hi, setProc_same, hq]
  · rw [setProc_other s hi]

theorem fly_other {s s' : Sys K R} {p : Nat} {q : Proc K R} (hs : s'.procs = (setProc s p q).procs) (i : Nat)
    (hi : i ≠ p) : inFlight (s'.procs i) = inFlight (s.procs i) := by
  rw [hs, setProc_other s hi]

theorem tr_eff {e : Env K R} {Q : Sys K R → Txn.Op K R → Prop} {s s' : Sys K R} (ht : Tr e Q s s') : Eff e Q s s' := by
  cases ht with
  | stay => exact .same rfl rfl (fun _ => rfl)
  | bg o hb hq => exact .same rfl rfl (fun _ => rfl)
  | read p hd v hp hv hq => exact .same rfl rfl (fly_set rfl (by rw [hp]; rfl))
  | «open» p v hp hq => exact .same rfl rfl (fly_set rfl (by rw [hp]; rfl))
  | stageUp p t r k hp hk => exact .same rfl rfl (fly_set rfl (by rw [hp]; rfl))
  | stageDel p t k hp => exact .same rfl rfl (fly_set rfl (by rw [hp]; rfl))
  | quit p t hp => exact .same rfl rfl (fly_set rfl (by rw [hp]; rfl))
  | call p t hp hne => exact .same rfl rfl (fly_set rfl (by rw [hp]; rfl))
  | ingest p rows hp hq =>
    exact .stamp p (ingestOf rows s.clock) rfl rfl rfl (by rw [hp]; rfl) (by simp [inFlight]) (fly_other rfl)
      (.inr ⟨rows, hq, rfl⟩)
  | locked p t hp => exact .same rfl rfl (fly_set rfl (by rw [hp]; rfl))
  | lock p t k ks hp hl => exact .same rfl rfl (fly_set (s := s) (p := p) (q := .locking t ks) rfl (by rw [hp]; rfl))
  | clash p t k ks hp hc => exact .same rfl rfl (fly_set (s := s) (p := p) (q := .idle) rfl (by rw [hp]; rfl))
  | clear p t k ks hp hc => exact .same rfl rfl (fly_set rfl (by rw [hp]; rfl))
  | stamp p t hp =>
    exact .stamp p (workOf t s.clock) rfl rfl rfl (by rw [hp]; rfl) (by simp [inFlight]) (fly_other rfl)
      (.inl ⟨t, hp, rfl⟩)
  | ident p w hp hw => exact .same rfl rfl (fly_set (s := s) (p := p) (q := .logging w _) rfl (by rw [hp]; rfl))
  | nowal p w hp hw => exact .same rfl rfl (fly_set rfl (by rw [hp]; rfl))
  | logged p w hp => exact .same rfl rfl (fly_set rfl (by rw [hp]; rfl))
  | log p w r rs hp => exact .same rfl rfl (fly_set (s := s) (p := p) (q := .logging w rs) rfl (by rw [hp]; rfl))
  | upNone p w hp hu => exact .same rfl rfl (fly_set rfl (by rw [hp]; rfl))
  | up p w rows hp hu hok => exact .same rfl rfl (fly_set (s := s) (p := p) (q := .deletes w) rfl (by rw [hp]; rfl))
  | fail p w op hp hok =>
    refine .lost p w rfl rfl ?_ (by simp [inFlight]) (fly_other (s := s) (p := p) (q := .idle) rfl) rfl
    rcases hp with hp | hp <;> rw [hp] <;> rfl
  | delNone p w hp hd =>
    exact .finish p w rfl rfl (by rw [hp]; rfl) (by simp [inFlight, finishWork]) (fly_other (s := s) (p := p) (q := .idle) rfl) rfl
  | del p w keys hp hd hok =>
    exact .finish p w rfl rfl (by rw [hp]; rfl) (by simp [inFlight, finishWork]) (fly_other (s := s) (p := p) (q := .idle) rfl) rfl

/-- Timestamps are handed out once. -/
structure StampInv (e : Env K R) (I : List R → Prop) (s : Sys K R) : Prop where
  fly : ∀ p w, inFlight (s.procs p) = some w → w.ts < s.clock ∧ WorkOk e I w
  done : ∀ w ∈ s.done, w.ts < s.clock ∧ WorkOk e I w
  flyfly : ∀ p q w w', inFlight (s.procs p) = some w → inFlight (s.procs q) = some w' → w.ts = w'.ts → p = q
  flydone : ∀ p w w', inFlight (s.procs p) = some w → w' ∈ s.done → w.ts ≠ w'.ts
  nodup : s.done.Pairwise (fun a b => a.ts ≠ b.ts)

theorem stampInv_tr {e : Env K R} {Q : Sys K R → Txn.Op K R → Prop} {I : List R → Prop}
    (hI : ∀ s p rows, Q s (.ingest p rows) → I rows) {s s' : Sys K R} (hl : LockInv e s)
    (h : StampInv e I s) (ht : Tr e Q s s') : StampInv e I s' := by
  cases tr_eff ht with
  | same hc hd hf =>
    refine ⟨?_, ?_, ?_, ?_, ?_⟩ <;> simp only [hf, hd, ← hc]
    · exact h.fly
    · exact h.done
    · exact h.flyfly
    · exact h.flydone
    · exact h.nodup
  | stamp p w hc hd hw h0 h1 hf hk =>
    have hwok : WorkOk e I w := by
      rcases hk with ⟨t, hp, rfl⟩ | ⟨rows, hq, rfl⟩
      · have := hl.procs p
        rw [hp] at this
        exact workOk_txn this.1 _
      · exact workOk_ingest (hI s p rows hq) _
    have key : ∀ i w', inFlight (s'.procs i) = some w' → (i = p ∧ w' = w) ∨ (i ≠ p ∧ inFlight (s.procs i) = some w') := by
      intro i w' hi
      by_cases hip : i = p
      · rw [hip, h1] at hi; exact .inl ⟨hip, (Option.some.inj hi).symm⟩
      · rw [hf i hip] at hi; exact .inr ⟨hip, hi⟩
    refine ⟨?_, ?_, ?_, ?_, ?_⟩
    · intro i w' hi
      rw [hc]
      rcases key i w' hi with ⟨_, rfl⟩ | ⟨_, hi⟩
      · exact ⟨by omega, hwok⟩
      · have := h.fly i w' hi
        exact ⟨by omega, this.2⟩
    · intro w' hw'
      rw [hd] at hw'
      rw [hc]
      have := h.done w' hw'
      exact ⟨by omega, this.2⟩
    · intro i j a b hi hj hab
      rcases key i a hi with ⟨hi1, rfl⟩ | ⟨hi1, hi⟩ <;> rcases key j b hj with ⟨hj1, rfl⟩ | ⟨hj1, hj⟩
      · rw [hi1, hj1]
      · have := (h.fly j b hj).1; omega
      · have := (h.fly i a hi).1; omega
      · exact h.flyfly i j a b hi hj hab
    · intro i a b hi hb
      rw [hd] at hb
      rcases key i a hi with ⟨_, rfl⟩ | ⟨_, hi⟩
      · have := (h.done b hb).1; omega
      · exact h.flydone i a b hi hb
    · rw [hd]; exact h.nodup
  | lost p w hc hd h0 h1 hf hok =>
    have key : ∀ i w', inFlight (s'.procs i) = some w' → inFlight (s.procs i) = some w' := by
      intro i w' hi
      by_cases hip : i = p
      · rw [hip, h1] at hi; cases hi
      · rw [hf i hip] at hi; exact hi
    refine ⟨?_, ?_, ?_, ?_, ?_⟩
    · intro i w' hi; rw [hc]; exact h.fly i w' (key i w' hi)
    · rw [hd, hc]; exact h.done
    · intro i j a b hi hj hab; exact h.flyfly i j a b (key i a hi) (key j b hj) hab
    · intro i a b hi hb; rw [hd] at hb; exact h.flydone i a b (key i a hi) hb
    · rw [hd]; exact h.nodup
  | finish p w hc hd h0 h1 hf hp =>
    have key : ∀ i w', inFlight (s'.procs i) = some w' → i ≠ p ∧ inFlight (s.procs i) = some w' := by
      intro i w' hi
      by_cases hip : i = p
      · rw [hip, h1] at hi; cases hi
      · rw [hf i hip] at hi; exact ⟨hip, hi⟩
    refine ⟨?_, ?_, ?_, ?_, ?_⟩
    · intro i w' hi; rw [hc]; exact h.fly i w' (key i w' hi).2
    · intro w' hw'
      rw [hd] at hw'
      rw [hc]
      rcases List.mem_append.1 hw' with hw' | hw'
      · exact h.done w' hw'
      · rw [List.mem_singleton.1 hw']; exact h.fly p w h0
    · intro i j a b hi hj hab; exact h.flyfly i j a b (key i a hi).2 (key j b hj).2 hab
    · intro i a b hi hb
      rw [hd] at hb
      rcases List.mem_append.1 hb with hb | hb
      · exact h.flydone i a b (key i a hi).2 hb
      · rw [List.mem_singleton.1 hb]
        intro hab
        exact (key i a hi).1 (h.flyfly i p a w (key i a hi).2 h0 hab)
    · rw [hd, List.pairwise_append]
      refine ⟨h.nodup, by simp, fun a ha b hb => ?_⟩
      rw [List.mem_singleton.1 hb]
      exact fun hab => h.flydone p w a h0 ha hab.symm

theorem stampInv_new (e : Env K R) (I : List R → Prop) (cap sv : Nat) : StampInv e I (Sys.new e cap sv) := by
  refine ⟨?_, ?_, ?_, ?_, ?_⟩ <;> simp [Sys.new, inFlight]

/-! ## What a snapshot taken at a quiet moment can never see -/

/-- Nothing that is in flight, and nothing that returned after the first `b` writes, is at or below
`r`. -/
structure Beyond (s : Sys K R) (r b : Nat) : Prop where
  clock : r < s.clock
  len : b ≤ s.done.length
  fly : ∀ p w, inFlight (s.procs p) = some w → r < w.ts
  done : ∀ i w, b ≤ i → s.done[i]? = some w → r < w.ts

theorem beyond_tr {e : Env K R} {Q : Sys K R → Txn.Op K R → Prop} {s s' : Sys K R} {r b : Nat}
    (h : Beyond s r b) (ht : Tr e Q s s') : Beyond s' r b := by
  cases tr_eff ht with
  | same hc hd hf =>
    refine ⟨?_, ?_, ?_, ?_⟩ <;> simp only [hf, hd, ← hc]
    · exact h.clock
    · exact h.len
    · exact h.fly
    · exact h.done
  | stamp p w hc hd hw h0 h1 hf hk =>
    refine ⟨by have := h.clock; omega, by rw [hd]; exact h.len, ?_, by rw [hd]; exact h.done⟩
    intro i w' hi
    by_cases hip : i = p
    · rw [hip, h1] at hi
      cases hi
      have := h.clock
      omega
    · rw [hf i hip] at hi; exact h.fly i w' hi
  | lost p w hc hd h0 h1 hf hok =>
    refine ⟨by rw [hc]; exact h.clock, by rw [hd]; exact h.len, ?_, by rw [hd]; exact h.done⟩
    intro i w' hi
    by_cases hip : i = p
    · rw [hip, h1] at hi; cases hi
    · rw [hf i hip] at hi; exact h.fly i w' hi
  | finish p w hc hd h0 h1 hf hp =>
    refine ⟨by rw [hc]; exact h.clock, by rw [hd]; have := h.len; simp; omega, ?_, ?_⟩
    · intro i w' hi
      by_cases hip : i = p
      · rw [hip, h1] at hi; cases hi
      · rw [hf i hip] at hi; exact h.fly i w' hi
    · intro i w' hb hi
      rw [hd] at hi
      by_cases hl : i < s.done.length
      · rw [List.getElem?_append_left hl] at hi
        exact h.done i w' hb hi
      · rw [List.getElem?_append_right (by omega)] at hi
        have := List.mem_of_getElem? hi
        rw [List.mem_singleton.1 this]
        exact h.fly p w h0

theorem beyond_open {s : Sys K R} (hq : Quiet s) (hc : 0 < s.clock) : Beyond s (s.clock - 1) s.done.length :=
  ⟨by omega, le_refl _, fun p w hw => (by rw [hq p] at hw; cases hw), fun i w hi hw =>
    absurd (List.getElem?_eq_some_iff.1 hw).1 (by omega)⟩

/-- The transaction of a thread that has not taken its commit timestamp. -/
def txnOf : Proc K R → Option (Txn K R)
  | .opened t | .locking t _ | .checking t _ => some t
  | _ => none

/-- All snapshots in use were taken at quiet moments. -/
structure QuietInv (s : Sys K R) : Prop where
  txn : ∀ p t, txnOf (s.procs p) = some t → Beyond s t.snap.rts t.began
  fly : ∀ p w r, inFlight (s.procs p) = some w → w.snap = some r → Beyond s r w.began
  done : ∀ w r, w ∈ s.done → w.snap = some r → Beyond s r w.began

theorem txn_set {s s' : Sys K R} {p : Nat} {q : Proc K R} (hs : s'.procs = (setProc s p q).procs)
    {P : Txn K R → Prop} (h : ∀ i t, txnOf (s.procs i) = some t → P t) (hq : ∀ t, txnOf q = some t → P t) :
    ∀ i t, txnOf (s'.procs i) = some t → P t := by
  intro i t hi
  rw [hs] at hi
  by_cases hip : i = p
  · rw [hip, setProc_same] at hi; exact hq t hi
  · rw [setProc_other s hip] at hi; exact h i t hi

theorem quietInv_tr {e : Env K R} {Q : Sys K R → Txn.Op K R → Prop}
    (hQ : ∀ s p, Q s (.openTxn p) → Quiet s ∧ 0 < s.clock) {s s' : Sys K R}
    (h : QuietInv s) (ht : Tr e Q s s') : QuietInv s' := by
  have stable : ∀ {r b}, Beyond s r b → Beyond s' r b := fun hb => beyond_tr hb ht
  have htxn : ∀ p t, txnOf (s'.procs p) = some t → Beyond s' t.snap.rts t.began := by
    have h' : ∀ p t, txnOf (s.procs p) = some t → Beyond s' t.snap.rts t.began := fun p t hp => stable (h.txn p t hp)
    have old : ∀ p t, txnOf (s.procs p) = some t → ∀ t' : Txn K R, t'.snap = t.snap ∧ t'.began = t.began →
        Beyond s' t'.snap.rts t'.began := by
      rintro p t hp t' ⟨h1, h2⟩
      rw [h1, h2]; exact h' p t hp
    revert stable h' old
    cases ht with
    | stay => intro _ h' _; exact h'
    | bg o hb hq => intro _ h' _; exact h'
    | read p hd v hp hv hq => intro _ h' _; exact txn_set rfl h' (by simp [txnOf])
    | «open» p v hp hq =>
      intro stable h' _
      refine txn_set rfl h' ?_
      intro t ht
      simp only [txnOf, Option.some.injEq] at ht
      subst ht
      obtain ⟨h1, h2⟩ := hQ s p hq
      exact stable (beyond_open h1 h2)
    | stageUp p t r k hp hk =>
      intro _ h' old
      refine txn_set rfl h' ?_
      intro t' ht'
      simp only [txnOf, Option.some.injEq] at ht'
      subst ht'
      exact old p t (by rw [hp]; rfl) _ ⟨rfl, rfl⟩
    | stageDel p t k hp =>
      intro _ h' old
      refine txn_set rfl h' ?_
      intro t' ht'
      simp only [txnOf, Option.some.injEq] at ht'
      subst ht'
      exact old p t (by rw [hp]; rfl) _ ⟨rfl, rfl⟩
    | quit p t hp => intro _ h' _; exact txn_set rfl h' (by simp [txnOf])
    | call p t hp hne =>
      intro _ h' old
      refine txn_set rfl h' ?_
      intro t' ht'
      simp only [txnOf, Option.some.injEq] at ht'
      subst ht'
      exact old p t (by rw [hp]; rfl) _ ⟨rfl, rfl⟩
    | ingest p rows hp hq => intro _ h' _; exact txn_set rfl h' (by simp [txnOf])
    | locked p t hp =>
      intro _ h' old
      refine txn_set rfl h' ?_
      intro t' ht'
      simp only [txnOf, Option.some.injEq] at ht'
      subst ht'
      exact old p t (by rw [hp]; rfl) _ ⟨rfl, rfl⟩
    | lock p t k ks hp hl =>
      intro _ h' old
      refine txn_set (s := s) (p := p) (q := .locking t ks) rfl h' ?_
      intro t' ht'
      simp only [txnOf, Option.some.injEq] at ht'
      subst ht'
      exact old p t (by rw [hp]; rfl) _ ⟨rfl, rfl⟩
    | clash p t k ks hp hc => intro _ h' _; exact txn_set (s := s) (p := p) (q := .idle) rfl h' (by simp [txnOf])
    | clear p t k ks hp hc =>
      intro _ h' old
      refine txn_set rfl h' ?_
      intro t' ht'
      simp only [txnOf, Option.some.injEq] at ht'
      subst ht'
      exact old p t (by rw [hp]; rfl) _ ⟨rfl, rfl⟩
    | stamp p t hp => intro _ h' _; exact txn_set rfl h' (by simp [txnOf])
    | ident p w hp hw => intro _ h' _; exact txn_set (s := s) (p := p) (q := .logging w _) rfl h' (by simp [txnOf])
    | nowal p w hp hw => intro _ h' _; exact txn_set rfl h' (by simp [txnOf])
    | logged p w hp => intro _ h' _; exact txn_set rfl h' (by simp [txnOf])
    | log p w r rs hp => intro _ h' _; exact txn_set (s := s) (p := p) (q := .logging w rs) rfl h' (by simp [txnOf])
    | upNone p w hp hu => intro _ h' _; exact txn_set rfl h' (by simp [txnOf])
    | up p w rows hp hu hok => intro _ h' _; exact txn_set (s := s) (p := p) (q := .deletes w) rfl h' (by simp [txnOf])
    | fail p w op hp hok => intro _ h' _; exact txn_set (s := s) (p := p) (q := .idle) rfl h' (by simp [txnOf])
    | delNone p w hp hd => intro _ h' _; exact txn_set (s := s) (p := p) (q := .idle) rfl h' (by simp [txnOf])
    | del p w keys hp hd hok => intro _ h' _; exact txn_set (s := s) (p := p) (q := .idle) rfl h' (by simp [txnOf])
  refine ⟨htxn, ?_, ?_⟩
  · intro p w r hw hr
    cases tr_eff ht with
    | same hc hd hf => rw [hf] at hw; exact stable (h.fly p w r hw hr)
    | stamp q u hc hd hu h0 h1 hf hk =>
      by_cases hpq : p = q
      · subst hpq
        rw [h1] at hw
        cases hw
        rcases hk with ⟨t, hp, rfl⟩ | ⟨rows, _, rfl⟩
        · cases hr
          exact stable (h.txn p t (by rw [hp]; rfl))
        · cases hr
      · rw [hf p hpq] at hw; exact stable (h.fly p w r hw hr)
    | lost q u hc hd h0 h1 hf hok =>
      by_cases hpq : p = q
      · subst hpq; rw [h1] at hw; cases hw
      · rw [hf p hpq] at hw; exact stable (h.fly p w r hw hr)
    | finish q u hc hd h0 h1 hf =>
      by_cases hpq : p = q
      · subst hpq; rw [h1] at hw; cases hw
      · rw [hf p hpq] at hw; exact stable (h.fly p w r hw hr)
  · intro w r hw hr
    cases tr_eff ht with
    | same hc hd hf => rw [hd] at hw; exact stable (h.done w r hw hr)
    | stamp q u hc hd hu h0 h1 hf hk => rw [hd] at hw; exact stable (h.done w r hw hr)
    | lost q u hc hd h0 h1 hf hok => rw [hd] at hw; exact stable (h.done w r hw hr)
    | finish q u hc hd h0 h1 hf =>
      rw [hd] at hw
      rcases List.mem_append.1 hw with hw | hw
      · exact stable (h.done w r hw hr)
      · rw [List.mem_singleton.1 hw] at hr ⊢
        exact stable (h.fly q u r h0 hr)

theorem quietInv_new (e : Env K R) (cap sv : Nat) : QuietInv (Sys.new e cap sv) := by
  refine ⟨?_, ?_, ?_⟩ <;> simp [Sys.new, inFlight, txnOf]

/-! ## The operations on the table, and what they wrote -/

theorem run_snoc (ext : R → Option K) (x : Exec K R) (t : Nat) (tr : List (Lsm.Op K R)) (o : Lsm.Op K R) (s : Db K R) :
    Lsm.run ext x t s (tr ++ [o]) =
      ((Lsm.run ext x t s tr).1 && (Lsm.step ext x t (Lsm.run ext x t s tr).2 o).1,
        (Lsm.step ext x t (Lsm.run ext x t s tr).2 o).2) := by
  induction tr generalizing s with
  | nil => simp [Lsm.run]
  | cons a tr ih => simp only [List.cons_append, Lsm.run, ih, Bool.and_assoc]

theorem logOf_snoc (ext : R → Option K) (tr : List (Lsm.Op K R)) (o : Lsm.Op K R) :
    logOf ext (tr ++ [o]) = logOf ext tr ++ stepWrites ext o := by
  induction tr with
  | nil => rw [List.nil_append, logOf_cons]; simp [logOf]
  | cons a tr ih => rw [List.cons_append, logOf_cons, logOf_cons, ih, List.append_assoc]

theorem background_writes {ext : R → Option K} {o : Lsm.Op K R} (h : background o = true) : stepWrites ext o = [] := by
  cases o with
  | write op => cases op <;> first | rfl | cases h
  | _ => rfl

structure TraceInv (e : Env K R) (Q : Sys K R → Txn.Op K R → Prop) (cap sv : Nat) (s : Sys K R) : Prop where
  run : Lsm.run e.ext e.x e.table (Db.new cap e.table sv) s.trace = (s.ok, s.db)
  ops : ∀ o ∈ s.trace, (background o = true ∧ ∃ s', Q s' (.lsm o)) ∨ ∃ op, o = .write op
  sound : s.ok = true → ∀ v ∈ logOf e.ext s.trace, (∃ w ∈ s.done, v ∈ writesOf e.ext w) ∨
    ∃ p w, s.procs p = .deletes w ∧ v ∈ upsOf e.ext w
  done : ∀ w ∈ s.done, ∀ v ∈ writesOf e.ext w, v ∈ logOf e.ext s.trace
  half : ∀ p w, s.procs p = .deletes w → ∀ v ∈ upsOf e.ext w, v ∈ logOf e.ext s.trace

/-- Transitions that leave the table, the list of finished writes and the threads that apply deletes
alone. -/
theorem traceInv_frame {e : Env K R} {Q : Sys K R → Txn.Op K R → Prop} {cap sv : Nat} {s s' : Sys K R}
    (h : TraceInv e Q cap sv s) (hdb : s'.db = s.db) (htr : s'.trace = s.trace) (hok : s'.ok = s.ok)
    (hd : s'.done = s.done) (hp : ∀ p w, s'.procs p = .deletes w ↔ s.procs p = .deletes w) : TraceInv e Q cap sv s' := by
  refine ⟨by rw [htr, hok, hdb]; exact h.run, by rw [htr]; exact h.ops, ?_, by rw [hd, htr]; exact h.done, ?_⟩
  · rw [hok, htr, hd]
    simp only [hp]
    exact h.sound
  · intro p w hw
    rw [htr]
    exact h.half p w ((hp p w).1 hw)

theorem deletes_set {s s' : Sys K R} {p : Nat} {q : Proc K R} (hs : s'.procs = (setProc s p q).procs)
    (h0 : ∀ w, s.procs p ≠ .deletes w) (h1 : ∀ w, q ≠ .deletes w) :
    ∀ i w, s'.procs i = .deletes w ↔ s.procs i = .deletes w := by
  intro i w
  rw [hs]
  by_cases hi : i = p
  · rw [hi, setProc_same]
    exact ⟨fun h => absurd h (h1 w), fun h => absurd h (h0 w)⟩
  · rw [setProc_other s hi]

theorem traceInv_tr {e : Env K R} {Q : Sys K R → Txn.Op K R → Prop} {cap sv : Nat} {s s' : Sys K R}
    (h : TraceInv e Q cap sv s) (ht : Tr e Q s s') : TraceInv e Q cap sv s' := by
  cases ht with
  | stay => exact h
  | bg o hb hq =>
    refine ⟨?_, ?_, ?_, ?_, ?_⟩
    · rw [run_snoc, h.run]
    · intro o' ho'
      rcases List.mem_append.1 ho' with ho' | ho'
      · exact h.ops o' ho'
      · rw [List.mem_singleton.1 ho']; exact .inl ⟨hb, s, hq⟩
    · intro hok v hv
      simp only [Bool.and_eq_true] at hok
      simp only [logOf_snoc, background_writes hb, List.append_nil] at hv
      exact h.sound hok.1 v hv
    · intro w hw v hv
      simp only [logOf_snoc, background_writes hb, List.append_nil]
      exact h.done w hw v hv
    · intro p w hw v hv
      simp only [logOf_snoc, background_writes hb, List.append_nil]
      exact h.half p w hw v hv
  | read p hd v hp hv hq => exact traceInv_frame h rfl rfl rfl rfl (deletes_set rfl (by simp [hp]) (by simp))
  | «open» p v hp hq => exact traceInv_frame h rfl rfl rfl rfl (deletes_set rfl (by simp [hp]) (by simp))
  | stageUp p t r k hp hk => exact traceInv_frame h rfl rfl rfl rfl (deletes_set rfl (by simp [hp]) (by simp))
  | stageDel p t k hp => exact traceInv_frame h rfl rfl rfl rfl (deletes_set rfl (by simp [hp]) (by simp))
  | quit p t hp => exact traceInv_frame h rfl rfl rfl rfl (deletes_set rfl (by simp [hp]) (by simp))
  | call p t hp hne => exact traceInv_frame h rfl rfl rfl rfl (deletes_set rfl (by simp [hp]) (by simp))
  | ingest p rows hp hq =>
    exact traceInv_frame h rfl rfl rfl rfl (deletes_set (s := s) (p := p) rfl (by simp [hp]) (by simp))
  | locked p t hp => exact traceInv_frame h rfl rfl rfl rfl (deletes_set rfl (by simp [hp]) (by simp))
  | lock p t k ks hp hl =>
    exact traceInv_frame h rfl rfl rfl rfl (deletes_set (s := s) (p := p) (q := .locking t ks) rfl (by simp [hp]) (by simp))
  | clash p t k ks hp hc =>
    exact traceInv_frame h rfl rfl rfl rfl (deletes_set (s := s) (p := p) (q := .idle) rfl (by simp [hp]) (by simp))
  | clear p t k ks hp hc => exact traceInv_frame h rfl rfl rfl rfl (deletes_set rfl (by simp [hp]) (by simp))
  | stamp p t hp =>
    exact traceInv_frame h rfl rfl rfl rfl (deletes_set (s := s) (p := p) rfl (by simp [hp]) (by simp))
  | ident p w hp hw =>
    exact traceInv_frame h rfl rfl rfl rfl (deletes_set (s := s) (p := p) (q := .logging w _) rfl (by simp [hp]) (by simp))
  | nowal p w hp hw => exact traceInv_frame h rfl rfl rfl rfl (deletes_set rfl (by simp [hp]) (by simp))
  | logged p w hp => exact traceInv_frame h rfl rfl rfl rfl (deletes_set rfl (by simp [hp]) (by simp))
  | log p w r rs hp =>
    exact traceInv_frame h rfl rfl rfl rfl (deletes_set (s := s) (p := p) (q := .logging w rs) rfl (by simp [hp]) (by simp))
  | upNone p w hp hu =>
    refine ⟨h.run, h.ops, ?_, h.done, ?_⟩
    · intro hok v hv
      rcases h.sound hok v hv with h1 | ⟨i, u, hi, hv⟩
      · exact .inl h1
      · refine .inr ⟨i, u, ?_, hv⟩
        rw [setProc_other s (by intro hc; rw [hc, hp] at hi; cases hi)]
        exact hi
    · intro i u hi v hv
      by_cases hip : i = p
      · rw [hip, setProc_same] at hi
        cases hi
        simp [upsOf, hu, batchWrites, opWrites, putWrites, lastOnly] at hv
      · rw [setProc_other s hip] at hi
        exact h.half i u hi v hv
  | up p w rows hp hu hok =>
    have hw : stepWrites e.ext (.write (.put (rows.map (fun r => (r, w.ts)))) : Lsm.Op K R) = upsOf e.ext w := by
      simp [stepWrites, opWrites, upsOf, hu]
    refine ⟨?_, ?_, ?_, ?_, ?_⟩
    · show Lsm.run _ _ _ _ (s.trace ++ _) = _
      rw [run_snoc, h.run]
      simp only [hok, Bool.and_true]
      rfl
    · intro o' ho'
      rcases List.mem_append.1 ho' with ho' | ho'
      · exact h.ops o' ho'
      · rw [List.mem_singleton.1 ho']; exact .inr ⟨_, rfl⟩
    · intro ho v hv
      simp only [setProc, logOf_snoc, hw] at hv
      rcases List.mem_append.1 hv with hv | hv
      · rcases h.sound ho v hv with h1 | ⟨i, u, hi, hv⟩
        · exact .inl h1
        · refine .inr ⟨i, u, ?_, hv⟩
          rw [setProc_other _ (by intro hc; rw [hc, hp] at hi; cases hi)]
          exact hi
      · exact .inr ⟨p, w, by simp, hv⟩
    · intro u hu' v hv
      simp only [setProc, logOf_snoc]
      exact List.mem_append_left _ (h.done u hu' v hv)
    · intro i u hi v hv
      simp only [setProc, logOf_snoc, hw]
      by_cases hip : i = p
      · rw [hip, setProc_same] at hi
        cases hi
        exact List.mem_append_right _ hv
      · rw [setProc_other _ hip] at hi
        exact List.mem_append_left _ (h.half i u hi v hv)
  | fail p w op hp hok =>
    refine ⟨?_, ?_, ?_, ?_, ?_⟩
    · show Lsm.run _ _ _ _ (s.trace ++ _) = _
      rw [run_snoc, h.run]
      simp only [hok, Bool.and_false]
      rfl
    · intro o' ho'
      rcases List.mem_append.1 ho' with ho' | ho'
      · exact h.ops o' ho'
      · rw [List.mem_singleton.1 ho']; exact .inr ⟨_, rfl⟩
    · intro ho; cases ho
    · intro u hu' v hv
      simp only [setProc, release, logOf_snoc]
      exact List.mem_append_left _ (h.done u hu' v hv)
    · intro i u hi v hv
      simp only [setProc, release, logOf_snoc]
      by_cases hip : i = p
      · rw [hip, setProc_same] at hi; cases hi
      · rw [setProc_other _ hip] at hi
        exact List.mem_append_left _ (h.half i u hi v hv)
  | delNone p w hp hd =>
    have hw : writesOf e.ext w = upsOf e.ext w := by simp [writesOf, delsOf, hd, delWrites, lastOnly]
    refine ⟨h.run, h.ops, ?_, ?_, ?_⟩
    · intro ho v hv
      rcases h.sound ho v hv with ⟨u, hu, hv⟩ | ⟨i, u, hi, hv⟩
      · exact .inl ⟨u, List.mem_append_left _ hu, hv⟩
      · by_cases hip : i = p
        · rw [hip, hp] at hi
          cases hi
          exact .inl ⟨w, List.mem_append_right _ (by simp), by rw [hw]; exact hv⟩
        · exact .inr ⟨i, u, by rw [finishWork, setProc_other _ hip]; exact hi, hv⟩
    · intro u hu v hv
      rcases List.mem_append.1 (show u ∈ s.done ++ [w] from hu) with hu | hu
      · exact h.done u hu v hv
      · rw [List.mem_singleton.1 hu, hw] at hv
        exact h.half p w hp v hv
    · intro i u hi v hv
      by_cases hip : i = p
      · rw [hip, finishWork, setProc_same] at hi; cases hi
      · rw [finishWork, setProc_other _ hip] at hi
        exact h.half i u hi v hv
  | del p w keys hp hd hok =>
    have hw : stepWrites e.ext (.write (.del (keys.map (fun k => (k, w.ts)))) : Lsm.Op K R) = delsOf w := by
      simp [stepWrites, batchWrites, opWrites, delsOf, hd]
    refine ⟨?_, ?_, ?_, ?_, ?_⟩
    · show Lsm.run _ _ _ _ (s.trace ++ _) = _
      rw [run_snoc, h.run]
      simp only [hok, Bool.and_true]
      rfl
    · intro o' ho'
      rcases List.mem_append.1 ho' with ho' | ho'
      · exact h.ops o' ho'
      · rw [List.mem_singleton.1 ho']; exact .inr ⟨_, rfl⟩
    · intro ho v hv
      simp only [finishWork, setProc, release, logOf_snoc, hw] at hv
      rcases List.mem_append.1 hv with hv | hv
      · rcases h.sound ho v hv with ⟨u, hu, hv⟩ | ⟨i, u, hi, hv⟩
        · exact .inl ⟨u, List.mem_append_left _ hu, hv⟩
        · by_cases hip : i = p
          · rw [hip, hp] at hi
            cases hi
            exact .inl ⟨w, List.mem_append_right _ (by simp), List.mem_append_left _ hv⟩
          · exact .inr ⟨i, u, by rw [finishWork, setProc_other _ hip]; exact hi, hv⟩
      · exact .inl ⟨w, List.mem_append_right _ (by simp), List.mem_append_right _ hv⟩
    · intro u hu v hv
      simp only [finishWork, setProc, release, logOf_snoc, hw]
      rcases List.mem_append.1 (show u ∈ s.done ++ [w] from hu) with hu | hu
      · exact List.mem_append_left _ (h.done u hu v hv)
      · rw [List.mem_singleton.1 hu] at hv
        rcases List.mem_append.1 hv with hv | hv
        · exact List.mem_append_left _ (h.half p w hp v hv)
        · exact List.mem_append_right _ hv
    · intro i u hi v hv
      simp only [finishWork, setProc, release, logOf_snoc]
      by_cases hip : i = p
      · rw [hip, finishWork, setProc_same] at hi; cases hi
      · rw [finishWork, setProc_other _ hip] at hi
        exact List.mem_append_left _ (h.half i u hi v hv)

theorem traceInv_new (e : Env K R) (Q : Sys K R → Txn.Op K R → Prop) (cap sv : Nat) :
    TraceInv e Q cap sv (Sys.new e cap sv) :=
  ⟨rfl, by simp [Sys.new], by simp [Sys.new, logOf], by simp [Sys.new], by simp [Sys.new]⟩

end Tonbo.Lemmas.Txn
