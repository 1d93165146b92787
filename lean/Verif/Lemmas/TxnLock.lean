import Verif.Lemmas.TxnStep
import Verif.Spec.TxnView

/-!
# Who holds which lock; locking in key order always leaves someone able to go on
-/

set_option linter.unusedSectionVars false

namespace Tonbo.Lemmas.Txn
open Tonbo.Model Tonbo.Model.Txn Tonbo.Model.Lsm Tonbo.Spec

variable {K R : Type} [LinearOrder K]

/-- The locks a thread holds. -/
def Held : Proc K R → K → Prop
  | .locking t todo, k => k ∈ t.keys ∧ k ∉ todo
  | .checking t _, k => k ∈ t.keys
  | .stamped w, k | .logging w _, k | .upserts w, k | .deletes w, k => k ∈ w.held
  | _, _ => False

/-- Staged entries: in key order, and every row under its own key. -/
structure TxnOk (e : Env K R) (t : Txn K R) : Prop where
  sorted : SMap.Sorted t.staged
  keyed : ∀ k r, (k, Stage.up r) ∈ t.staged → e.ext r = some k

/-- What is left to lock or to check is a final part of the keys. -/
def ProcOk (e : Env K R) : Proc K R → Prop
  | .opened t => TxnOk e t
  | .locking t todo => TxnOk e t ∧ todo <:+ t.keys
  | .checking t todo => TxnOk e t ∧ todo <:+ t.keys
  | _ => True

structure LockInv (e : Env K R) (s : Sys K R) : Prop where
  locks : ∀ k p, s.locks k = some p ↔ Held (s.procs p) k
  procs : ∀ p, ProcOk e (s.procs p)

theorem keys_sorted {e : Env K R} {t : Txn K R} (h : TxnOk e t) : t.keys.Pairwise (· < ·) := by
  unfold Txn.keys
  rw [List.pairwise_map]
  exact h.sorted

theorem procs_ok {e : Env K R} {s s' : Sys K R} {p : Nat} {q : Proc K R} (h : ∀ i, ProcOk e (s.procs i))
    (hs : s'.procs = (setProc s p q).procs) (hq : ProcOk e q) : ∀ i, ProcOk e (s'.procs i) := by
  intro i
  rw [hs]
  by_cases hi : i = p
  · rw [hi, setProc_same]; exact hq
  · rw [setProc_other s hi]; exact h i

/-- A thread that keeps its locks. -/
theorem locks_same {s s' : Sys K R} {p : Nat} {q : Proc K R} (h : ∀ k i, s.locks k = some i ↔ Held (s.procs i) k)
    (hp : s'.procs = (setProc s p q).procs) (hl : s'.locks = s.locks)
    (hq : ∀ k, Held q k ↔ Held (s.procs p) k) : ∀ k i, s'.locks k = some i ↔ Held (s'.procs i) k := by
  intro k i
  rw [hp, hl]
  by_cases hi : i = p
  · rw [hi, setProc_same, hq]; exact h k p
  · rw [setProc_other s hi]; exact h k i

/-- A thread that drops its locks. -/
theorem locks_release {s s' : Sys K R} {p : Nat} (h : ∀ k i, s.locks k = some i ↔ Held (s.procs i) k)
    (hp : s'.procs = (setProc s p .idle).procs) (hl : s'.locks = (release s p).locks) :
    ∀ k i, s'.locks k = some i ↔ Held (s'.procs i) k := by
  intro k i
  rw [hp, hl]
  simp only [release]
  by_cases hi : i = p
  · rw [hi, setProc_same]
    constructor
    · intro hk
      split at hk
      · cases hk
      · rename_i hn; exact absurd hk hn
    · intro hk; exact hk.elim
  · rw [setProc_other s hi]
    constructor
    · intro hk
      split at hk
      · cases hk
      · exact (h k i).1 hk
    · intro hk
      have := (h k i).2 hk
      rw [if_neg, this]
      rw [this]
      intro hc
      exact hi (Option.some.inj hc)

theorem mem_tail_lt {l : List K} {k : K} {ks : List K} (hs : l.Pairwise (· < ·)) (hsuf : k :: ks <:+ l) :
    k ∉ ks ∧ k ∈ l ∧ ks <:+ l := by
  obtain ⟨pre, rfl⟩ := hsuf
  have := (List.pairwise_append.1 hs).2.1
  refine ⟨fun hk => ?_, by simp, ⟨pre ++ [k], by simp⟩⟩
  exact absurd (List.rel_of_pairwise_cons this hk) (lt_irrefl _)

theorem lockInv_tr {e : Env K R} {Q : Sys K R → Txn.Op K R → Prop} {s s' : Sys K R} (h : LockInv e s) (ht : Tr e Q s s') : LockInv e s' := by
  cases ht with
  | stay => exact h
  | bg o hb hq => exact ⟨h.locks, h.procs⟩
  | read p hd v hp hv hq =>
    exact ⟨locks_same h.locks rfl rfl (by simp [hp, Held]), procs_ok h.procs rfl trivial⟩
  | «open» p v hp hq =>
    exact ⟨locks_same h.locks rfl rfl (by simp [hp, Held]),
      procs_ok h.procs rfl ⟨by simp [SMap.Sorted], by simp⟩⟩
  | stageUp p t r k hp hk =>
    have h0 := h.procs p
    rw [hp] at h0
    refine ⟨locks_same h.locks rfl rfl (by simp [hp, Held]), procs_ok h.procs rfl ⟨SMap.sorted_insert h0.sorted, ?_⟩⟩
    intro k' r' hm
    rcases SMap.mem_insert_of_mem hm with hm | hm
    · cases hm; exact hk
    · exact h0.keyed k' r' hm
  | stageDel p t k hp =>
    have h0 := h.procs p
    rw [hp] at h0
    refine ⟨locks_same h.locks rfl rfl (by simp [hp, Held]), procs_ok h.procs rfl ⟨SMap.sorted_insert h0.sorted, ?_⟩⟩
    intro k' r' hm
    rcases SMap.mem_insert_of_mem hm with hm | hm
    · cases hm
    · exact h0.keyed k' r' hm
  | quit p t hp => exact ⟨locks_same h.locks rfl rfl (by simp [hp, Held]), procs_ok h.procs rfl trivial⟩
  | call p t hp hne =>
    have h0 := h.procs p
    rw [hp] at h0
    exact ⟨locks_same h.locks rfl rfl (by simp [hp, Held]), procs_ok h.procs rfl ⟨h0, List.suffix_refl _⟩⟩
  | ingest p rows hp hq =>
    exact ⟨locks_same h.locks rfl rfl (by simp [hp, Held, ingestOf]), procs_ok h.procs rfl trivial⟩
  | locked p t hp =>
    have h0 := h.procs p
    rw [hp] at h0
    exact ⟨locks_same h.locks rfl rfl (by simp [hp, Held]), procs_ok h.procs rfl ⟨h0.1, List.suffix_refl _⟩⟩
  | lock p t k ks hp hl =>
    have h0 := h.procs p
    rw [hp] at h0
    obtain ⟨a1, a2, a3⟩ := mem_tail_lt (keys_sorted h0.1) h0.2
    refine ⟨?_, procs_ok (s := s) (p := p) h.procs (q := .locking t ks) rfl ⟨h0.1, a3⟩⟩
    intro k' i
    show (if k' = k then some p else s.locks k') = some i ↔ Held ((setProc s p (.locking t ks)).procs i) k'
    by_cases hi : i = p
    · rw [hi, setProc_same]
      have hh := h.locks k' p
      rw [hp] at hh
      simp only [Held, List.mem_cons, not_or] at hh ⊢
      by_cases hk : k' = k
      · subst hk; simp [a1, a2]
      · rw [if_neg hk, hh]; simp [hk]
    · rw [setProc_other s hi]
      by_cases hk : k' = k
      · subst hk
        rw [if_pos rfl]
        constructor
        · intro hc; exact absurd (Option.some.inj hc).symm hi
        · intro hc
          have := (h.locks k' i).2 hc
          rw [hl] at this
          cases this
      · rw [if_neg hk]; exact h.locks k' i
  | clash p t k ks hp hc => exact ⟨locks_release h.locks rfl rfl, procs_ok h.procs rfl trivial⟩
  | clear p t k ks hp hc =>
    have h0 := h.procs p
    rw [hp] at h0
    exact ⟨locks_same h.locks rfl rfl (by simp [hp, Held]),
      procs_ok h.procs rfl ⟨h0.1, (mem_tail_lt (keys_sorted h0.1) h0.2).2.2⟩⟩
  | stamp p t hp =>
    exact ⟨locks_same h.locks rfl rfl (by simp [hp, Held, workOf]), procs_ok h.procs rfl trivial⟩
  | ident p w hp hw => exact ⟨locks_same h.locks rfl rfl (by simp [hp, Held]), procs_ok h.procs rfl trivial⟩
  | nowal p w hp hw => exact ⟨locks_same h.locks rfl rfl (by simp [hp, Held]), procs_ok h.procs rfl trivial⟩
  | logged p w hp => exact ⟨locks_same h.locks rfl rfl (by simp [hp, Held]), procs_ok h.procs rfl trivial⟩
  | log p w r rs hp => exact ⟨locks_same h.locks rfl rfl (by simp [hp, Held]), procs_ok h.procs rfl trivial⟩
  | upNone p w hp hu => exact ⟨locks_same h.locks rfl rfl (by simp [hp, Held]), procs_ok h.procs rfl trivial⟩
  | up p w rows hp hu hok => exact ⟨locks_same h.locks rfl rfl (by simp [hp, Held]), procs_ok h.procs rfl trivial⟩
  | fail p w op hp hok => exact ⟨locks_release h.locks rfl rfl, procs_ok h.procs rfl trivial⟩
  | delNone p w hp hd => exact ⟨locks_release h.locks rfl rfl, procs_ok h.procs rfl trivial⟩
  | del p w keys hp hd hok => exact ⟨locks_release h.locks rfl rfl, procs_ok h.procs rfl trivial⟩

theorem lockInv_new (e : Env K R) (cap sv : Nat) : LockInv e (Sys.new e cap sv) :=
  ⟨by intro k p; simp [Sys.new, Held], fun _ => trivial⟩

theorem lockInv_run (e : Env K R) (cap sv : Nat) (ops : List (Txn.Op K R)) :
    LockInv e (Txn.run e (Sys.new e cap sv) ops) :=
  run_induct (Q := fun _ _ => True) (fun _ _ => lockInv_tr) ops _ (fun _ _ _ _ => trivial) (lockInv_new e cap sv)

/-! ## Only finitely many threads do anything -/

def Finite (s : Sys K R) (n : Nat) : Prop := ∀ p, n ≤ p → s.procs p = .idle

theorem finite_set {s s' : Sys K R} {n p : Nat} {q : Proc K R} (h : Finite s n)
    (hs : s'.procs = (setProc s p q).procs) : Finite s' (max n (p + 1)) := by
  intro i hi
  have := le_trans (le_max_left _ _) hi
  have h2 := le_trans (le_max_right _ _) hi
  rw [hs, setProc_other s (by omega)]
  exact h i this

theorem finite_tr {e : Env K R} {Q : Sys K R → Txn.Op K R → Prop} {s s' : Sys K R} (h : ∃ n, Finite s n) (ht : Tr e Q s s') : ∃ n, Finite s' n := by
  obtain ⟨n, h⟩ := h
  cases ht with
  | stay => exact ⟨n, h⟩
  | bg o hb hq => exact ⟨n, h⟩
  | read p => exact ⟨_, finite_set (p := p) h rfl⟩
  | «open» p => exact ⟨_, finite_set (p := p) h rfl⟩
  | stageUp p => exact ⟨_, finite_set (p := p) h rfl⟩
  | stageDel p => exact ⟨_, finite_set (p := p) h rfl⟩
  | quit p => exact ⟨_, finite_set (p := p) h rfl⟩
  | call p => exact ⟨_, finite_set (p := p) h rfl⟩
  | ingest p => exact ⟨_, finite_set (p := p) h rfl⟩
  | locked p => exact ⟨_, finite_set (p := p) h rfl⟩
  | lock p => exact ⟨_, finite_set (p := p) h rfl⟩
  | clash p => exact ⟨_, finite_set (p := p) h rfl⟩
  | clear p => exact ⟨_, finite_set (p := p) h rfl⟩
  | stamp p => exact ⟨_, finite_set (p := p) h rfl⟩
  | ident p => exact ⟨_, finite_set (p := p) h rfl⟩
  | nowal p => exact ⟨_, finite_set (p := p) h rfl⟩
  | logged p => exact ⟨_, finite_set (p := p) h rfl⟩
  | log p => exact ⟨_, finite_set (p := p) h rfl⟩
  | upNone p => exact ⟨_, finite_set (p := p) h rfl⟩
  | up p => exact ⟨_, finite_set (p := p) h rfl⟩
  | fail p => exact ⟨_, finite_set (p := p) h rfl⟩
  | delNone p => exact ⟨_, finite_set (p := p) h rfl⟩
  | del p => exact ⟨_, finite_set (p := p) h rfl⟩

theorem finite_run (e : Env K R) (cap sv : Nat) (ops : List (Txn.Op K R)) :
    ∃ n, Finite (Txn.run e (Sys.new e cap sv) ops) n :=
  run_induct (Q := fun _ _ => True) (fun _ _ => finite_tr) ops _ (fun _ _ _ _ => trivial) ⟨0, fun _ _ => rfl⟩

/-! ## Progress -/

theorem exists_max : ∀ (l : List K), l ≠ [] → ∃ m ∈ l, ∀ x ∈ l, x ≤ m
  | [], h => absurd rfl h
  | [a], _ => ⟨a, by simp, by simp⟩
  | a :: b :: l, _ => by
    obtain ⟨m, hm, hmax⟩ := exists_max (b :: l) (by simp)
    rcases le_total a m with h | h
    · exact ⟨m, List.mem_cons_of_mem _ hm, fun x hx => by
        rcases List.mem_cons.1 hx with rfl | hx
        · exact h
        · exact hmax x hx⟩
    · exact ⟨a, List.mem_cons_self, fun x hx => by
        rcases List.mem_cons.1 hx with rfl | hx
        · exact le_refl _
        · exact le_trans (hmax x hx) h⟩

theorem held_busy {q : Proc K R} {k : K} (h : Held q k) : Busy q := by
  cases q <;> first | trivial | exact h.elim

/-- The key a thread waits for. -/
def waitKey (s : Sys K R) (p : Nat) : Option K :=
  match s.procs p with
  | .locking _ (k :: _) => if s.locks k = none then none else some k
  | _ => none

theorem waitKey_iff {s : Sys K R} {p : Nat} {k : K} : waitKey s p = some k ↔ WaitsFor s p k := by
  unfold waitKey WaitsFor
  constructor
  · intro h
    split at h
    · rename_i t k' ks hp
      split at h
      · cases h
      · rename_i hn
        cases h
        exact ⟨t, ks, hp, hn⟩
    · cases h
  · rintro ⟨t, ks, hp, hn⟩
    rw [hp]
    simp [hn]

/-- If a thread is busy, some busy thread does not wait. -/
theorem some_runs {e : Env K R} {s : Sys K R} (h : LockInv e s) {n : Nat} (hf : Finite s n) {p : Nat}
    (hp : Busy (s.procs p)) : ∃ q, Busy (s.procs q) ∧ ∀ k, ¬ WaitsFor s q k := by
  by_contra hno
  have hall : ∀ q, Busy (s.procs q) → ∃ k, WaitsFor s q k := by
    intro q hq
    by_contra hc
    exact hno ⟨q, hq, fun k hk => hc ⟨k, hk⟩⟩
  have hlt : ∀ q, Busy (s.procs q) → q < n := by
    intro q hq
    by_contra hc
    rw [hf q (by omega)] at hq
    exact hq
  obtain ⟨k0, hk0⟩ := hall p hp
  have hne : (List.range n).filterMap (waitKey s) ≠ [] := by
    intro hc
    have : k0 ∈ (List.range n).filterMap (waitKey s) :=
      List.mem_filterMap.2 ⟨p, List.mem_range.2 (hlt p hp), waitKey_iff.2 hk0⟩
    rw [hc] at this
    cases this
  obtain ⟨m, hm, hmax⟩ := exists_max _ hne
  obtain ⟨q, hq, hqm⟩ := List.mem_filterMap.1 hm
  obtain ⟨t, ks, hqp, hlock⟩ := waitKey_iff.1 hqm
  obtain ⟨r, hr⟩ := Option.ne_none_iff_exists'.1 hlock
  have hheld := (h.locks m r).1 hr
  have hrb := held_busy hheld
  obtain ⟨k', t', ks', hrp, hlock'⟩ := hall r hrb
  have hle : k' ≤ m := hmax k' (List.mem_filterMap.2 ⟨r, List.mem_range.2 (hlt r hrb), waitKey_iff.2 ⟨t', ks', hrp, hlock'⟩⟩)
  rw [hrp] at hheld
  have hok := h.procs r
  rw [hrp] at hok
  obtain ⟨pre, hpre⟩ := hok.2
  have hs := keys_sorted hok.1
  rw [← hpre] at hs
  obtain ⟨h1, h2⟩ := hheld
  rw [← hpre] at h1
  rcases List.mem_append.1 h1 with h1 | h1
  · exact absurd (lt_of_lt_of_le ((List.pairwise_append.1 hs).2.2 m h1 k' List.mem_cons_self) hle) (lt_irrefl _)
  · exact h2 h1

/-- How many steps a thread has left in its call, at most. -/
def left : Proc K R → Nat
  | .locking t todo => todo.length + t.keys.length + 10
  | .checking _ todo => todo.length + 9
  | .stamped _ => 8
  | .logging _ todo => todo.length + 3
  | .upserts _ => 2
  | .deletes _ => 1
  | _ => 0

theorem records_length (w : Work K R) (id : Nat) : (records w id).length ≤ 4 := by
  unfold records
  cases w.snap <;> cases w.ups <;> cases w.dels <;> simp

/-- A thread that does not wait comes closer to the end of its call, and touches no other thread. -/
theorem advance_progress (e : Env K R) (s : Sys K R) {p : Nat} (hb : Busy (s.procs p))
    (hw : ∀ k, ¬ WaitsFor s p k) :
    left ((advance e s p).procs p) < left (s.procs p) ∧ ∀ i, i ≠ p → (advance e s p).procs i = s.procs i := by
  have other : ∀ (s' : Sys K R) (q : Proc K R), s'.procs = s.procs → ∀ i, i ≠ p → (setProc s' p q).procs i = s.procs i := by
    intro s' q hs i hi
    rw [setProc_other _ hi, hs]
  unfold advance
  cases hp : s.procs p with
  | idle => rw [hp] at hb; exact hb.elim
  | opening v => rw [hp] at hb; exact hb.elim
  | opened t => rw [hp] at hb; exact hb.elim
  | locking t todo =>
    cases todo with
    | nil => exact ⟨by simp [left], other _ _ rfl⟩
    | cons k ks =>
      have hl : s.locks k = none := by
        by_contra hc
        exact hw k ⟨t, ks, hp, hc⟩
      simp only [hl, if_true]
      exact ⟨by simp [left], other _ _ rfl⟩
  | checking t todo =>
    cases todo with
    | nil => exact ⟨by simp [left], other _ _ rfl⟩
    | cons k ks =>
      by_cases hc : conflict s k t.snap.rts = true
      · simp only [hc, if_true]
        exact ⟨by simp [left], other _ _ rfl⟩
      · simp only [hc]
        exact ⟨by simp [left], other _ _ rfl⟩
  | stamped w =>
    by_cases hc : e.wal = true
    · simp only [hc, if_true]
      refine ⟨?_, other _ _ rfl⟩
      have := records_length w s.nextId
      simp only [setProc_same, left]
      omega
    · simp only [hc]
      exact ⟨by simp [left], other _ _ rfl⟩
  | logging w todo =>
    cases todo with
    | nil => exact ⟨by simp [left], other _ _ rfl⟩
    | cons r rs => exact ⟨by simp [left], other _ _ rfl⟩
  | upserts w =>
    cases hu : w.ups with
    | none => simp only [hu]; exact ⟨by simp [left], other _ _ rfl⟩
    | some rows =>
      simp only [hu]
      unfold applyCall
      dsimp only
      split
      · exact ⟨by simp [left], other _ _ rfl⟩
      · exact ⟨by simp [left], other _ _ rfl⟩
  | deletes w =>
    cases hu : w.dels with
    | none => simp only [hu]; exact ⟨by simp [left, finishWork], other _ _ rfl⟩
    | some rows =>
      simp only [hu]
      unfold applyCall
      dsimp only
      split
      · exact ⟨by simp [left, finishWork], other _ _ rfl⟩
      · exact ⟨by simp [left], other _ _ rfl⟩

/-- The steps all threads have left. -/
def total (s : Sys K R) : Nat → Nat
  | 0 => 0
  | n + 1 => total s n + left (s.procs n)

theorem total_same {s s' : Sys K R} {n : Nat} (h : ∀ i < n, s'.procs i = s.procs i) : total s' n = total s n := by
  induction n with
  | zero => rfl
  | succ n ih => simp only [total, ih (fun i hi => h i (by omega)), h n (by omega)]

theorem total_less {s s' : Sys K R} {n p : Nat} (hp : p < n) (hl : left (s'.procs p) < left (s.procs p))
    (ho : ∀ i, i ≠ p → s'.procs i = s.procs i) : total s' n < total s n := by
  induction n with
  | zero => omega
  | succ n ih =>
    simp only [total]
    by_cases h : p = n
    · subst h
      rw [total_same (fun i hi => ho i (by omega))]
      omega
    · rw [ho n (by omega)]
      have := ih (by omega)
      omega

theorem busy_left {q : Proc K R} (h : Busy q) : 0 < left q := by
  cases q <;> first | exact h.elim | simp [left]

/-- All calls can be brought to their end. -/
theorem can_finish (e : Env K R) : ∀ (m : Nat) (s : Sys K R) (n : Nat), LockInv e s → Finite s n → total s n ≤ m →
    ∃ sched : List Nat, ∀ p, ¬ Busy ((Txn.run e s (sched.map .advance)).procs p) := by
  intro m
  induction m with
  | zero =>
    intro s n h hf ht
    refine ⟨[], fun p hb => ?_⟩
    obtain ⟨q, hq, hw⟩ := some_runs h hf hb
    obtain ⟨h1, h2⟩ := advance_progress e s hq hw
    have hqn : q < n := by
      by_contra hc
      have := hf q (by omega)
      rw [this] at hq
      exact hq
    have := total_less hqn h1 h2
    omega
  | succ m ih =>
    intro s n h hf ht
    by_cases hall : ∃ p, Busy (s.procs p)
    · obtain ⟨p, hb⟩ := hall
      obtain ⟨q, hq, hw⟩ := some_runs h hf hb
      obtain ⟨h1, h2⟩ := advance_progress e s hq hw
      have hqn : q < n := by
        by_contra hc
        have := hf q (by omega)
        rw [this] at hq
        exact hq
      have hlt := total_less hqn h1 h2
      have hf' : Finite (advance e s q) n := fun i hi => by rw [h2 i (by omega)]; exact hf i hi
      obtain ⟨sched, hs⟩ := ih (advance e s q) n (lockInv_tr h (advance_tr e (fun _ _ => True) s q)) hf' (by omega)
      exact ⟨q :: sched, hs⟩
    · exact ⟨[], fun p hb => hall ⟨p, hb⟩⟩

end Tonbo.Lemmas.Txn
