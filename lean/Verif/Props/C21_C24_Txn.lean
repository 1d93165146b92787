import Verif.Lemmas.TxnMem
import Verif.Lemmas.TxnHide
import Verif.Props.C38_C43_Lsm

/-!
# C21, C22, C24: transactions against each other, for every schedule

A history is any list of the atomic steps of any number of threads, each of which runs transactions and
ingests, together with freezes, the steps of flushes and compactions.
-/

set_option linter.unusedSectionVars false
set_option synthInstance.maxSize 1000
set_option synthInstance.maxHeartbeats 200000

namespace Tonbo.Props.C21
open Tonbo.Model Tonbo.Model.Txn Tonbo.Model.Lsm Tonbo.Model.Compact Tonbo.Spec Tonbo.Lemmas.Txn

variable {K R : Type} [LinearOrder K]

/-! ## C24 -/

/-- **C24.** Whatever happened so far: if some call to `commit` or `ingest` is running, there is one that
does not wait for a lock. -/
theorem someone_can_go_on (e : Env K R) (cap sv : Nat) (ops : List (Txn.Op K R)) (p : Nat)
    (hp : Busy ((Txn.run e (Sys.new e cap sv) ops).procs p)) :
    ∃ q, Busy ((Txn.run e (Sys.new e cap sv) ops).procs q) ∧
      ∀ k, ¬ WaitsFor (Txn.run e (Sys.new e cap sv) ops) q k := by
  obtain ⟨n, hf⟩ := finite_run e cap sv ops
  exact some_runs (lockInv_run e cap sv ops) hf hp

/-- **C24.** From every reachable state all running calls can be brought to their end, only by letting
them take their steps. -/
theorem all_calls_can_finish (e : Env K R) (cap sv : Nat) (ops : List (Txn.Op K R)) :
    ∃ sched : List Nat, ∀ p, ¬ Busy ((Txn.run e (Sys.new e cap sv) (ops ++ sched.map .advance)).procs p) := by
  obtain ⟨n, hf⟩ := finite_run e cap sv ops
  obtain ⟨sched, h⟩ := can_finish e _ _ n (lockInv_run e cap sv ops) hf (le_refl _)
  exact ⟨sched, fun p => by rw [run_append]; exact h p⟩

/-- **C24.** A step of a call that does not wait brings this call closer to its end, for a measure that
depends on the call alone and that no other thread changes. -/
theorem a_step_is_progress (e : Env K R) (s : Sys K R) (p : Nat) (hb : Busy (s.procs p))
    (hw : ∀ k, ¬ WaitsFor s p k) :
    left ((advance e s p).procs p) < left (s.procs p) ∧ ∀ i, i ≠ p → (advance e s p).procs i = s.procs i :=
  advance_progress e s hb hw

/-- Two transactions that have taken all their locks and have not returned write different keys. -/
theorem lock_holders_differ (e : Env K R) (cap sv : Nat) (ops : List (Txn.Op K R)) (p q : Nat) (a b : Work K R)
    (hp : inFlight ((Txn.run e (Sys.new e cap sv) ops).procs p) = some a)
    (hq : inFlight ((Txn.run e (Sys.new e cap sv) ops).procs q) = some b)
    (ha : a.snap.isSome = true) (hb : b.snap.isSome = true) (k : K) (hka : Writes e.ext a k)
    (hkb : Writes e.ext b k) : p = q := by
  have hst : LockInv e (Txn.run e (Sys.new e cap sv) ops) ∧ StampInv e (fun _ => True) (Txn.run e (Sys.new e cap sv) ops) :=
    run_induct (Q := fun _ _ => True) (P := fun s => LockInv e s ∧ StampInv e (fun _ => True) s)
      (fun _ _ h ht => ⟨lockInv_tr h.1 ht, stampInv_tr (fun _ _ _ _ => trivial) h.1 h.2 ht⟩) ops _
      (fun _ _ _ _ => trivial) ⟨lockInv_new e cap sv, stampInv_new e _ cap sv⟩
  have h1 := (hst.1.locks k p).2 (flyHeld hp (((hst.2.fly p a hp).2.held k).2 ⟨ha, hka⟩))
  have h2 := (hst.1.locks k q).2 (flyHeld hq (((hst.2.fly q b hq).2.held k).2 ⟨hb, hkb⟩))
  rw [h1] at h2
  exact Option.some.inj h2

/-! ## C21 -/

/-- All invariants together. -/
structure All (e : Env K R) (Q : Sys K R → Txn.Op K R → Prop) (cap sv : Nat) (s : Sys K R) : Prop where
  lock : LockInv e s
  stamp : StampInv e (fun _ => True) s
  trace : TraceInv e Q cap sv s
  first : s.ok = true → s.clock ≤ Mem.tsMax + 1 → FirstInv e s

theorem clock_tr {e : Env K R} {Q : Sys K R → Txn.Op K R → Prop} {s s' : Sys K R} (ht : Tr e Q s s') : s.clock ≤ s'.clock := by
  cases tr_eff ht <;> omega

theorem ok_tr {e : Env K R} {Q : Sys K R → Txn.Op K R → Prop} {s s' : Sys K R} (ht : Tr e Q s s') (h : s'.ok = true) :
    s.ok = true := by
  cases ht <;> first | exact h | exact (Bool.and_eq_true_iff.1 h).1 | cases h

theorem all_run (e : Env K R) (Q : Sys K R → Txn.Op K R → Prop)
    (hQ : ∀ s' o, Q s' (.lsm o) → background o = true → keepsMem o = true)
    (cap sv : Nat) (ops : List (Txn.Op K R)) (h : Along e Q (Sys.new e cap sv) ops) :
    All e Q cap sv (Txn.run e (Sys.new e cap sv) ops) := by
  refine run_induct ?_ ops _ h ⟨lockInv_new e cap sv, stampInv_new e _ cap sv, traceInv_new e Q cap sv,
    fun _ _ => firstInv_new e cap sv⟩
  intro s s' hs ht
  refine ⟨lockInv_tr hs.lock ht, stampInv_tr (fun _ _ _ _ => trivial) hs.lock hs.stamp ht, traceInv_tr hs.trace ht, ?_⟩
  intro hok hc
  have hok := ok_tr ht hok
  have hc : s.clock ≤ Mem.tsMax + 1 := le_trans (clock_tr ht) hc
  exact firstInv_tr hQ hs.lock hs.stamp hs.trace (hs.first hok hc) ht hok hc

theorem keepsMemory_keepsMem {o : Lsm.Op K R} (h : KeepsMemory (.lsm o)) (hb : background o = true) : keepsMem o = true := by
  cases o <;> first | rfl | exact h.elim | cases hb

/-- **C21, partial.** If snapshots are opened while no write is between taking its timestamp and
returning, and no flush takes runs out of memory, then no update is lost: of two transactions that return
`Ok` and write a common key, one returned before the other's snapshot was opened. Missing: both
conditions; without either the claim is false (`flush_hides_a_conflict`, `snapshot_during_commit_hides_a_conflict`,
`first_commit_is_no_conflict`). -/
theorem no_lost_updates_partial (e : Env K R) (cap sv : Nat) (ops : List (Txn.Op K R))
    (hq : Along e (fun s o => OpensQuietly s o ∧ KeepsMemory o) (Sys.new e cap sv) ops)
    (hok : (Txn.run e (Sys.new e cap sv) ops).ok = true)
    (hc : (Txn.run e (Sys.new e cap sv) ops).clock ≤ Mem.tsMax + 1) :
    ¬ LostUpdate e.ext (Txn.run e (Sys.new e cap sv) ops) := by
  have h := all_run e _ (fun s' o hq hb => keepsMemory_keepsMem hq.2 hb) cap sv ops hq
  have hqi : QuietInv (Txn.run e (Sys.new e cap sv) ops) :=
    run_induct (fun s s' hs ht => quietInv_tr (fun s p hq => hq.1) hs ht) ops _ hq (quietInv_new e cap sv)
  rintro ⟨i, j, a, b, k, ha, hb, hij, hsa, hsb, hka, hkb, hbeg⟩
  obtain ⟨r, hr⟩ := Option.isSome_iff_exists.1 hsb
  obtain ⟨hi, rfl⟩ := List.getElem?_eq_some_iff.1 ha
  obtain ⟨hj, rfl⟩ := List.getElem?_eq_some_iff.1 hb
  have h1 := List.pairwise_iff_getElem.1 (h.first hok hc).done i j hi hj hij hsa r hr k hka hkb
  have h2 := (hqi.done _ r (List.getElem_mem hj) hr).done i _ hbeg ha
  omega

/-- **C21, partial.** Whenever snapshots are opened: as long as no flush takes runs out of memory, a
transaction that returns `Ok` has a snapshot that covers the commit timestamps of all transactions that
returned `Ok` before and write one of its keys. -/
theorem commits_see_earlier_commits_partial (e : Env K R) (cap sv : Nat) (ops : List (Txn.Op K R))
    (hq : Along e (fun _ o => KeepsMemory o) (Sys.new e cap sv) ops)
    (hok : (Txn.run e (Sys.new e cap sv) ops).ok = true)
    (hc : (Txn.run e (Sys.new e cap sv) ops).clock ≤ Mem.tsMax + 1) (i j : Nat) (a b : Work K R) (k : K) (r : Nat)
    (ha : (Txn.run e (Sys.new e cap sv) ops).done[i]? = some a)
    (hb : (Txn.run e (Sys.new e cap sv) ops).done[j]? = some b) (hij : i < j) (hsa : a.snap.isSome = true)
    (hr : b.snap = some r) (hka : Writes e.ext a k) (hkb : Writes e.ext b k) : a.ts ≤ r := by
  have h := all_run e _ (fun s' o hq hb => keepsMemory_keepsMem hq hb) cap sv ops hq
  obtain ⟨hi, rfl⟩ := List.getElem?_eq_some_iff.1 ha
  obtain ⟨hj, rfl⟩ := List.getElem?_eq_some_iff.1 hb
  exact List.pairwise_iff_getElem.1 (h.first hok hc).done i j hi hj hij hsa r hr k hka hkb

/-- **C21.** A commit is refused only for a reason: a write of one of its keys, newer than its snapshot, has
been applied. (Refusal is the step from `checking` to `idle`.) -/
theorem a_conflict_is_a_newer_write_partial (e : Env K R) (cap sv : Nat) (ops : List (Txn.Op K R))
    (hq : Along e (fun _ o => KeepsMemory o) (Sys.new e cap sv) ops)
    (hok : (Txn.run e (Sys.new e cap sv) ops).ok = true)
    (hc : (Txn.run e (Sys.new e cap sv) ops).clock ≤ Mem.tsMax + 1) (p : Nat) (t : Txn K R) (todo : List K)
    (hp : (Txn.run e (Sys.new e cap sv) ops).procs p = .checking t todo)
    (hidle : (Txn.run e (Sys.new e cap sv) (ops ++ [.advance p])).procs p = .idle) :
    ∃ k st, (k, st) ∈ t.staged ∧ ∃ v ∈ logOf e.ext (Txn.run e (Sys.new e cap sv) ops).trace, v.key = k ∧ t.snap.rts < v.ts := by
  have h := all_run e _ (fun s' o hq hb => keepsMemory_keepsMem hq hb) cap sv ops hq
  rw [run_append] at hidle
  generalize Txn.run e (Sys.new e cap sv) ops = s at hp hidle h hok hc ⊢
  change (advance e s p).procs p = .idle at hidle
  unfold advance at hidle
  rw [hp] at hidle
  cases todo with
  | nil => simp at hidle
  | cons k ks =>
    simp only at hidle
    by_cases hcf : conflict s k t.snap.rts = true
    · have hk : k ∈ t.keys := by
        have := h.lock.procs p
        rw [hp] at this
        exact this.2.subset List.mem_cons_self
      obtain ⟨⟨k', st⟩, hm, rfl⟩ := List.mem_map.1 hk
      obtain ⟨logs, cur, hm', hlog⟩ := memory (fun s' o hq hb => keepsMemory_keepsMem hq hb) h.trace hok
      obtain ⟨v, hv, h1⟩ := (conflict_iff hm' (by rw [hlog]; exact ts_le_of_clock h.stamp h.trace hok hc) k' t.snap.rts).1 hcf
      exact ⟨k', st, hm, v, by rw [← hlog]; exact hv, h1⟩
    · rw [if_neg hcf] at hidle
      simp at hidle

/-! ## C22 -/

/-- **C22.** Take any reachable state in which a thread is idle, and any history in which this thread never
gets a commit timestamp and is idle at the end: its transactions were aborted or dropped, or were refused
with a conflict. Then the operations of the other threads alone, or some of them, lead to the same state:
the same tables and manifest, the same log, the same clock, locks and finished writes. (Not all of them,
because an operation that found a lock taken by this thread did nothing.) -/
theorem failed_transactions_leave_no_trace (e : Env K R) (cap sv : Nat) (before ops : List (Txn.Op K R)) (p : Nat)
    (h0 : (Txn.run e (Sys.new e cap sv) before).procs p = .idle)
    (h1 : (Txn.run e (Sys.new e cap sv) (before ++ ops)).procs p = .idle)
    (hn : ∀ pre, pre <+: ops → inFlight ((Txn.run e (Sys.new e cap sv) (before ++ pre)).procs p) = none) :
    ∃ ops', ops'.Sublist (ops.filter (fun o => !ofThread p o)) ∧
      Txn.run e (Sys.new e cap sv) (before ++ ops') = Txn.run e (Sys.new e cap sv) (before ++ ops) := by
  obtain ⟨ops', h2, h3⟩ := hide_run e p ops (Txn.run e (Sys.new e cap sv) before)
    (fun pre hpre => by rw [← run_append]; exact hn pre hpre)
  refine ⟨ops', h2, ?_⟩
  rw [hide_idle (lockInv_run e cap sv before) h0, ← run_append, ← run_append,
    hide_idle (lockInv_run e cap sv _) h1] at h3
  exact h3

/-- **C22.** At no point up to its commit timestamp has a transaction changed anything but its own state and
the locks it holds. -/
theorem open_transactions_change_nothing (e : Env K R) (cap sv : Nat) (before ops : List (Txn.Op K R)) (p : Nat)
    (h0 : (Txn.run e (Sys.new e cap sv) before).procs p = .idle) (hops : ∀ o ∈ ops, ofThread p o = true)
    (hn : ∀ pre, pre <+: ops → inFlight ((Txn.run e (Sys.new e cap sv) (before ++ pre)).procs p) = none) :
    let s := Txn.run e (Sys.new e cap sv) before
    let s' := Txn.run e (Sys.new e cap sv) (before ++ ops)
    s'.db = s.db ∧ s'.clock = s.clock ∧ s'.log = s.log ∧ s'.done = s.done ∧ (∀ q, q ≠ p → s'.procs q = s.procs q) ∧
      ∀ k, s'.locks k = s.locks k ∨ (s.locks k = none ∧ s'.locks k = some p) := by
  obtain ⟨ops', h2, h3⟩ := hide_run e p ops (Txn.run e (Sys.new e cap sv) before)
    (fun pre hpre => by rw [← run_append]; exact hn pre hpre)
  have hnil : ops.filter (fun o => !ofThread p o) = [] := by
    rw [List.filter_eq_nil_iff]
    intro o ho
    simp [hops o ho]
  rw [hnil] at h2
  obtain rfl := List.sublist_nil.1 h2
  rw [hide_idle (lockInv_run e cap sv before) h0] at h3
  change Txn.run e (Sys.new e cap sv) before = hide p _ at h3
  rw [← run_append] at h3
  dsimp only
  generalize Txn.run e (Sys.new e cap sv) before = s at h3 ⊢
  subst h3
  refine ⟨rfl, rfl, rfl, rfl, fun q hq => (hide_procs hq _).symm, fun k => ?_⟩
  simp only [hide, release, setProc]
  split
  · rename_i h; exact .inr ⟨rfl, h⟩
  · exact .inl rfl

/-! ## Concrete cases -/
section Example
open Tonbo.Props.C38 (exExt exX seg flushOps)

/-- A row is a number; its tens are the key. -/
def exE : Env Nat Nat := ⟨exExt, exX, 1, true⟩

def begin' (p : Nat) : List (Txn.Op Nat Nat) := [.readVersion p, .openTxn p]
/-- `n` steps of the call of a thread; more than it needs do nothing. -/
def go (p n : Nat) : List (Txn.Op Nat Nat) := List.replicate n (.advance p)
def commit' (p : Nat) : List (Txn.Op Nat Nat) := .commit p :: go p 20
def ingest' (p : Nat) (rows : List Nat) : List (Txn.Op Nat Nat) := .ingest p rows :: go p 10
def flush' : List (Txn.Op Nat Nat) := (flushOps [seg 1]).map .lsm
def exR (ops : List (Txn.Op Nat Nat)) : Sys Nat Nat := Txn.run exE (Sys.new exE 4 0) ops

/-- Two transactions from the same snapshot write key 1; one commits, one is refused. -/
def exTwo : List (Txn.Op Nat Nat) :=
  ingest' 0 [11, 21] ++ begin' 1 ++ begin' 2 ++ [.upsert 1 12, .delete 1 2, .upsert 2 13, .commit 1, .commit 2] ++
  go 1 2 ++ go 2 3 ++ go 1 20 ++ go 2 20

/-- The hypotheses of `no_lost_updates_partial` hold; both went for the lock of key 1. -/
example : (exR exTwo).ok = true ∧ (exR exTwo).done.map (fun w => (w.snap, w.began, w.ts, w.ups, w.dels)) =
    [(none, 0, 0, some [11, 21], none), (some 0, 1, 1, some [12], some [2])] ∧
    Along exE (fun s o => OpensQuietly s o ∧ KeepsMemory o) (Sys.new exE 4 0) exTwo := by
  refine ⟨by decide +kernel, by decide +kernel, ?_⟩
  have h := quietAlong_along (e := exE) (n := 3) (ops := exTwo) (s := Sys.new exE 4 0) (fun _ _ => rfl) (by decide +kernel)
  intro a o b hab
  refine ⟨h a o b hab, ?_⟩
  have hm : o ∈ exTwo := by rw [hab]; simp
  cases o with
  | lsm o => simp [exTwo, ingest', begin', go] at hm
  | _ => trivial

/-- While thread 1 holds the lock of key 1, thread 2 waits and thread 1 does not. -/
example : WaitsFor (exR (exTwo.take 24)) 2 1 ∧ Busy ((exR (exTwo.take 24)).procs 1) := by
  have h : (exR (exTwo.take 24)).locks 1 = some 1 := by decide +kernel
  refine ⟨⟨⟨⟨0, none⟩, [(1, .up 13)], 1⟩, [], rfl, ?_⟩, trivial⟩
  rw [h]
  simp

def isIdle : Proc Nat Nat → Bool
  | .idle => true
  | _ => false

theorem isIdle_iff {q : Proc Nat Nat} : isIdle q = true ↔ q = .idle := by cases q <;> simp [isIdle]

/-- Thread 2 is refused; without it the others reach the same state. -/
example : (exR exTwo).procs 2 = .idle ∧ (∀ pre, pre <+: exTwo → inFlight ((exR pre).procs 2) = none) ∧
    (exR (exTwo.take 22)).procs 2 = .locking ⟨⟨0, none⟩, [(1, .up 13)], 1⟩ [1] := by
  refine ⟨isIdle_iff.1 (by decide +kernel), ?_, rfl⟩
  have h : ∀ n ∈ List.range (exTwo.length + 1), (inFlight ((exR (exTwo.take n)).procs 2)).isNone = true := by decide +kernel
  intro pre hpre
  rw [List.prefix_iff_eq_take.1 hpre]
  exact Option.isNone_iff_eq_none.1 (h _ (List.mem_range.2 (by have := hpre.length_le; omega)))

/-- The hypotheses of `a_conflict_is_a_newer_write_partial`: the second transaction is checking when it is refused. -/
example : ∃ n t todo, (exR (exTwo.take n)).procs 2 = .checking t todo ∧
    (exR (exTwo.take n ++ [.advance 2])).procs 2 = .idle := by
  refine ⟨47, ⟨⟨0, none⟩, [(1, .up 13)], 1⟩, [1], rfl, isIdle_iff.1 (by decide +kernel)⟩

/-- Two transactions one after the other on the same key: the snapshot of the second covers the first. -/
def exSeq : List (Txn.Op Nat Nat) :=
  ingest' 0 [11] ++ begin' 1 ++ [.upsert 1 12] ++ commit' 1 ++ begin' 2 ++ [.upsert 2 13] ++ commit' 2

/-- The hypotheses of `commits_see_earlier_commits_partial`. -/
example : (exR exSeq).ok = true ∧ (exR exSeq).done.map (fun w => (w.snap, w.ts, w.ups)) =
      [(none, 0, some [11]), (some 0, 1, some [12]), (some 1, 2, some [13])] ∧ (exR exSeq).clock ≤ Mem.tsMax + 1 ∧
    Along exE (fun _ o => KeepsMemory o) (Sys.new exE 4 0) exSeq := by
  refine ⟨by decide +kernel, by decide +kernel, by decide +kernel, ?_⟩
  intro a o b hab
  have hm : o ∈ exSeq := by rw [hab]; simp
  cases o with
  | lsm o => simp [exSeq, ingest', begin', go, commit'] at hm
  | _ => trivial

/-- Two transactions that hold their locks at the same time: they write the keys 1 and 3. -/
def exBoth : List (Txn.Op Nat Nat) :=
  ingest' 0 [11, 31] ++ begin' 1 ++ begin' 2 ++ [.upsert 1 12, .upsert 2 33, .commit 1, .commit 2] ++ go 1 4 ++ go 2 4

/-- The first hypotheses of `lock_holders_differ`, with two threads; their keys differ. -/
example : (inFlight ((exR exBoth).procs 1)).map (fun w => (w.snap, w.ups)) = some (some 0, some [12]) ∧
    (inFlight ((exR exBoth).procs 2)).map (fun w => (w.snap, w.ups)) = some (some 0, some [33]) := by
  refine ⟨by decide +kernel, by decide +kernel⟩

/-- Both transactions begin before the other commits, and a flush comes between the commits. -/
def exFlush : List (Txn.Op Nat Nat) :=
  ingest' 0 [11] ++ begin' 1 ++ begin' 2 ++ [.upsert 1 12, .upsert 2 13] ++ commit' 1 ++ flush' ++ commit' 2

/-- **C21 is false** when a flush comes between: the conflict check looks at memory only
(transaction/mod.rs:588-594, db/wal.rs:180-189), so once the first commit is in an SSTable the second goes
through. -/
theorem flush_hides_a_conflict : ∃ ops : List (Txn.Op Nat Nat), (exR ops).ok = true ∧
    Along exE OpensQuietly (Sys.new exE 4 0) ops ∧ LostUpdate exExt (exR ops) := by
  refine ⟨exFlush, by decide +kernel, quietAlong_along (n := 3) (fun _ _ => rfl) (by decide +kernel),
    1, 2, ⟨some 0, 1, 1, some [12], none, [1]⟩, ⟨some 0, 1, 2, some [13], none, [1]⟩, 1, by decide +kernel,
    by decide +kernel, by decide, rfl, rfl, ⟨⟨1, 1, .put 12⟩, by decide, rfl⟩, ⟨⟨1, 2, .put 13⟩, by decide, rfl⟩, by decide⟩

/-- The second snapshot is opened when the first transaction has its timestamp and has not applied it. -/
def exRace : List (Txn.Op Nat Nat) :=
  ingest' 0 [11] ++ begin' 1 ++ [.upsert 1 12, .commit 1] ++ go 1 4 ++ begin' 2 ++ [.upsert 2 13] ++ go 1 20 ++ commit' 2

/-- **C21 is false** when a snapshot is opened during a commit: the commit timestamp is given out before the
rows are written (transaction/mod.rs:596, 657), and the new snapshot already covers it. Both transactions
return `Ok`; the second never saw the value it overwrites. -/
theorem snapshot_during_commit_hides_a_conflict : ∃ ops : List (Txn.Op Nat Nat), (exR ops).ok = true ∧
    Along exE (fun _ o => KeepsMemory o) (Sys.new exE 4 0) ops ∧ LostUpdate exExt (exR ops) := by
  refine ⟨exRace, by decide +kernel, ?_,
    1, 2, ⟨some 0, 1, 1, some [12], none, [1]⟩, ⟨some 1, 1, 2, some [13], none, [1]⟩, 1, by decide +kernel,
    by decide +kernel, by decide, rfl, rfl, ⟨⟨1, 1, .put 12⟩, by decide, rfl⟩, ⟨⟨1, 2, .put 13⟩, by decide, rfl⟩, by decide⟩
  intro a o b hab
  have hm : o ∈ exRace := by rw [hab]; simp
  cases o with
  | lsm o => simp [exRace, ingest', begin', go, commit'] at hm
  | _ => trivial

/-- Two transactions on a new database. -/
def exNew : List (Txn.Op Nat Nat) := begin' 1 ++ begin' 2 ++ [.upsert 1 12, .upsert 2 13] ++ commit' 1 ++ commit' 2

/-- **C21 is false** for the first commit of a new database: the clock starts at 0 and the read timestamp is
the clock less one, but not below 0 (db/mod.rs:826), so a snapshot of the empty database covers the first
commit timestamp. -/
theorem first_commit_is_no_conflict : ∃ ops : List (Txn.Op Nat Nat), (exR ops).ok = true ∧
    Along exE (fun s o => (∀ p, o = .openTxn p → Quiet s) ∧ KeepsMemory o) (Sys.new exE 4 0) ops ∧
    LostUpdate exExt (exR ops) := by
  refine ⟨exNew, by decide +kernel, ?_,
    0, 1, ⟨some 0, 0, 0, some [12], none, [1]⟩, ⟨some 0, 0, 1, some [13], none, [1]⟩, 1, by decide +kernel,
    by decide +kernel, by decide, rfl, rfl, ⟨⟨1, 0, .put 12⟩, by decide, rfl⟩, ⟨⟨1, 1, .put 13⟩, by decide, rfl⟩, by decide⟩
  intro a o b hab
  constructor
  · rintro p rfl
    have h : ∀ n ∈ List.range (exNew.length + 1), (match exNew[n]? with
        | some (.openTxn _) => (List.range 3).all (fun q => (inFlight ((exR (exNew.take n)).procs q)).isNone)
        | _ => true) = true := by decide +kernel
    have hn : exNew[a.length]? = some (.openTxn p) := by rw [hab]; simp
    have ha : exNew.take a.length = a := by rw [hab]; simp
    have := h a.length (List.mem_range.2 (by rw [hab]; simp only [List.length_append, List.length_cons]; omega))
    rw [hn, ha] at this
    simp only [List.all_eq_true, List.mem_range] at this
    intro q
    by_cases hq : q < 3
    · exact Option.isNone_iff_eq_none.1 (this q hq)
    · have hf : Finite (exR a) 3 := by
        have hb : ∀ o ∈ exNew, below 3 o = true := by decide
        have hb' : ∀ o ∈ a, below 3 o = true := fun o ho => hb o (by rw [hab]; exact List.mem_append_left _ ho)
        clear hab hn ha this
        have : ∀ (l : List (Txn.Op Nat Nat)) (s : Sys Nat Nat), Finite s 3 → (∀ o ∈ l, below 3 o = true) →
            Finite (Txn.run exE s l) 3 := by
          intro l
          induction l with
          | nil => intro s hs _; exact hs
          | cons o l ih =>
            intro s hs hl
            exact ih _ (finite_step hs (hl o List.mem_cons_self)) (fun o' ho' => hl o' (List.mem_cons_of_mem _ ho'))
        exact this a _ (fun _ _ => rfl) hb'
      show inFlight ((exR a).procs q) = none
      rw [hf q (by omega)]
      rfl
  · have hm : o ∈ exNew := by rw [hab]; simp
    cases o with
    | lsm o => simp [exNew, begin', go, commit'] at hm
    | _ => trivial

end Example
end Tonbo.Props.C21
