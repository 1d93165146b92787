import Verif.Lemmas.LsmFailWrites
import Verif.Props.C73_Failures
import Verif.Props.C74_TxnQueries
import Verif.Props.C04_Failures

/-!
# C54, C68, C73, C74: histories in which writes fail too

`ops` is any history of `Model/LsmFail.lean`. Writes of it may be refused, for a null key for instance; what counts are
the writes that returned `Ok` (`Spec/FailedWrites.lean`).
-/

set_option linter.unusedSectionVars false

namespace Tonbo.Props.C73
open Tonbo.Model Tonbo.Model.Manifest Tonbo.Model.Lsm Tonbo.Model.Pred Tonbo.Model.Plan Tonbo.Model.Keys
open Tonbo.Spec Tonbo.Lemmas.Lsm Tonbo.Lemmas.Manifest Tonbo.Lemmas.Plan Tonbo.Lemmas.LsmFail
open Tonbo.Lemmas.PredEval (leafCol)
open Tonbo.Props.C07 (DeletesCovered)
open Tonbo.Model.Txn (Stage)

section
variable {K R : Type} [LinearOrder K]

/-- What the acknowledged writes of a history wrote. -/
def ackLog (ext : R → Option K) (x : Exec K R) (cap t sv : Nat) (ops : List (LsmFail.Op K R)) : List (Ver K R) :=
  logOfF ext (acknowledged ext x t (Db.new cap t sv) ops)

/-- If no write fails, all of them count. -/
theorem ackLog_all (ext : R → Option K) (x : Exec K R) (cap t sv : Nat) (ops : List (LsmFail.Op K R))
    (h : (LsmFail.run ext x t (Db.new cap t sv) ops).1 = true) :
    ackLog ext x cap t sv ops = logOfF ext ops ∧ FailsWithRoom ext x t (Db.new cap t sv) ops := by
  obtain ⟨h1, h2⟩ := kept_all h
  exact ⟨by unfold ackLog; rw [h1], h2⟩

/-- **C54, C68 (partial).** After any history of writes, flushes and compactions, each of which may fail, a scan at a
timestamp not before the newest acknowledged write returns exactly the rows visible in what the acknowledged writes
wrote: those that failed left no trace.

Missing: writes that fail while the slots of the memory table are used up (false,
`C04.failing_on_a_full_table_loses_it`), and what C68 misses. -/
theorem reads_see_acknowledged_writes_partial (ext : R → Option K) (x : Exec K R) (hn : 0 < x.readRows)
    (cap t sv : Nat) (ops : List (LsmFail.Op K R)) (hh : JobsHeard ops) (hr : NoRestartF ops)
    (hroom : FailsWithRoom ext x t (Db.new cap t sv) ops) (hf : Functional (· ∈ ackLog ext x cap t sv ops))
    (hfit : ∀ l e, EverListed (reachedF ext x cap t sv ops) t l e →
      ∀ f, (reachedF ext x cap t sv ops).files ⟨l, e.id⟩ = some f → Fits x.readRows f)
    (rts : Nat) (hts : ∀ w ∈ ackLog ext x cap t sv ops, w.ts ≤ rts) :
    ∃ out, scanAll t (reachedF ext x cap t sv ops) rts = some out ∧
      IsScan (· ∈ ackLog ext x cap t sv ops) rts (rowsOf out) := by
  obtain ⟨n, logs, cur, h, hc⟩ := run_cont_kept (exact := False) hn ops (cont_new ext cap t sv False)
    (inv_new ext x cap t sv) (by simpa [ackLog] using hf) (fun _ l e he => hfit l e (everListed_iff.2 he)) (C68.heard_all hh)
    (C68.noRestart_all hr) (fun h => h.elim) hroom
  rw [List.nil_append] at hc
  change Cont ext t n _ (ackLog ext x cap t sv ops) False logs cur at hc
  obtain ⟨out, o1, o2⟩ := C54.scan_of_state h hc hf rts
  refine ⟨out, o1, o2.1, fun k v => (o2.2 k v).trans ?_⟩
  obtain ⟨c1, c2⟩ := C54.content (x := x) hc
  constructor
  · rintro ⟨ts, hw, hle, hmax⟩
    refine ⟨ts, c1 _ hw, hle, fun u hu hk hut => ?_⟩
    obtain ⟨u', hu', k1, k2, _⟩ := c2 u hu
    exact Nat.le_trans k2 (hmax u' hu' (k1.trans hk) (hts _ (c1 _ hu')))
  · rintro ⟨ts, hw, hle, hmax⟩
    obtain ⟨u, hu, k1, k2, _⟩ := c2 _ hw
    have h1 := hmax u (c1 u hu) k1 (hts _ (c1 u hu))
    have hts' : u.ts = ts := Nat.le_antisymm h1 k2
    have hop : u.op = .put v := hf u ⟨k, ts, .put v⟩ (c1 u hu) hw k1 hts'
    obtain ⟨uk, ut, uo⟩ := u
    simp only at k1 hts' hop
    subst k1
    subst hts'
    subst hop
    exact ⟨_, hu, hle, fun u hu hk hut => hmax u (c1 u hu) hk hut⟩

/-- **C54, C68 (partial)**, without compactions that end: at every timestamp. -/
theorem reads_of_acknowledged_writes_at_every_timestamp_partial (ext : R → Option K) (x : Exec K R) (hn : 0 < x.readRows)
    (cap t sv : Nat) (ops : List (LsmFail.Op K R)) (hr : NoRestartF ops) (hcomp : NoCompactionF ops)
    (hroom : FailsWithRoom ext x t (Db.new cap t sv) ops) (hf : Functional (· ∈ ackLog ext x cap t sv ops)) (rts : Nat) :
    ∃ out, scanAll t (reachedF ext x cap t sv ops) rts = some out ∧
      IsScan (· ∈ ackLog ext x cap t sv ops) rts (rowsOf out) := by
  have hh : JobsHeard ops := fun i keep g => (hcomp i).2 _ _ _
  obtain ⟨n, logs, cur, h, hc⟩ := run_cont_kept (exact := True) hn ops (cont_new ext cap t sv True) (inv_new ext x cap t sv)
    (by simpa [ackLog] using hf) (fun h => absurd trivial h) (C68.heard_all hh) (C68.noRestart_all hr)
    (fun _ => C68.noCompaction_all hcomp) hroom
  rw [List.nil_append] at hc
  change Cont ext t n _ (ackLog ext x cap t sv ops) True logs cur at hc
  obtain ⟨out, o1, o2⟩ := C54.scan_of_state h hc hf rts
  obtain ⟨c1, c2⟩ := C54.content (x := x) hc
  have : (fun w => w ∈ logs.flatten ∨ w ∈ cur ∨ OnDisk t n (LsmFail.run ext x t (Db.new cap t sv) ops).2 w) =
      (· ∈ ackLog ext x cap t sv ops) := by
    funext w
    apply propext
    constructor
    · exact c1 w
    · intro hw
      obtain ⟨u, hu, _, _, he⟩ := c2 w hw
      rwa [he trivial] at hu
  rw [this] at o2
  exact ⟨out, o1, o2⟩

end

variable {K : Type} [LinearOrder K]

theorem run_rowsA {P : Row → Prop} {ext : Row → Option K} {x : Exec K Row} {t : Nat} :
    ∀ (ops : List (LsmFail.Op K Row)) (s : Db K Row),
    ((∀ a ∈ s.runs.mem.batches, ∀ r ∈ a.rows, P r) ∧ ∀ m ∈ s.runs.runs, ∀ r ∈ m.rows, P r) →
    (∀ rows, LsmFail.Op.fine (.write (.put rows)) ∈ ops → ∀ q ∈ rows, P q.1) → (∀ o ∈ ops, isRestart o = false) →
    (∀ a ∈ (LsmFail.run ext x t s ops).2.runs.mem.batches, ∀ r ∈ a.rows, P r) ∧
      ∀ m ∈ (LsmFail.run ext x t s ops).2.runs.runs, ∀ r ∈ m.rows, P r
  | [], _, h, _, _ => h
  | o :: os, s, h, hw, hre => by
    unfold LsmFail.run
    refine run_rowsA os _ ?_ (fun rows hr => hw rows (List.mem_cons_of_mem _ hr))
      (fun o ho => hre o (List.mem_cons_of_mem _ ho))
    cases hb : (LsmFail.step ext x t s o).1 with
    | true =>
      refine run_rowsF (ext := ext) (x := x) (t := t) [o] s h ?_ ?_ ?_
      · intro rows hr
        rw [List.mem_singleton] at hr
        exact hw rows (by rw [hr]; exact List.mem_cons_self)
      · intro o' ho
        rw [List.mem_singleton.1 ho]
        exact hre _ List.mem_cons_self
      · change ((LsmFail.step ext x t s o).1 && true) = true
        rw [hb]
        rfl
    | false =>
      obtain ⟨op, rfl⟩ := fails_write hb
      obtain ⟨h1, h2⟩ := failed_batches (r := s.runs) (op := op) (ext := ext) hb
      change (∀ a ∈ (s.runs.call ext op).2.mem.batches, _) ∧ ∀ m ∈ (s.runs.call ext op).2.runs, _
      rw [h1]
      refine ⟨fun a ha r hr => ?_, h.2⟩
      rcases h2 a ha with ha | ⟨rows, rfl, he⟩
      · exact h.1 a ha r hr
      · rw [he] at hr
        obtain ⟨q, hq, rfl⟩ := List.mem_map.1 hr
        exact hw rows List.mem_cons_self q hq

/-- **C73, C68 (partial).** After any history of writes, flushes and compactions, each of which may fail, a query at a
timestamp not before the newest acknowledged write returns exactly the columns asked for of the rows visible in what the
acknowledged writes wrote that satisfy the predicate, if rows of a key do not cease to satisfy it or the predicate is
about key columns only.

Missing: writes that fail while the slots of the memory table are used up (false,
`a_refused_write_empties_the_answer`), and what `query_despite_failures_partial` misses. -/
theorem query_whatever_fails_partial (ext : Row → Option K) (x : Exec K Row) (hn : 0 < x.readRows)
    (cap t sv : Nat) (ops : List (LsmFail.Op K Row)) (hh : JobsHeard ops) (hr : NoRestartF ops)
    (hroom : FailsWithRoom ext x t (Db.new cap t sv) ops)
    (hfit : ∀ l e, EverListed (reachedF ext x cap t sv ops) t l e →
      ∀ f, (reachedF ext x cap t sv ops).files ⟨l, e.id⟩ = some f → Fits x.readRows f)
    (y : Plan.Ext K) (c : Codec K) (base keys : Schema) (p : Expr) (proj : Schema)
    (hw : WritesOkF c base keys p ext (acknowledged ext x t (Db.new cap t sv) ops))
    (hwhole : ∀ rows, LsmFail.Op.fine (.write (.put rows)) ∈ ops → ∀ q ∈ rows, q.1.length = base.length)
    (hq : QueryOk y c base keys p proj)
    (rts : Nat) (hts : ∀ w ∈ ackLog ext x cap t sv ops, w.ts ≤ rts)
    (hsel : PrunesSoundly y base t (reachedF ext x cap t sv ops) p rts)
    (hlast : Lasting base (ackLog ext x cap t sv ops) p ∨ ∀ e ∈ leaves p, leafCol e ∈ keys.map (·.1))
    (batchSize : Nat) (hb : 0 < batchSize) (limit : Option Nat) :
    Answers (ackLog ext x cap t sv ops) base p rts proj batchSize limit
      (query y c base keys t (reachedF ext x cap t sv ops) p rts (some proj) batchSize limit) := by
  have hlast : Lasting base (ackLog ext x cap t sv ops) p := by
    rcases hlast with hl | hkey
    · exact hl
    · intro k u r h1 hm u' r' h2 _
      rw [← hm]
      exact meaning_of_key (hw.fits k u' r' h2).key (hw.fits k u r h1).key p hkey
  obtain ⟨n, logs, cur, h, hc⟩ := run_cont_kept (exact := False) hn ops (cont_new ext cap t sv False)
    (inv_new ext x cap t sv) (by simpa using hw.agree) (fun _ l e he => hfit l e (everListed_iff.2 he)) (C68.heard_all hh)
    (C68.noRestart_all hr) (fun h => h.elim) hroom
  rw [List.nil_append] at hc
  change Cont ext t n _ (ackLog ext x cap t sv ops) False logs cur at hc
  obtain ⟨bs, rows, g1, g2, g3⟩ := query_of_state h hc hw.agree y c base keys p rts hw.ts hw.fits
    (fun k u r hm => by
      obtain ⟨rows, h1, h2⟩ := put_of_logF hm
      exact hw.whole rows h1 (r, u) h2)
    (run_rowsA ops _ (new_rows cap t sv) hwhole (C68.noRestart_all hr)) hsel hq.codec hq.foreign hq.pred
    (deletesCovered_latest hc.runs fun w hm => hts w (hc.sub w (List.mem_append_left _ hm)))
    (fun k u r h1 _ h3 u' r' h4 h5 _ => hlast k u r h1 h3 u' r' h4 h5) hq.table proj hq.proj batchSize hb limit
  exact ⟨bs, rows, g1, filtered_latest x hc hw.agree hts g2, g3⟩

/-- **C74, C68 (partial).** The same inside a transaction. -/
theorem txn_query_whatever_fails_partial (ext : Row → Option K) (x : Exec K Row) (hn : 0 < x.readRows)
    (cap t sv : Nat) (ops : List (LsmFail.Op K Row)) (hh : JobsHeard ops) (hr : NoRestartF ops)
    (hroom : FailsWithRoom ext x t (Db.new cap t sv) ops)
    (hfit : ∀ l e, EverListed (reachedF ext x cap t sv ops) t l e →
      ∀ f, (reachedF ext x cap t sv ops).files ⟨l, e.id⟩ = some f → Fits x.readRows f)
    (y : Plan.Ext K) (c : Codec K) (base keys : Schema) (p : Expr) (proj : Schema)
    (hw : WritesOkF c base keys p ext (acknowledged ext x t (Db.new cap t sv) ops))
    (hwhole : ∀ rows, LsmFail.Op.fine (.write (.put rows)) ∈ ops → ∀ q ∈ rows, q.1.length = base.length)
    (hq : QueryOk y c base keys p proj)
    (muts : List (K × Stage Row)) (hm : C74.StagedOk c base keys p muts)
    (rts : Nat) (hts : ∀ w ∈ ackLog ext x cap t sv ops, w.ts ≤ rts)
    (hsel : PrunesSoundly y base t (reachedF ext x cap t sv ops) p rts)
    (hlast : C74.LastingBeside muts base (ackLog ext x cap t sv ops) p ∨ ∀ e ∈ leaves p, leafCol e ∈ keys.map (·.1))
    (batchSize : Nat) (hb : 0 < batchSize) (limit : Option Nat) :
    C74.Answers (ackLog ext x cap t sv ops) muts base p rts proj batchSize limit
      (queryTxn y c base keys t (reachedF ext x cap t sv ops) (stage muts) p rts (some proj) batchSize limit) := by
  have hlast := C74.lastingBeside_of hw.fits hlast
  obtain ⟨n, logs, cur, h, hc⟩ := run_cont_kept (exact := False) hn ops (cont_new ext cap t sv False)
    (inv_new ext x cap t sv) (by simpa using hw.agree) (fun _ l e he => hfit l e (everListed_iff.2 he)) (C68.heard_all hh)
    (C68.noRestart_all hr) (fun h => h.elim) hroom
  rw [List.nil_append] at hc
  change Cont ext t n _ (ackLog ext x cap t sv ops) False logs cur at hc
  obtain ⟨bs, rows, g1, g2, g3⟩ := queryTxn_of_state h hc hw.agree y c base keys p rts hw.ts hw.fits
    (fun k u r hm => by
      obtain ⟨rows, h1, h2⟩ := put_of_logF hm
      exact hw.whole rows h1 (r, u) h2)
    (run_rowsA ops _ (new_rows cap t sv) hwhole (C68.noRestart_all hr)) hsel hq.codec hq.foreign hq.pred
    (deletesCovered_latest hc.runs fun w hm => hts w (hc.sub w (List.mem_append_left _ hm)))
    muts (fun k r h => (hm k r h).2) (fun k r h => (hm k r h).1)
    (fun k hk u r h1 _ h3 u' r' h4 h5 _ => hlast k hk u r h1 h3 u' r' h4 h5) hq.table proj hq.proj batchSize hb limit
  exact ⟨bs, rows, g1, C74.txnScan_of g2 (C74.visible_latest x hc hw.agree hts), g3⟩

/-! ## The hypotheses are met -/
section Example
open C07 C61

def nullKey : Row := [none, some (.int .i64 5)]

/-- Two writes are refused for a null key, one of them with a good row in the batch; one flush is refused by the manifest,
one merge fails. -/
def refused : List (LsmFail.Op Int Row) :=
  [.fine (.write (.put [(exRow 1 5, 1), (exRow 2 1, 1)])), .fine (.write (.put [(exRow 9 5, 2), (nullKey, 2)])),
    .fine (.write .freeze), .fine (.flushWrite (some [⟨1, 101, 1, 1⟩])), .flushPublish .refused,
    .fine (.flushWrite (some [⟨1, 101, 1, 1⟩])), .flushPublish .told, .fine .flushDrain,
    .fine (.write (.put [(exRow 2 5, 3), (exRow 3 5, 3)])), .fine (.write (.put [(nullKey, 4)])),
    .startTorn ⟨0, 1, [⟨0, 2⟩], none⟩ none 0 0 none (fun _ => false)]

example : (LsmFail.run exId exWork 1 (Db.new 4 1 0) refused).1 = false := by decide +kernel

theorem refusedLog : ackLog exId exWork 4 1 0 refused =
    [⟨1, 1, .put (exRow 1 5)⟩, ⟨2, 1, .put (exRow 2 1)⟩, ⟨2, 3, .put (exRow 2 5)⟩, ⟨3, 3, .put (exRow 3 5)⟩] := by
  decide +kernel

theorem refused_room : FailsWithRoom exId exWork 1 (Db.new 4 1 0) refused := by
  refine ⟨?_, ?_, ?_, ?_, ?_, ?_, ?_, ?_, ?_, ?_, ?_, trivial⟩
  all_goals
    intro _ op ho
    first
    | (cases ho; done)
    | (obtain rfl := Lsm.Op.write.inj (LsmFail.Op.fine.inj ho); intro h; exact absurd h (by unfold SlotsUsedUp; decide +kernel))

/-- The conditions on the writes, all about those that were acknowledged but one. -/
example : WritesOkF exCodec exSchema exKey exPred exId (acknowledged exId exWork 1 (Db.new 4 1 0) refused) ∧
    (∀ rows, LsmFail.Op.fine (.write (.put rows)) ∈ refused → ∀ q ∈ rows, q.1.length = exSchema.length) ∧
    Lasting exSchema (ackLog exId exWork 4 1 0 refused) exPred ∧ JobsHeard refused ∧ NoRestartF refused := by
  have hrows : ∀ {k : Int} {u : Nat} {r : Row}, ⟨k, u, .put r⟩ ∈ ackLog exId exWork 4 1 0 refused →
      (k = 1 ∧ u = 1 ∧ r = exRow 1 5) ∨ (k = 2 ∧ u = 1 ∧ r = exRow 2 1) ∨ (k = 2 ∧ u = 3 ∧ r = exRow 2 5) ∨
      (k = 3 ∧ u = 3 ∧ r = exRow 3 5) := by
    intro k u r h
    rw [refusedLog] at h
    simpa using h
  have hwhole : ∀ rows, LsmFail.Op.fine (.write (.put rows)) ∈ refused → ∀ q ∈ rows, q.1.length = exSchema.length := by
    intro rows hr q hq
    simp only [refused, List.mem_cons, List.not_mem_nil, or_false, reduceCtorEq, false_or, LsmFail.Op.fine.injEq,
      Lsm.Op.write.injEq, Mem.Op.put.injEq] at hr
    rcases hr with rfl | rfl | rfl | rfl <;> simp only [List.mem_cons, List.not_mem_nil, or_false] at hq <;>
      first | (rcases hq with rfl | rfl <;> rfl) | (subst hq; rfl)
  refine ⟨⟨?_, ?_, fun rows h => hwhole rows (kept_sub h), ?_⟩, hwhole, ?_, ?_, ?_⟩
  · have : ∀ w ∈ ackLog exId exWork 4 1 0 refused, w.ts < 2 ^ 64 := by rw [refusedLog]; decide
    exact this
  · have : ∀ a ∈ ackLog exId exWork 4 1 0 refused, ∀ b ∈ ackLog exId exWork 4 1 0 refused,
        a.key = b.key → a.ts = b.ts → a.op = b.op := by
      rw [refusedLog]; decide
    exact fun a b ha hb => this a ha b hb
  · intro k u r h
    rcases hrows h with h | h | h | h <;> obtain ⟨rfl, rfl, rfl⟩ := h <;> exact exRow_fits _ _ (by decide) (by decide)
  · intro k u r h hm u' r' h' hu
    rcases hrows h with h | h | h | h <;> obtain ⟨rfl, rfl, rfl⟩ := h <;>
      rcases hrows h' with h' | h' | h' | h' <;> obtain ⟨h1, rfl, rfl⟩ := h' <;>
      first | omega | rfl | (cases hm; done)
  · intro i k g h
    simp [refused] at h
  · intro cap h
    simp [refused] at h

/-- Neither key 9 nor the rows without a key are there. -/
example :
    query C07.exExt exCodec exSchema exKey 1 (failDb refused) .tt 9 (some exSchema) 10 none =
      some (.ok (some ([[exRow 1 5, exRow 2 5, exRow 3 5]], none))) ∧
    query C07.exExt exCodec exSchema exKey 1 (failDb refused) exPred 9 (some exSchema) 10 none =
      some (.ok (some ([[exRow 2 5, exRow 3 5]], none))) ∧
    queryTxn C07.exExt exCodec exSchema exKey 1 (failDb refused) (stage C74.exMuts) exPred 9 (some exSchema) 10 none =
      some (.ok (some ([[exRow 3 5, exRow 6 5]], none))) := by
  refine ⟨?_, ?_, ?_⟩ <;> decide +kernel

/-! ## Where it does not hold -/

/-- **C73 refuted** when the slots are used up: the refused batch takes the row of key 1 with it. -/
theorem a_refused_write_empties_the_answer :
    let good : List (LsmFail.Op Int Row) := [.fine (.write (.put [(exRow 1 5, 1)]))]
    let bad : List (LsmFail.Op Int Row) := [.fine (.write (.put [(nullKey, 2)]))]
    ackLog exId exWork 1 1 0 (good ++ bad) = [⟨1, 1, .put (exRow 1 5)⟩] ∧
    query C07.exExt exCodec exSchema exKey 1 (reachedF exId exWork 1 1 0 good) .tt 9 (some exSchema) 10 none =
      some (.ok (some ([[exRow 1 5]], none))) ∧
    query C07.exExt exCodec exSchema exKey 1 (reachedF exId exWork 1 1 0 (good ++ bad)) .tt 9 (some exSchema) 10 none =
      some (.ok (some ([], none))) := by
  refine ⟨?_, ?_, ?_⟩ <;> decide +kernel

end Example

end Tonbo.Props.C73
