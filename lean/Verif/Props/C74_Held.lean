import Verif.Lemmas.LsmSnapQuery
import Verif.Props.C74_TxnQueries

/-!
# C74, C19: queries through a snapshot that is held

The snapshot is opened after the history `ops`; then the history goes on by `more`: writes of others, freezes, flushes
and compactions step by step. `muts` is what the transaction that holds the snapshot staged, if it is one.
-/

set_option linter.unusedSectionVars false

namespace Tonbo.Props.C74
open Tonbo.Model Tonbo.Model.Manifest Tonbo.Model.Lsm Tonbo.Model.Pred Tonbo.Model.Plan Tonbo.Model.Keys
open Tonbo.Spec Tonbo.Lemmas.Lsm Tonbo.Lemmas.Manifest Tonbo.Lemmas.Plan
open Tonbo.Lemmas.PredEval (leafCol)
open Tonbo.Props.C54 (NoRestart)
open Tonbo.Props.C07 (DeletesCovered)
open Tonbo.Props.C73 (WritesOk QueryOk new_rows)
open Tonbo.Model.Txn (Stage)

variable {K : Type} [LinearOrder K]

/-- The selection of row groups and pages in the tables of the snapshot omits no visible row that satisfies the
predicate. -/
def PrunesSoundlyAt (y : Plan.Ext K) (base : Schema) (snap : Snap K) (s : Db K Row) (p : Expr) : Prop :=
  ∀ st, storeAt base snap s = some st → ∀ q ∈ st.levels.flatten,
    SelectsMatches base p snap.rts q.file.data (y.select p snap.rts q)

/-- **C19.** A snapshot can be opened after every history. -/
theorem snapshot_opens (ext : Row → Option K) (x : Exec K Row) (hn : 0 < x.readRows) (cap t sv : Nat)
    (ops : List (Lsm.Op K Row)) (rts : Nat) : ∃ snap, openSnap t (reached ext x cap t sv ops) rts = some snap := by
  obtain ⟨n, h⟩ := C38.reached_inv ext x hn cap t sv ops
  exact openSnap_some h rts

/-- **C74, C19, C23 (partial).** A snapshot is opened after any history of successful writes, flushes and compactions, at a
timestamp not before its newest write. Whatever is written afterwards at later timestamps, frozen, written to tables,
published and merged: a query through the snapshot, with whatever is staged, returns exactly the columns asked for of the
rows that satisfy the predicate, of what was staged and what had been written when the snapshot was opened.

Missing: flushes that take runs out of memory while the snapshot is held (false, `drain_hides_rows_from_a_snapshot`),
runs with a visible deletion and only newer rows (false, C12), rows that cease to satisfy the predicate (false, C73),
restarts. -/
theorem held_snapshot_query_partial (ext : Row → Option K) (x : Exec K Row) (hn : 0 < x.readRows)
    (cap t sv : Nat) (ops more : List (Lsm.Op K Row)) (hr : NoRestart (ops ++ more)) (hdrain : Lsm.Op.flushDrain ∉ more)
    (hok : (Lsm.run ext x t (Db.new cap t sv) (ops ++ more)).1 = true)
    (hfit : ∀ l e, EverListed (reached ext x cap t sv ops) t l e →
      ∀ f, (reached ext x cap t sv ops).files ⟨l, e.id⟩ = some f → Fits x.readRows f)
    (y : Plan.Ext K) (c : Codec K) (base keys : Schema) (p : Expr) (proj : Schema)
    (hw : WritesOk c base keys p ext (ops ++ more)) (hq : QueryOk y c base keys p proj)
    (muts : List (K × Stage Row)) (hm : StagedOk c base keys p muts)
    (rts : Nat) (hts : ∀ w ∈ logOf ext ops, w.ts ≤ rts) (hlater : ∀ w ∈ logOf ext more, rts < w.ts)
    (snap : Snap K) (hsnap : openSnap t (reached ext x cap t sv ops) rts = some snap)
    (hdel : DeletesCovered rts (reached ext x cap t sv (ops ++ more)).runs.runs)
    (hsel : PrunesSoundlyAt y base snap (reached ext x cap t sv (ops ++ more)) p)
    (hlast : LastingBeside muts base (logOf ext ops) p ∨ ∀ e ∈ leaves p, leafCol e ∈ keys.map (·.1))
    (batchSize : Nat) (hb : 0 < batchSize) (limit : Option Nat) :
    Answers (logOf ext ops) muts base p rts proj batchSize limit
      (querySnap y c base keys snap (reached ext x cap t sv (ops ++ more)) (stage muts) p (some proj) batchSize limit) := by
  have hlog : logOf ext (ops ++ more) = logOf ext ops ++ logOf ext more := by
    unfold logOf
    rw [List.flatMap_append]
  have hin : ∀ w ∈ logOf ext ops, w ∈ logOf ext (ops ++ more) := fun w h => by rw [hlog]; exact List.mem_append_left _ h
  have hagree : Functional (· ∈ logOf ext ops) := fun a b ha hb => hw.agree a b (hin a ha) (hin b hb)
  have hlast := lastingBeside_of (fun k u r h => hw.fits k u r (hin _ h)) hlast
  have hok0 := ok_prefix ext x t ops more _ hok
  obtain ⟨n, logs, cur, h, hc⟩ := cont_run (exact := False) hn ops (cont_new ext cap t sv False) (inv_new ext x cap t sv)
    (by simpa using hagree) (fun _ l e he => hfit l e (everListed_iff.2 he))
    (C54.noRestart fun c h => hr c (List.mem_append_left _ h)) (fun h => h.elim) hok0
  rw [List.nil_append] at hc
  -- what memory holds now
  have hrun : ∀ (a b : List (Lsm.Op K Row)) (s : Db K Row), (Lsm.run ext x t s (a ++ b)).1 = true →
      (Lsm.run ext x t (Lsm.run ext x t s a).2 b).1 = true := by
    intro a
    induction a with
    | nil => exact fun b s h => h
    | cons o a ih =>
      intro b s h
      rw [List.cons_append] at h
      unfold Lsm.run at h
      simp only [Bool.and_eq_true] at h
      exact ih b _ h.2
  obtain ⟨logs', cur', ⟨hr1, hr2⟩, hmem⟩ := Lemmas.Txn.memLog_run (table := t) more (s := reached ext x cap t sv ops)
    ⟨hc.runs, hc.mem⟩
    (by
      intro o ho
      cases o with
      | flushDrain => exact absurd ho hdrain
      | reopen cap => exact absurd (List.mem_append_right _ ho) (hr cap)
      | _ => rfl)
    (hrun ops more _ hok)
  have hs1 : (Lsm.run ext x t (reached ext x cap t sv ops) more).2 = reached ext x cap t sv (ops ++ more) := by
    unfold reached
    rw [run_append]
  rw [hs1] at hr1 hr2
  have hmem' : ∀ w, w ∈ logs'.flatten ++ cur' ↔ (w ∈ logs.flatten ++ cur ∨ w ∈ logOf ext more) := by
    intro w
    rw [hmem, List.mem_append]
  -- the tables are those of the snapshot
  obtain ⟨levels, hst, hlv, hall⟩ := storeOf_ok base h
  have hstore : storeAt base snap (reached ext x cap t sv (ops ++ more)) =
      some ⟨(reached ext x cap t sv (ops ++ more)).runs.mem, (reached ext x cap t sv (ops ++ more)).runs.runs, levels⟩ := by
    refine storeAt_eq base h hsnap (fun l e he => ?_) hst
    obtain ⟨_, f, f1, f2⟩ := C41.published_files_never_change ext x hn cap t sv ops more l e (everListed_iff.2 he)
    exact f2.trans f1.symm
  have hfilec : ∀ q ∈ levels.flatten, ∀ w, Spec.Holds q.file w → w ∈ logOf ext ops ∧
      OnDisk t n (Lsm.run ext x t (Db.new cap t sv) ops).2 w := by
    intro q hq w hw
    obtain ⟨_, _, _, v, l, e, a1, a2, a3⟩ := hlv q hq
    exact ⟨hc.listed l e ⟨n, v, a1, a2⟩ _ a3 w hw, v, l, e, _, a1, a2, a3, hw⟩
  have hrts := openSnap_rts hsnap
  have hsel' := hsel _ hstore
  rw [hrts] at hsel'
  have hl := reads_parts hr1 hr2
    (fun w hw => by
      rw [hlog]
      rcases (hmem' w).1 hw with hw | hw
      · exact List.mem_append_left _ (hc.sub w hw)
      · exact List.mem_append_right _ hw)
    hw.agree y c base keys p rts
    (fun q hq => ⟨(hlv q hq).1, (hlv q hq).2.1, (hlv q hq).2.2.1, fun w hw => hin w (hfilec q hq w hw).1⟩)
    hw.ts hw.fits
    (fun k u r hm => by
      obtain ⟨rows, h1, h2⟩ := put_of_log hm
      exact hw.whole rows h1 (r, u) h2)
    (run_rows (ops ++ more) _ (new_rows cap t sv) hw.whole (C54.noRestart hr) hok) hsel' hq.codec hq.foreign hq.pred hdel
  obtain ⟨bs, rows, g1, g2, g3⟩ := scan_of_reads hw.agree hl muts (fun k r h => (hm k r h).2) (fun k r h => (hm k r h).1)
    (fun k hk u r h1 h2 h3 u' r' h4 h5 h6 => by
      have hold : ∀ w ∈ logOf ext (ops ++ more), w.ts ≤ rts → w ∈ logOf ext ops := by
        intro w hw hle
        rw [hlog] at hw
        rcases List.mem_append.1 hw with hw | hw
        · exact hw
        · exact absurd (hlater w hw) (Nat.not_lt.2 hle)
      exact hlast k hk u r (hold _ h1 h2) h3 u' r' (hold _ h4 h6) h5)
    hq.table proj hq.proj batchSize hb limit
  refine ⟨bs, rows, ?_, txnScan_of g2 fun k r => ?_, g3⟩
  · unfold querySnap
    rw [hstore, Option.map_some, hrts]
    exact congrArg some g1
  · refine Iff.trans ?_ (visible_latest x hc hagree hts k r)
    refine Lemmas.Plan.visible_congr fun w _ hle => ?_
    have hw' := hmem' w
    simp only [List.mem_append] at hw'
    constructor
    · rintro (hw | hw | ⟨q, hq, hw⟩)
      · rcases hw'.1 (.inl hw) with (hw | hw) | hw
        · exact .inl hw
        · exact .inr (.inl hw)
        · exact absurd (hlater w hw) (Nat.not_lt.2 hle)
      · rcases hw'.1 (.inr hw) with (hw | hw) | hw
        · exact .inl hw
        · exact .inr (.inl hw)
        · exact absurd (hlater w hw) (Nat.not_lt.2 hle)
      · exact .inr (.inr (hfilec q hq w hw).2)
    · rintro (hw | hw | ⟨v, l, e, f, a1, a2, a3, hw⟩)
      · rcases hw'.2 (.inl (.inl hw)) with hw | hw
        · exact .inl hw
        · exact .inr (.inl hw)
      · rcases hw'.2 (.inl (.inr hw)) with hw | hw
        · exact .inl hw
        · exact .inr (.inl hw)
      · obtain ⟨q, hq, rfl⟩ := hall v l e f a1 a2 a3
        exact .inr (.inr ⟨q, hq, hw⟩)

/-- **C19, C74 (partial).** Reads through a snapshot are repeatable: what it returns now is what it returned when it was
opened, row by row. -/
theorem repeatable_query_partial (ext : Row → Option K) (x : Exec K Row) (hn : 0 < x.readRows)
    (cap t sv : Nat) (ops more : List (Lsm.Op K Row)) (hr : NoRestart (ops ++ more)) (hdrain : Lsm.Op.flushDrain ∉ more)
    (hok : (Lsm.run ext x t (Db.new cap t sv) (ops ++ more)).1 = true)
    (hfit : ∀ l e, EverListed (reached ext x cap t sv ops) t l e →
      ∀ f, (reached ext x cap t sv ops).files ⟨l, e.id⟩ = some f → Fits x.readRows f)
    (y : Plan.Ext K) (c : Codec K) (base keys : Schema) (p : Expr) (proj : Schema)
    (hw : WritesOk c base keys p ext (ops ++ more)) (hq : QueryOk y c base keys p proj)
    (muts : List (K × Stage Row)) (hm : StagedOk c base keys p muts)
    (rts : Nat) (hts : ∀ w ∈ logOf ext ops, w.ts ≤ rts) (hlater : ∀ w ∈ logOf ext more, rts < w.ts)
    (snap : Snap K) (hsnap : openSnap t (reached ext x cap t sv ops) rts = some snap)
    (hdel0 : DeletesCovered rts (reached ext x cap t sv ops).runs.runs)
    (hdel : DeletesCovered rts (reached ext x cap t sv (ops ++ more)).runs.runs)
    (hsel0 : PrunesSoundlyAt y base snap (reached ext x cap t sv ops) p)
    (hsel : PrunesSoundlyAt y base snap (reached ext x cap t sv (ops ++ more)) p)
    (hlast : LastingBeside muts base (logOf ext ops) p ∨ ∀ e ∈ leaves p, leafCol e ∈ keys.map (·.1))
    (batchSize : Nat) (hb : 0 < batchSize) (limit : Option Nat) :
    ∃ bs bs' : List (List Row),
      querySnap y c base keys snap (reached ext x cap t sv ops) (stage muts) p (some proj) batchSize limit =
        some (.ok (some (bs, none))) ∧
      querySnap y c base keys snap (reached ext x cap t sv (ops ++ more)) (stage muts) p (some proj) batchSize limit =
        some (.ok (some (bs', none))) ∧ bs'.flatten = bs.flatten := by
  have hlog : logOf ext (ops ++ more) = logOf ext ops ++ logOf ext more := by
    unfold logOf
    rw [List.flatMap_append]
  have hin : ∀ w ∈ logOf ext ops, w ∈ logOf ext (ops ++ more) := fun w h => by rw [hlog]; exact List.mem_append_left _ h
  obtain ⟨bs, rows, g1, g2, _, g4⟩ := held_snapshot_query_partial ext x hn cap t sv ops []
    (by rw [List.append_nil]; exact fun c h => hr c (List.mem_append_left _ h)) (by simp)
    (by rw [List.append_nil]; exact ok_prefix ext x t ops more _ hok) hfit y c base keys p proj
    (by
      rw [List.append_nil]
      exact ⟨fun w h => hw.ts w (hin w h), fun a b ha hb => hw.agree a b (hin a ha) (hin b hb),
        fun rows h => hw.whole rows (List.mem_append_left _ h), fun k u r h => hw.fits k u r (hin _ h)⟩)
    hq muts hm rts hts (by simp [logOf]) snap hsnap (by rw [List.append_nil]; exact hdel0)
    (by rw [List.append_nil]; exact hsel0) hlast batchSize hb limit
  rw [List.append_nil] at g1
  obtain ⟨bs', rows', g1', g2', _, g4'⟩ := held_snapshot_query_partial ext x hn cap t sv ops more hr hdrain hok hfit y c base
    keys p proj hw hq muts hm rts hts hlater snap hsnap hdel hsel hlast batchSize hb limit
  have : rows' = rows := SMap.sorted_ext g2'.1 g2.1 (fun q => (g2'.2 q.1 q.2).trans (g2.2 q.1 q.2).symm)
  exact ⟨bs, bs', g1, g1', by rw [g4, g4', this]⟩

/-! ## The hypotheses are met

The history of C73 again. The snapshot is opened after the two flushes; the two tables are merged, rows written, a run
frozen and keys 4 and 5 changed while it is held. -/
section Example
open C07 C61 C73

def before : List (Lsm.Op Int Row) := exHist.take 11

def since : List (Lsm.Op Int Row) := exHist.drop 11

def exSnap (ops : List (Lsm.Op Int Row)) (rts : Nat) : Snap Int := (openSnap 1 (exDb ops) rts).getD ⟨0, none⟩

theorem joined : before ++ since = exHist := List.take_append_drop 11 exHist

/-- One theorem application with every hypothesis discharged. -/
example : Answers (logOf exId before) exMuts exSchema exPred 3 exProj 10 none
    (querySnap C07.exExt exCodec exSchema exKey (exSnap before 3) (exDb exHist) (stage exMuts) exPred (some exProj) 10
      none) := by
  have hwrites : WritesOk exCodec exSchema exKey exPred exId exHist := by
    refine ⟨?_, ?_, ?_, ?_⟩
    · rw [exLog]; decide
    · have : ∀ a ∈ logOf exId exHist, ∀ b ∈ logOf exId exHist, a.key = b.key → a.ts = b.ts → a.op = b.op := by
        rw [exLog]; decide
      exact fun a b ha hb => this a ha b hb
    · intro rows hr q hq
      simp only [exHist, flushed, List.mem_append, List.mem_cons, List.not_mem_nil, or_false, reduceCtorEq, false_or,
        Lsm.Op.write.injEq, Mem.Op.put.injEq] at hr
      rcases hr with ((rfl | rfl) | rfl | rfl) <;> simp only [List.mem_cons, List.not_mem_nil, or_false] at hq <;>
        first | (rcases hq with rfl | rfl | rfl <;> rfl) | (rcases hq with rfl | rfl <;> rfl) | (subst hq; rfl)
    · intro k u r h
      rcases exRows h with h | h | h | h | h | h | h <;> obtain ⟨rfl, rfl, rfl⟩ := h <;>
        exact exRow_fits _ _ (by decide) (by decide)
  have hlog : logOf exId before = [⟨1, 1, .put (exRow 1 5)⟩, ⟨2, 1, .put (exRow 2 1)⟩, ⟨2, 2, .put (exRow 2 5)⟩,
      ⟨3, 2, .put (exRow 3 5)⟩, ⟨4, 2, .put (exRow 4 5)⟩, ⟨3, 3, .del⟩] := by decide
  have h := held_snapshot_query_partial exId exWork (by decide) 4 1 0 before since
    (by rw [joined]; intro cap h; simp [exHist, flushed] at h)
    (by simp [since, exHist, flushed])
    (by rw [joined]; decide +kernel)
    (by
      have hfiles : (reached exId exWork 4 1 0 before).files = setFile (setFile (fun _ => none) ⟨0, 1⟩
          (some ⟨[(⟨1, 1⟩, exRow 1 5), (⟨2, 1⟩, exRow 2 1)], []⟩)) ⟨0, 2⟩
          (some ⟨[(⟨2, 2⟩, exRow 2 5), (⟨3, 2⟩, exRow 3 5), (⟨4, 2⟩, exRow 4 5)], [⟨3, 3⟩]⟩) := rfl
      intro l e _ f hf
      refine .inr (.inr (.inl ?_))
      rw [hfiles] at hf
      unfold setFile at hf
      split_ifs at hf <;> cases hf <;> decide)
    C07.exExt exCodec exSchema exKey exPred exProj (by rw [joined]; exact hwrites)
    ⟨exCodec_ok, ⟨C08.byValue_ok, fun _ _ _ => rfl⟩, exPred_ok, exTable, by unfold ProjOk; decide⟩
    exMuts exMuts_ok 3 (by rw [hlog]; decide) (by decide) (exSnap before 3) rfl
    (by
      rw [joined]
      have : ∀ m ∈ (exDb exHist).runs.runs, m.ts ≠ [] → (∃ e ∈ m.index, e.1.ts ≤ 3) → ∃ t ∈ m.ts, t ≤ 3 := by
        decide +kernel
      exact this)
    (fun st _ q _ => ⟨List.Sublist.refl _, rfl⟩)
    (by
      refine .inl fun k _ u r h hm u' r' h' hu => ?_
      have sub : ∀ w ∈ logOf exId before, w ∈ logOf exId exHist := by rw [hlog, exLog]; decide
      rcases exRows (sub _ h) with h | h | h | h | h | h | h <;> obtain ⟨rfl, rfl, rfl⟩ := h <;>
        rcases exRows (sub _ h') with h' | h' | h' | h' | h' | h' | h' <;> obtain ⟨h1, rfl, rfl⟩ := h' <;>
        first | omega | rfl | (cases hm; done))
    10 (by decide) none
  rw [joined] at h
  exact h

/-- What the snapshot returns: when opened, after the compaction, after one more flush whose runs are still in memory; and
with mutations staged. A new snapshot returns something else. -/
example :
    querySnap C07.exExt exCodec exSchema exKey (exSnap before 3) (exDb before) [] exPred (some exSchema) 10 none =
      some (.ok (some ([[exRow 2 5, exRow 4 5]], none))) ∧
    querySnap C07.exExt exCodec exSchema exKey (exSnap before 3) (exDb exHist) [] exPred (some exSchema) 10 none =
      some (.ok (some ([[exRow 2 5, exRow 4 5]], none))) ∧
    querySnap C07.exExt exCodec exSchema exKey (exSnap before 3) (exDb (exHist ++ (flushed 4).take 3)) [] exPred
      (some exSchema) 10 none = some (.ok (some ([[exRow 2 5, exRow 4 5]], none))) ∧
    querySnap C07.exExt exCodec exSchema exKey (exSnap before 3) (exDb exHist) (stage exMuts) exPred (some exSchema) 10 none =
      some (.ok (some ([[exRow 3 5, exRow 4 5, exRow 6 5]], none))) ∧
    querySnap C07.exExt exCodec exSchema exKey (exSnap exHist 6) (exDb exHist) [] exPred (some exSchema) 10 none =
      some (.ok (some ([[exRow 2 5, exRow 5 5]], none))) := by
  refine ⟨?_, ?_, ?_, ?_, ?_⟩ <;> decide +kernel

/-! ## Where it does not hold -/

def frozen : List (Lsm.Op Int Row) := [.write (.put [(exRow 1 5, 1)]), .write .freeze]

/-- **C19 refuted** when a flush completes while the snapshot is held: the row is neither in memory any more nor in a table
of the version the snapshot holds. A snapshot opened now returns it, at the same timestamp. -/
theorem drain_hides_rows_from_a_snapshot :
    querySnap C07.exExt exCodec exSchema exKey (exSnap frozen 1) (exDb frozen) [] isFive (some exSchema) 10 none =
      some (.ok (some ([[exRow 1 5]], none))) ∧
    querySnap C07.exExt exCodec exSchema exKey (exSnap frozen 1) (exDb (frozen ++ (flushed 1).drop 1)) [] isFive
      (some exSchema) 10 none = some (.ok (some ([], none))) ∧
    querySnap C07.exExt exCodec exSchema exKey (exSnap (frozen ++ (flushed 1).drop 1) 1)
      (exDb (frozen ++ (flushed 1).drop 1)) [] isFive (some exSchema) 10 none =
      some (.ok (some ([[exRow 1 5]], none))) := by
  refine ⟨?_, ?_, ?_⟩ <;> decide +kernel

end Example

end Tonbo.Props.C74
