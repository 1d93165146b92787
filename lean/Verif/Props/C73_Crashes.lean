import Verif.Props.C73_Queries
import Verif.Props.C29_C32_Durable_Ex
import Verif.Lemmas.DurableRows

/-!
# C73: queries after any history with crashes

`ops` is any history of `Model/Durable.lean`: writes, each by its atomic steps, flushes, compactions, pruning of the
log, abandoned writes and any number of crashes, each followed by opening the database again.
-/

set_option linter.unusedSectionVars false

namespace Tonbo.Props.C73
open Tonbo.Model Tonbo.Model.Manifest Tonbo.Model.Lsm Tonbo.Model.Durable Tonbo.Model.Pred Tonbo.Model.Plan
open Tonbo.Model.Keys Tonbo.Spec Tonbo.Spec.Durable Tonbo.Lemmas.Lsm Tonbo.Lemmas.Plan
open Tonbo.Lemmas.PredEval (leafCol)
open Tonbo.Props.C32 (after Quiet quiet_state)

variable {A K : Type} [LinearOrder K]

/-- Every row handed to the database has all columns of the table, and the predicate can be evaluated on it
(`C07.RowFits`). -/
def RowsHanded (cod : Codec K) (base keys : Schema) (p : Expr) (ext : Row → Option K) (ops : List (Durable.Op K Row)) :
    Prop :=
  ∀ mode rows ks, Durable.Op.write mode rows ks ∈ ops → ∀ r ∈ rows, r.length = base.length ∧
    ∀ k, ext r = some k → C07.RowFits cod base keys p k r

/-- **C73, C29 (partial).** After any quiet history with any number of crashes (`C32.Quiet`), a query at a timestamp not
before the newest write returns exactly the columns asked for of the visible rows that satisfy the predicate, of a set of
writes that has every acknowledged write and nothing that was not committed.

Missing: what `Quiet` excludes, rows that cease to satisfy the predicate, and older timestamps. -/
theorem query_after_crashes_partial (c : Ctx A K Row) (cap sv : Nat) (ops : List (Durable.Op K Row))
    (h : Quiet c cap sv ops)
    (y : Plan.Ext K) (cod : Codec K) (base keys : Schema) (p : Expr) (proj : Schema)
    (hw : RowsHanded cod base keys p c.ext ops) (hq : QueryOk y cod base keys p proj)
    (rts : Nat) (hts : ∀ w ∈ (after c cap sv ops).committed, w.ts ≤ rts)
    (hsel : PrunesSoundly y base c.table (after c cap sv ops).db p rts)
    (hlast : Lasting base (after c cap sv ops).committed p ∨ ∀ e ∈ leaves p, leafCol e ∈ keys.map (·.1))
    (batchSize : Nat) (hb : 0 < batchSize) (limit : Option Nat) :
    ∃ log : List (Ver K Row), (∀ w ∈ (after c cap sv ops).acked, w ∈ log) ∧
      (∀ w ∈ log, w ∈ (after c cap sv ops).committed) ∧
      Answers log base p rts proj batchSize limit
        (query y cod base keys c.table (after c cap sv ops).db p rts (some proj) batchSize limit) := by
  obtain ⟨hck, n, log, logs, cur, hd⟩ := quiet_state h
  have hrows := Lemmas.DurableRows.run_ok ops (Sys.new cap c.table sv)
    (Lemmas.DurableRows.new_ok (P := fun r : Row => r.length = base.length ∧
      ∀ k, c.ext r = some k → C07.RowFits cod base keys p k r) c cap c.table sv) h.2.2.1 hw
  have hput : ∀ k u r, (⟨k, u, .put r⟩ : Ver K Row) ∈ (after c cap sv ops).committed →
      r.length = base.length ∧ C07.RowFits cod base keys p k r := by
    intro k u r hm
    obtain ⟨h1, h2, h3⟩ := (hrows.committed _ hm).2 r rfl
    exact ⟨h2, h3 k h1⟩
  have hf : Functional (· ∈ log) := fun a b ha hb => hck.fn a b (hd.sub a ha) (hd.sub b hb)
  have hlast : Lasting base log p := by
    rcases hlast with hl | hkey
    · exact fun k u r h1 h2 u' r' h3 h4 => hl k u r (hd.sub _ h1) h2 u' r' (hd.sub _ h3) h4
    · intro k u r h1 hm u' r' h2 _
      rw [← hm]
      exact meaning_of_key (hput k u' r' (hd.sub _ h2)).2.key (hput k u r (hd.sub _ h1)).2.key p hkey
  obtain ⟨bs, rows, g1, g2, g3⟩ := query_of_state hd.inv hd.cont hf y cod base keys p rts
    (fun w hw => (hrows.committed w (hd.sub w hw)).1)
    (fun k u r hm => (hput k u r (hd.sub _ hm)).2)
    (fun k u r hm => (hput k u r (hd.sub _ hm)).1)
    ⟨(fun a ha r hr => (hrows.mem.1 a ha r hr).1), (fun m hm r hr => (hrows.mem.2 m hm r hr).1)⟩
    hsel hq.codec hq.foreign hq.pred
    (deletesCovered_latest hd.cont.runs fun w hm => hts w (hd.sub w (hd.cont.sub w (List.mem_append_left _ hm))))
    (fun k u r h1 _ h3 u' r' h4 h5 _ => hlast k u r h1 h3 u' r' h4 h5) hq.table proj hq.proj batchSize hb limit
  exact ⟨log, hd.acked, hd.sub, bs, rows, g1,
    filtered_latest c.x hd.cont hf (fun w hw => hts w (hd.sub w hw)) g2, g3⟩

/-- **C73, C29 (partial)**, when everything committed was acknowledged: the answer is that of what was acknowledged. -/
theorem query_of_acknowledged_partial (c : Ctx A K Row) (cap sv : Nat) (ops : List (Durable.Op K Row))
    (h : Quiet c cap sv ops)
    (y : Plan.Ext K) (cod : Codec K) (base keys : Schema) (p : Expr) (proj : Schema)
    (hw : RowsHanded cod base keys p c.ext ops) (hq : QueryOk y cod base keys p proj)
    (hack : ∀ w ∈ (after c cap sv ops).committed, w ∈ (after c cap sv ops).acked)
    (rts : Nat) (hts : ∀ w ∈ (after c cap sv ops).acked, w.ts ≤ rts)
    (hsel : PrunesSoundly y base c.table (after c cap sv ops).db p rts)
    (hlast : Lasting base (after c cap sv ops).acked p ∨ ∀ e ∈ leaves p, leafCol e ∈ keys.map (·.1))
    (batchSize : Nat) (hb : 0 < batchSize) (limit : Option Nat) :
    Answers (after c cap sv ops).acked base p rts proj batchSize limit
      (query y cod base keys c.table (after c cap sv ops).db p rts (some proj) batchSize limit) := by
  obtain ⟨log, h1, h2, bs, rows, g1, g2, g3⟩ := query_after_crashes_partial c cap sv ops h y cod base keys p proj hw hq rts
    (fun w hw => hts w (hack w hw)) hsel
    (hlast.imp_left fun hl k u r h1 h2 u' r' h3 h4 => hl k u r (hack _ h1) h2 u' r' (hack _ h3) h4) batchSize hb limit
  have : (fun w => w ∈ log) = (fun w => w ∈ (after c cap sv ops).acked) := by
    funext w
    exact propext ⟨fun hw => hack w (h2 w hw), h1 w⟩
  rw [this] at g2
  exact ⟨bs, rows, g1, g2, g3⟩

/-- **C73, C29 (partial).** A quiet history in which everything committed was acknowledged goes on without committing
anything more: crashes, any number of them, flushes, compactions, abandoned writes. The query returns the same rows in
the same order as before. -/
theorem crashes_change_no_answer_partial (c : Ctx A K Row) (cap sv : Nat) (ops more : List (Durable.Op K Row))
    (h : Quiet c cap sv ops) (h' : Quiet c cap sv (ops ++ more))
    (y : Plan.Ext K) (cod : Codec K) (base keys : Schema) (p : Expr) (proj : Schema)
    (hw : RowsHanded cod base keys p c.ext (ops ++ more)) (hq : QueryOk y cod base keys p proj)
    (hack : ∀ w ∈ (after c cap sv ops).committed, w ∈ (after c cap sv ops).acked)
    (hsame : (after c cap sv (ops ++ more)).committed = (after c cap sv ops).committed)
    (hacked : ∀ w ∈ (after c cap sv ops).acked, w ∈ (after c cap sv (ops ++ more)).acked)
    (rts : Nat) (hts : ∀ w ∈ (after c cap sv ops).committed, w.ts ≤ rts)
    (hsel : PrunesSoundly y base c.table (after c cap sv ops).db p rts)
    (hsel' : PrunesSoundly y base c.table (after c cap sv (ops ++ more)).db p rts)
    (hlast : Lasting base (after c cap sv ops).committed p ∨ ∀ e ∈ leaves p, leafCol e ∈ keys.map (·.1))
    (batchSize : Nat) (hb : 0 < batchSize) (limit : Option Nat) :
    ∃ bs bs' : List (List Row),
      query y cod base keys c.table (after c cap sv ops).db p rts (some proj) batchSize limit =
        some (.ok (some (bs, none))) ∧
      query y cod base keys c.table (after c cap sv (ops ++ more)).db p rts (some proj) batchSize limit =
        some (.ok (some (bs', none))) ∧ bs'.flatten = bs.flatten := by
  obtain ⟨log, a1, a2, bs, rows, g1, g2, _, g4⟩ := query_after_crashes_partial c cap sv ops h y cod base keys p proj
    (fun mode rows ks hm => hw mode rows ks (List.mem_append_left _ hm)) hq rts hts hsel hlast batchSize hb limit
  obtain ⟨log', a1', a2', bs', rows', g1', g2', _, g4'⟩ := query_after_crashes_partial c cap sv (ops ++ more) h' y cod base
    keys p proj hw hq rts (by rw [hsame]; exact hts) hsel' (by rw [hsame]; exact hlast) batchSize hb limit
  have e : (fun w => w ∈ log) = (fun w => w ∈ log') := by
    funext w
    refine propext ⟨fun hw => a1' w (hacked w (hack w (a2 w hw))), fun hw => a1 w (hack w ?_)⟩
    rw [← hsame]
    exact a2' w hw
  rw [← e] at g2'
  have : rows' = rows := SMap.sorted_ext g2'.1 g2.1 (fun q => (g2'.2 q.1 q.2).trans (g2.2 q.1 q.2).symm)
  exact ⟨bs, bs', g1, g1', by rw [g4, g4', this]⟩

/-! ## The hypotheses are met -/
section Example
open C07 C61

/-- The batches of a table with the columns `id` and `x`. -/
def rowSch : Wal.Sch Unit Int Row where
  rows b := match b.cols with
    | [⟨"id", _, .u64 ks⟩, ⟨"x", _, .u64 vs⟩] =>
      some ((ks.zip vs).map (fun q => exRow ((q.1.getD 0).toNat) ((q.2.getD 0).toNat)))
    | _ => none
  keys b := match b.cols with
    | [⟨"id", _, .u64 vs⟩, ⟨"_commit_ts", _, _⟩] => some (vs.map (fun v => v.map (fun v => (v.toNat : Int))))
    | _ => none

def cell (r : Row) (i : Nat) : Option (BitVec 64) :=
  match r[i]? with
  | some (some (.int _ v)) => some (BitVec.ofNat 64 v.toNat)
  | _ => none

def rowEnc : Enc Unit Int Row where
  rows rs := ⟨[⟨"id", false, .u64 (rs.map (cell · 0))⟩, ⟨"x", false, .u64 (rs.map (cell · 1))⟩], []⟩
  keys ks ts := ⟨[⟨"id", false, .u64 (ks.map (fun k => some (BitVec.ofNat 64 k.toNat)))⟩,
    ⟨"_commit_ts", false, .u64 (List.replicate ks.length (some ts))⟩], []⟩

def rowC : Ctx Unit Int Row := ⟨exId, rowSch, rowEnc, exWork, 1⟩

def put (m : Mode) (rs : List Row) (ks : List Int := []) : List (Durable.Op Int Row) :=
  .write m rs ks :: List.replicate 11 (.advance 0)

def flushNow : List (Durable.Op Int Row) := [.freeze, .flushBegin, .flushWrite, .flushPublish, .prune, .flushDrain]

def crashed : List (Durable.Op Int Row) := [.crash 4 (fun _ => false) none]

/-- Two rows, a flush, rows and a deletion in a second segment, a crash, a flush, a strict transaction, a write that is
abandoned before its commit record; a compaction begins. -/
def stormy : List (Durable.Op Int Row) :=
  put .plain [exRow 1 5, exRow 2 1] ++ flushNow ++ [.rotate] ++ put .tomb [exRow 2 5, exRow 3 5] [1] ++ crashed ++
  flushNow ++ put .strict [exRow 4 5] ++ [.write .strict [exRow 6 5] []] ++ List.replicate 3 (.advance 0) ++ [.cancel 0] ++
  [.start ⟨0, 1, [⟨0, 1⟩, ⟨0, 2⟩], none⟩ none 0]

/-- The compaction ends; a write and a crash. -/
def calmer : List (Durable.Op Int Row) := put .plain [exRow 5 7] ++ crashed

def storm : List (Durable.Op Int Row) := stormy ++ [.finish 0] ++ calmer

set_option maxRecDepth 100000 in
theorem stormy_files : (after rowC 4 0 stormy).db.files = setFile (setFile (setFile (fun _ => none) ⟨0, 1⟩
    (some ⟨[(⟨1, 0⟩, exRow 1 5), (⟨2, 0⟩, exRow 2 1)], []⟩)) ⟨0, 2⟩
    (some ⟨[(⟨1, 0⟩, exRow 1 5), (⟨2, 1⟩, exRow 2 5), (⟨2, 0⟩, exRow 2 1), (⟨3, 1⟩, exRow 3 5)], [⟨1, 1⟩]⟩)) ⟨1, 3⟩
    (some ⟨[(⟨2, 1⟩, exRow 2 5), (⟨3, 1⟩, exRow 3 5)], [⟨1, 1⟩]⟩) := rfl

/-- The history is quiet. -/
theorem storm_quiet : Quiet rowC 4 0 storm := by
  have h1 : C32.quietB rowC (Sys.new 4 1 0) stormy = true := by decide +kernel
  have h2 : C32.quietB rowC (after rowC 4 0 (stormy ++ [.finish 0])) calmer = true := by decide +kernel
  have h3 : floorOf rowC (stepLive rowC (after rowC 4 0 stormy) (.finish 0)) = floorOf rowC (after rowC 4 0 stormy) := by
    decide +kernel
  obtain ⟨c1, f1⟩ := C32.quiet_of_check _ _ h1
  obtain ⟨c2, f2⟩ := C32.quiet_of_check _ _ h2
  have c3 : CalmRun rowC (after rowC 4 0 stormy) [.finish 0] := by
    refine ⟨⟨?_, .inl h3⟩, trivial⟩
    intro l e _ f hf
    refine .inr (.inr (.inl ?_))
    rw [stormy_files] at hf
    unfold setFile at hf
    split_ifs at hf <;> cases hf <;> decide
  refine ⟨by decide, by decide, ?_, ?_⟩
  · exact C32.calmRun_append _ _ _ _ (C32.calmRun_append _ _ _ _ c1 c3) c2
  · exact C32.freshRun_append _ _ _ _ (C32.freshRun_append _ _ _ _ f1 ⟨trivial, trivial⟩) f2

theorem storm_committed : (after rowC 4 0 storm).committed =
    [⟨1, 0, .put (exRow 1 5)⟩, ⟨2, 0, .put (exRow 2 1)⟩, ⟨2, 1, .put (exRow 2 5)⟩, ⟨3, 1, .put (exRow 3 5)⟩,
     ⟨1, 1, .del⟩, ⟨4, 2, .put (exRow 4 5)⟩, ⟨5, 4, .put (exRow 5 7)⟩] := by
  decide +kernel

/-- What was handed to the database, what is committed and acknowledged, and the answer for `id > 1 AND x = 5`: row 1 is
deleted, row 2 began to match, row 6 was never committed. -/
example : RowsHanded exCodec exSchema exKey exPred rowC.ext storm ∧
    (∀ w ∈ (after rowC 4 0 storm).committed, w ∈ (after rowC 4 0 storm).acked) ∧
    (∀ w ∈ (after rowC 4 0 storm).acked, w.ts ≤ 9) ∧
    PrunesSoundly C07.exExt exSchema 1 (after rowC 4 0 storm).db exPred 9 ∧
    Lasting exSchema (after rowC 4 0 storm).committed exPred ∧
    query C07.exExt exCodec exSchema exKey 1 (after rowC 4 0 storm).db exPred 9 (some [("id", .int .i64)]) 10 none =
      some (.ok (some ([[[some (.int .i64 2)], [some (.int .i64 3)], [some (.int .i64 4)]]], none))) := by
  refine ⟨?_, by decide +kernel, by decide +kernel, ?_, ?_, by decide +kernel⟩
  · intro mode rows ks h r hr
    simp only [storm, stormy, calmer, put, flushNow, crashed, List.replicate, List.mem_append, List.mem_cons,
      List.not_mem_nil, or_false, reduceCtorEq, Durable.Op.write.injEq, or_self] at h
    rcases h with (((⟨-, rfl, -⟩ | ⟨-, rfl, -⟩) | ⟨-, rfl, -⟩) | ⟨-, rfl, -⟩) | ⟨-, rfl, -⟩ <;>
      simp only [List.mem_cons, List.not_mem_nil, or_false] at hr <;>
      first
      | (rcases hr with rfl | rfl <;> refine ⟨rfl, fun k hk => ?_⟩ <;> obtain rfl := Option.some.inj hk <;>
          exact exRow_fits _ _ (by decide) (by decide))
      | (subst hr; refine ⟨rfl, fun k hk => ?_⟩; obtain rfl := Option.some.inj hk
         exact exRow_fits _ _ (by decide) (by decide))
  · intro st _ q _
    exact ⟨List.Sublist.refl _, rfl⟩
  · rw [storm_committed]
    intro k u r h hm u' r' h' hu
    simp only [List.mem_cons, List.not_mem_nil, or_false, Ver.mk.injEq, Mut.put.injEq, reduceCtorEq, and_false,
      false_or] at h h'
    rcases h with h | h | h | h | h | h <;> obtain ⟨rfl, rfl, rfl⟩ := h <;>
      rcases h' with h' | h' | h' | h' | h' | h' <;> obtain ⟨h1, rfl, rfl⟩ := h' <;>
      first | omega | rfl | (cases hm; done)

/-- For `crashes_change_no_answer_partial`: two more crashes, and a flush. -/
example : Quiet rowC 4 0 (storm ++ (crashed ++ flushNow ++ [.crash 8 (fun _ => false) (some ⟨some 2, some 16, some 6⟩)])) ∧
    (after rowC 4 0 (storm ++ (crashed ++ flushNow ++
      [.crash 8 (fun _ => false) (some ⟨some 2, some 16, some 6⟩)]))).committed = (after rowC 4 0 storm).committed := by
  obtain ⟨a, b, c, d⟩ := storm_quiet
  have h : C32.quietB rowC (after rowC 4 0 storm) (crashed ++ flushNow ++
    [.crash 8 (fun _ => false) (some ⟨some 2, some 16, some 6⟩)]) = true := by decide +kernel
  obtain ⟨c2, f2⟩ := C32.quiet_of_check _ _ h
  exact ⟨⟨a, b, C32.calmRun_append _ _ _ _ c c2, C32.freshRun_append _ _ _ _ d f2⟩, by decide +kernel⟩

end Example

end Tonbo.Props.C73
