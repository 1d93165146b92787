import Verif.Props.C73_Queries
import Verif.Props.C68_StorageFailures

/-!
# C73: queries after any history in which the storage fails

`ops` is any history of `Model/LsmFail.lean`: writes, flushes and compactions step by step, and such steps that fail.
-/

set_option linter.unusedSectionVars false

namespace Tonbo.Props.C73
open Tonbo.Model Tonbo.Model.Manifest Tonbo.Model.Lsm Tonbo.Model.Pred Tonbo.Model.Plan Tonbo.Model.Keys
open Tonbo.Spec Tonbo.Lemmas.Lsm Tonbo.Lemmas.Manifest Tonbo.Lemmas.Plan Tonbo.Lemmas.LsmFail
open Tonbo.Lemmas.PredEval (leafCol)
open Tonbo.Props.C07 (DeletesCovered)

variable {K : Type} [LinearOrder K]

/-- What is assumed of the writes, as in `WritesOk`. -/
structure WritesOkF (c : Codec K) (base keys : Schema) (p : Expr) (ext : Row → Option K) (ops : List (LsmFail.Op K Row)) :
    Prop where
  ts : ∀ w ∈ logOfF ext ops, w.ts < 2 ^ 64
  agree : Functional (· ∈ logOfF ext ops)
  whole : ∀ rows, LsmFail.Op.fine (.write (.put rows)) ∈ ops → ∀ q ∈ rows, q.1.length = base.length
  fits : ∀ k u r, ⟨k, u, .put r⟩ ∈ logOfF ext ops → C07.RowFits c base keys p k r

/-- A step that fails leaves the memory alone. -/
theorem failed_runs (ext : Row → Option K) (x : Exec K Row) (t : Nat) (s : Db K Row) (o : LsmFail.Op K Row)
    (ho : ∀ o', o ≠ .fine o') : (LsmFail.step ext x t s o).2.runs = s.runs := by
  cases o with
  | fine o => exact absurd rfl (ho o)
  | flushTorn count left =>
    change (LsmFail.flushTorn s count left).runs = s.runs
    unfold LsmFail.flushTorn
    split
    · split <;> rfl
    · rfl
  | flushPublish a =>
    change (LsmFail.flushPublish t s a).runs = s.runs
    unfold LsmFail.flushPublish
    split
    · split <;> rfl
    · rfl
  | startTorn tk head skip done left keep =>
    change (LsmFail.startTorn x t s tk head skip done left keep).runs = s.runs
    unfold LsmFail.startTorn
    split
    · rfl
    · rfl
    · split
      · rfl
      · split
        · rfl
        · unfold LsmFail.executeTorn
          split
          · rfl
          · split
            · rfl
            · split <;> rfl
  | finish i a keep g =>
    unfold LsmFail.step
    simp only
    split
    · rfl
    · change (LsmFail.finish t _ _ a keep g).runs = s.runs
      unfold LsmFail.finish
      split <;> rfl

theorem run_rowsF {P : Row → Prop} {ext : Row → Option K} {x : Exec K Row} {t : Nat} :
    ∀ (ops : List (LsmFail.Op K Row)) (s : Db K Row),
    ((∀ a ∈ s.runs.mem.batches, ∀ r ∈ a.rows, P r) ∧ ∀ m ∈ s.runs.runs, ∀ r ∈ m.rows, P r) →
    (∀ rows, LsmFail.Op.fine (.write (.put rows)) ∈ ops → ∀ q ∈ rows, P q.1) → (∀ o ∈ ops, isRestart o = false) →
    (LsmFail.run ext x t s ops).1 = true →
    (∀ a ∈ (LsmFail.run ext x t s ops).2.runs.mem.batches, ∀ r ∈ a.rows, P r) ∧
      ∀ m ∈ (LsmFail.run ext x t s ops).2.runs.runs, ∀ r ∈ m.rows, P r
  | [], _, h, _, _, _ => h
  | o :: os, s, h, hw, hre, hok => by
    unfold LsmFail.run at hok
    simp only [Bool.and_eq_true] at hok
    unfold LsmFail.run
    refine run_rowsF os _ ?_ (fun rows hr => hw rows (List.mem_cons_of_mem _ hr))
      (fun o ho => hre o (List.mem_cons_of_mem _ ho)) hok.2
    by_cases hf : ∃ o', o = .fine o'
    · obtain ⟨o', rfl⟩ := hf
      refine run_rows (ext := ext) (x := x) (t := t) [o'] s h ?_ ?_ ?_
      · intro rows hr
        rw [List.mem_singleton] at hr
        exact hw rows (by rw [hr]; exact List.mem_cons_self)
      · intro o'' ho
        rw [List.mem_singleton.1 ho]
        exact hre _ List.mem_cons_self
      · have : (Lsm.step ext x t s o').1 = true := hok.1
        change ((Lsm.step ext x t s o').1 && true) = true
        rw [this]
        rfl
    · rw [failed_runs ext x t s o (fun o' ho => hf ⟨o', ho⟩)]
      exact h

theorem put_of_logF {ext : Row → Option K} {ops : List (LsmFail.Op K Row)} {k : K} {u : Nat} {r : Row}
    (h : (⟨k, u, .put r⟩ : Ver K Row) ∈ logOfF ext ops) :
    ∃ rows, LsmFail.Op.fine (.write (.put rows)) ∈ ops ∧ (r, u) ∈ rows := by
  unfold logOfF at h
  obtain ⟨o, ho, hw⟩ := List.mem_flatMap.1 h
  rcases o with (op | _ | _ | _ | _ | _ | _ | _ | _) | _ | _ | _ | _
  · have hw : (⟨k, u, .put r⟩ : Ver K Row) ∈ logOf ext [.write op] := by
      unfold logOf
      rw [List.flatMap_singleton]
      exact hw
    obtain ⟨rows, h1, h2⟩ := put_of_log hw
    rw [List.mem_singleton] at h1
    rw [← h1] at ho
    exact ⟨rows, ho, h2⟩
  all_goals cases hw

/-- **C73, C68 (partial).** After any history of successful writes and of flushes and compactions that succeed or fail,
interleaved in any way, a query at a timestamp not before the newest write returns exactly the columns asked for of the
rows visible in what was written that satisfy the predicate, if rows of a key do not cease to satisfy it or the predicate
is about key columns only.

Missing: compactions told of an error after their publication (false, C68), and what `latest_query_partial` misses. -/
theorem query_despite_failures_partial (ext : Row → Option K) (x : Exec K Row) (hn : 0 < x.readRows)
    (cap t sv : Nat) (ops : List (LsmFail.Op K Row)) (hh : JobsHeard ops) (hr : NoRestartF ops)
    (hok : (LsmFail.run ext x t (Db.new cap t sv) ops).1 = true)
    (hfit : ∀ l e, EverListed (reachedF ext x cap t sv ops) t l e →
      ∀ f, (reachedF ext x cap t sv ops).files ⟨l, e.id⟩ = some f → Fits x.readRows f)
    (y : Plan.Ext K) (c : Codec K) (base keys : Schema) (p : Expr) (proj : Schema)
    (hw : WritesOkF c base keys p ext ops) (hq : QueryOk y c base keys p proj)
    (rts : Nat) (hts : ∀ w ∈ logOfF ext ops, w.ts ≤ rts)
    (hsel : PrunesSoundly y base t (reachedF ext x cap t sv ops) p rts)
    (hlast : Lasting base (logOfF ext ops) p ∨ ∀ e ∈ leaves p, leafCol e ∈ keys.map (·.1))
    (batchSize : Nat) (hb : 0 < batchSize) (limit : Option Nat) :
    Answers (logOfF ext ops) base p rts proj batchSize limit
      (query y c base keys t (reachedF ext x cap t sv ops) p rts (some proj) batchSize limit) := by
  have hlast : Lasting base (logOfF ext ops) p := by
    rcases hlast with hl | hkey
    · exact hl
    · intro k u r h1 hm u' r' h2 _
      rw [← hm]
      exact meaning_of_key (hw.fits k u' r' h2).key (hw.fits k u r h1).key p hkey
  obtain ⟨n, logs, cur, h, hc⟩ := run_cont (exact := False) hn ops (cont_new ext cap t sv False) (inv_new ext x cap t sv)
    (by simpa using hw.agree) (fun _ l e he => hfit l e (everListed_iff.2 he)) (C68.heard_all hh) (C68.noRestart_all hr)
    (fun h => h.elim) hok
  rw [List.nil_append] at hc
  obtain ⟨bs, rows, g1, g2, g3⟩ := query_of_state h hc hw.agree y c base keys p rts hw.ts hw.fits
    (fun k u r hm => by
      obtain ⟨rows, h1, h2⟩ := put_of_logF hm
      exact hw.whole rows h1 (r, u) h2)
    (run_rowsF ops _ (new_rows cap t sv) hw.whole (C68.noRestart_all hr) hok) hsel hq.codec hq.foreign hq.pred
    (deletesCovered_latest hc.runs fun w hm => hts w (hc.sub w (List.mem_append_left _ hm)))
    (fun k u r h1 _ h3 u' r' h4 h5 _ => hlast k u r h1 h3 u' r' h4 h5) hq.table proj hq.proj batchSize hb limit
  exact ⟨bs, rows, g1, filtered_latest x hc hw.agree hts g2, g3⟩

theorem ok_of_append (ext : Row → Option K) (x : Exec K Row) (t : Nat) : ∀ (a b : List (LsmFail.Op K Row)) (s : Db K Row),
    (LsmFail.run ext x t s (a ++ b)).1 = true → (LsmFail.run ext x t s a).1 = true
  | [], _, _, _ => rfl
  | o :: a, b, s, h => by
    rw [List.cons_append] at h
    unfold LsmFail.run at h
    simp only [Bool.and_eq_true] at h
    unfold LsmFail.run
    simp only [Bool.and_eq_true]
    exact ⟨h.1, ok_of_append ext x t a b _ h.2⟩

/-- **C73, C68 (partial).** Steps without a write are added to such a history, any of them failing. The query returns the
same rows in the same order as before. -/
theorem failures_change_no_answer_partial (ext : Row → Option K) (x : Exec K Row) (hn : 0 < x.readRows)
    (cap t sv : Nat) (ops more : List (LsmFail.Op K Row)) (hh : JobsHeard (ops ++ more)) (hr : NoRestartF (ops ++ more))
    (hok : (LsmFail.run ext x t (Db.new cap t sv) (ops ++ more)).1 = true) (hmore : logOfF ext more = [])
    (hfit : ∀ l e, EverListed (reachedF ext x cap t sv (ops ++ more)) t l e →
      ∀ f, (reachedF ext x cap t sv (ops ++ more)).files ⟨l, e.id⟩ = some f → Fits x.readRows f)
    (y : Plan.Ext K) (c : Codec K) (base keys : Schema) (p : Expr) (proj : Schema)
    (hw : WritesOkF c base keys p ext (ops ++ more)) (hq : QueryOk y c base keys p proj)
    (rts : Nat) (hts : ∀ w ∈ logOfF ext ops, w.ts ≤ rts)
    (hsel : PrunesSoundly y base t (reachedF ext x cap t sv ops) p rts)
    (hsel' : PrunesSoundly y base t (reachedF ext x cap t sv (ops ++ more)) p rts)
    (hlast : Lasting base (logOfF ext ops) p ∨ ∀ e ∈ leaves p, leafCol e ∈ keys.map (·.1))
    (batchSize : Nat) (hb : 0 < batchSize) (limit : Option Nat) :
    ∃ bs bs' : List (List Row),
      query y c base keys t (reachedF ext x cap t sv ops) p rts (some proj) batchSize limit =
        some (.ok (some (bs, none))) ∧
      query y c base keys t (reachedF ext x cap t sv (ops ++ more)) p rts (some proj) batchSize limit =
        some (.ok (some (bs', none))) ∧ bs'.flatten = bs.flatten := by
  have hlog : logOfF ext (ops ++ more) = logOfF ext ops := by
    have : logOfF ext (ops ++ more) = logOfF ext ops ++ logOfF ext more := by
      unfold logOfF
      rw [List.flatMap_append]
    rw [this, hmore, List.append_nil]
  have hh1 : JobsHeard ops := fun i k g h => hh i k g (List.mem_append_left _ h)
  have hh2 : JobsHeard more := fun i k g h => hh i k g (List.mem_append_right _ h)
  have hr1 : NoRestartF ops := fun c h => hr c (List.mem_append_left _ h)
  have hok1 : (LsmFail.run ext x t (Db.new cap t sv) ops).1 = true := ok_of_append ext x t ops more _ hok
  have hfit1 : ∀ l e, EverListed (reachedF ext x cap t sv ops) t l e →
      ∀ f, (reachedF ext x cap t sv ops).files ⟨l, e.id⟩ = some f → Fits x.readRows f := by
    intro l e he f hf
    obtain ⟨a, g, b1, b2⟩ := C68.listed_files_survive_failures ext x hn cap t sv ops more hh l e he
    obtain ⟨n, hi⟩ := C68.reachedF_inv ext x hn cap t sv ops hh1
    have hd := (hi.ent l e (everListed_iff.1 he)).1
    rw [hd] at b1 b2
    rw [b1] at hf
    obtain rfl := Option.some.inj hf
    exact hfit l e a g b2
  have hw1 : WritesOkF c base keys p ext ops :=
    ⟨by rw [← hlog]; exact hw.ts, by rw [← hlog]; exact hw.agree,
      fun rows h => hw.whole rows (List.mem_append_left _ h), by rw [← hlog]; exact hw.fits⟩
  obtain ⟨bs, rows, g1, g2, _, g4⟩ := query_despite_failures_partial ext x hn cap t sv ops hh1 hr1 hok1 hfit1 y c base keys p
    proj hw1 hq rts hts hsel hlast batchSize hb limit
  obtain ⟨bs', rows', g1', g2', _, g4'⟩ := query_despite_failures_partial ext x hn cap t sv (ops ++ more) hh hr hok hfit y c
    base keys p proj hw hq rts (by rw [hlog]; exact hts) hsel' (by rw [hlog]; exact hlast) batchSize hb limit
  rw [hlog] at g2'
  have : rows' = rows := SMap.sorted_ext g2'.1 g2.1 (fun q => (g2'.2 q.1 q.2).trans (g2.2 q.1 q.2).symm)
  exact ⟨bs, bs', g1, g1', by rw [g4, g4', this]⟩

/-! ## The hypotheses are met -/
section Example
open C07 C61

/-- A flush that cannot write its file, one told of an error although it was published and repeated, writes, a flush that
is refused and repeated, a merge that fails, a job that is refused. -/
def failing : List (LsmFail.Op Int Row) :=
  [.fine (.write (.put [(exRow 1 5, 1), (exRow 2 1, 1)])), .fine (.write .freeze), .flushTorn 1 none,
    .fine (.flushWrite (some [⟨1, 101, 1, 1⟩])), .flushPublish .lost,
    .fine (.flushWrite (some [⟨1, 101, 1, 1⟩])), .flushPublish .told, .fine .flushDrain,
    .fine (.write (.put [(exRow 2 5, 2), (exRow 3 5, 2)])), .fine (.write .freeze),
    .fine (.flushWrite (some [⟨2, 102, 2, 2⟩])), .flushPublish .refused,
    .fine (.flushWrite (some [⟨2, 102, 2, 2⟩])), .flushPublish .told, .fine .flushDrain,
    .fine (.write (.put [(exRow 4 5, 3)]))]

def failingOn : List (LsmFail.Op Int Row) :=
  [.startTorn ⟨0, 1, [⟨0, 2⟩, ⟨0, 3⟩, ⟨0, 5⟩], none⟩ none 0 1 none (fun _ => false),
    .fine (.start ⟨0, 1, [⟨0, 2⟩, ⟨0, 3⟩, ⟨0, 5⟩], none⟩ none 0), .finish 0 .refused (fun _ => true) false,
    .fine (.start ⟨0, 1, [⟨0, 2⟩, ⟨0, 3⟩, ⟨0, 5⟩], none⟩ none 0), .finish 0 .told (fun _ => false) true]

def failDb (ops : List (LsmFail.Op Int Row)) : Db Int Row := reachedF exId exWork 4 1 0 ops

/-- The query for `id > 1 AND x = 5` before and after the failing compactions. -/
example : JobsHeard (failing ++ failingOn) ∧ NoRestartF (failing ++ failingOn) ∧
    (LsmFail.run exId exWork 1 (Db.new 4 1 0) (failing ++ failingOn)).1 = true ∧ logOfF exId failingOn = [] ∧
    (∀ w ∈ logOfF exId failing, w.ts ≤ 9) ∧
    query C07.exExt exCodec exSchema exKey 1 (failDb failing) exPred 9 (some [("id", .int .i64)]) 10 none =
      some (.ok (some ([[[some (.int .i64 2)], [some (.int .i64 3)], [some (.int .i64 4)]]], none))) ∧
    query C07.exExt exCodec exSchema exKey 1 (failDb (failing ++ failingOn)) exPred 9 (some [("id", .int .i64)]) 10 none =
      some (.ok (some ([[[some (.int .i64 2)], [some (.int .i64 3)], [some (.int .i64 4)]]], none))) ∧
    (failDb (failing ++ failingOn)).kv ≠ (failDb failing).kv := by
  refine ⟨fun i k g h => ?_, fun cap h => ?_, by decide +kernel, by decide, by decide, by decide +kernel, by decide +kernel,
    by decide +kernel⟩ <;> simp [failing, failingOn] at h

theorem failLog : logOfF exId (failing ++ failingOn) =
    [⟨1, 1, .put (exRow 1 5)⟩, ⟨2, 1, .put (exRow 2 1)⟩, ⟨2, 2, .put (exRow 2 5)⟩, ⟨3, 2, .put (exRow 3 5)⟩,
     ⟨4, 3, .put (exRow 4 5)⟩] := by
  decide

example : WritesOkF exCodec exSchema exKey exPred exId (failing ++ failingOn) ∧
    Lasting exSchema (logOfF exId (failing ++ failingOn)) exPred ∧
    PrunesSoundly C07.exExt exSchema 1 (failDb (failing ++ failingOn)) exPred 9 := by
  have hrows : ∀ {k : Int} {u : Nat} {r : Row}, ⟨k, u, .put r⟩ ∈ logOfF exId (failing ++ failingOn) →
      (k = 1 ∧ u = 1 ∧ r = exRow 1 5) ∨ (k = 2 ∧ u = 1 ∧ r = exRow 2 1) ∨ (k = 2 ∧ u = 2 ∧ r = exRow 2 5) ∨
      (k = 3 ∧ u = 2 ∧ r = exRow 3 5) ∨ (k = 4 ∧ u = 3 ∧ r = exRow 4 5) := by
    intro k u r h
    rw [failLog] at h
    simpa using h
  refine ⟨⟨?_, ?_, ?_, ?_⟩, ?_, ?_⟩
  · rw [failLog]; decide
  · have : ∀ a ∈ logOfF exId (failing ++ failingOn), ∀ b ∈ logOfF exId (failing ++ failingOn),
        a.key = b.key → a.ts = b.ts → a.op = b.op := by
      rw [failLog]; decide
    exact fun a b ha hb => this a ha b hb
  · intro rows hr q hq
    simp only [failing, failingOn, List.mem_append, List.mem_cons, List.not_mem_nil, or_false, reduceCtorEq, false_or,
      LsmFail.Op.fine.injEq, Lsm.Op.write.injEq, Mem.Op.put.injEq] at hr
    rcases hr with rfl | rfl | rfl <;> simp only [List.mem_cons, List.not_mem_nil, or_false] at hq <;>
      first | (rcases hq with rfl | rfl <;> rfl) | (subst hq; rfl)
  · intro k u r h
    rcases hrows h with h | h | h | h | h <;> obtain ⟨rfl, rfl, rfl⟩ := h <;>
      exact exRow_fits _ _ (by decide) (by decide)
  · intro k u r h hm u' r' h' hu
    rcases hrows h with h | h | h | h | h <;> obtain ⟨rfl, rfl, rfl⟩ := h <;>
      rcases hrows h' with h' | h' | h' | h' | h' <;> obtain ⟨h1, rfl, rfl⟩ := h' <;>
      first | omega | rfl | (cases hm; done)
  · intro st _ q _
    exact ⟨List.Sublist.refl _, rfl⟩

/-- No table has deletions, so every table fits. -/
example : ∀ l e, EverListed (failDb (failing ++ failingOn)) 1 l e →
    ∀ f, (failDb (failing ++ failingOn)).files ⟨l, e.id⟩ = some f → Fits exWork.readRows f := by
  have hh : JobsHeard (failing ++ failingOn) := fun i k g h => by simp [failing, failingOn] at h
  obtain ⟨n, h⟩ := C68.reachedF_inv exId exWork (by decide) 4 1 0 (failing ++ failingOn) hh
  have hall : (failDb (failing ++ failingOn)).kv.all (fun p => match p.2 with
      | .version v => v.ssts.flatten.all (fun e =>
        ((failDb (failing ++ failingOn)).files e.info.data).all (fun f => decide (f.dels = [])))
      | _ => true) = true := by decide +kernel
  intro l e he f hf
  refine .inl ?_
  have hlst := everListed_iff.1 he
  have hdata := (h.ent l e hlst).1
  obtain ⟨k, v, hv, hev⟩ := hlst
  have hm := List.all_eq_true.1 hall _ (C68.mem_of_find hv)
  have hev' : e ∈ v.ssts.flatten := by
    have hl : l < v.ssts.length := by
      by_contra hlt
      rw [List.getD_eq_getElem?_getD, List.getElem?_eq_none (by omega)] at hev
      simp at hev
    rw [List.getD_eq_getElem?_getD, List.getElem?_eq_getElem hl] at hev
    exact List.mem_flatten.2 ⟨_, List.getElem_mem hl, hev⟩
  have := List.all_eq_true.1 hm e hev'
  rw [hdata, hf] at this
  simpa using this

end Example

end Tonbo.Props.C73
