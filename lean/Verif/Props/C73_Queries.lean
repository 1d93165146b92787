import Verif.Lemmas.LsmQuery

/-!
# C73: queries after any history

`ops` is any history of a table of rows: calls on the memory, flushes and compactions step by step in any
interleaving. `Lsm.query` takes the snapshot, plans by the statistics in the manifest, reads and merges memory and
tables, filters, projects and packs.
-/

set_option linter.unusedSectionVars false

namespace Tonbo.Props.C73
open Tonbo.Model Tonbo.Model.Manifest Tonbo.Model.Lsm Tonbo.Model.Pred Tonbo.Model.Plan Tonbo.Model.Keys
open Tonbo.Spec Tonbo.Lemmas.Lsm Tonbo.Lemmas.Manifest Tonbo.Lemmas.Plan
open Tonbo.Lemmas.PredEval (leafCol)
open Tonbo.Props.C54 (NoRestart NoCompaction)
open Tonbo.Props.C07 (Foreign PredOk DeletesCovered)
open Tonbo.Props.C61 (TableOk ProjOk)

variable {K : Type} [LinearOrder K]

/-- What is assumed of the writes: timestamps are 64-bit numbers, no two writes disagree about a key at a timestamp,
rows have all columns of the table, and the predicate can be evaluated on them (`C07.RowFits`). -/
structure WritesOk (c : Codec K) (base keys : Schema) (p : Expr) (ext : Row → Option K) (ops : List (Lsm.Op K Row)) :
    Prop where
  ts : ∀ w ∈ logOf ext ops, w.ts < 2 ^ 64
  agree : Functional (· ∈ logOf ext ops)
  whole : ∀ rows, Lsm.Op.write (.put rows) ∈ ops → ∀ q ∈ rows, q.1.length = base.length
  fits : ∀ k u r, ⟨k, u, .put r⟩ ∈ logOf ext ops → C07.RowFits c base keys p k r

/-- What is assumed of the query: columns of the table, comparable literals, no Bloom-filter leaves, sound foreign
crates. -/
structure QueryOk (y : Plan.Ext K) (c : Codec K) (base keys : Schema) (p : Expr) (proj : Schema) : Prop where
  codec : CodecOk c keys p
  foreign : Foreign y base p
  pred : PredOk keys p
  table : TableOk base keys p
  proj : ProjOk base proj

/-- The selection of row groups and pages omits no visible row that satisfies the predicate. -/
def PrunesSoundly (y : Plan.Ext K) (base : Schema) (t : Nat) (s : Db K Row) (p : Expr) (rts : Nat) : Prop :=
  ∀ st, storeOf base t s = some st → ∀ q ∈ st.levels.flatten, SelectsMatches base p rts q.file.data (y.select p rts q)

/-- Once a row of a key satisfies the predicate, later rows of that key do. -/
def Lasting (base : Schema) (log : List (Ver K Row)) (p : Expr) : Prop :=
  ∀ k u r, ⟨k, u, .put r⟩ ∈ log → meaning (envOf base r) p = .t →
    ∀ u' r', ⟨k, u', .put r'⟩ ∈ log → u ≤ u' → meaning (envOf base r') p = .t

/-- The query succeeds, and returns the columns asked for of exactly the rows visible at `rts` in what was written
that satisfy the predicate, by ascending key, up to the limit, in batches of at most `batchSize`. -/
def Answers (log : List (Ver K Row)) (base : Schema) (p : Expr) (rts : Nat) (proj : Schema) (batchSize : Nat)
    (limit : Option Nat) (res : Option (Except Proj.Err (Option (List (List Row) × Option EvalErr)))) : Prop :=
  ∃ (bs : List (List Row)) (rows : List (K × Row)), res = some (.ok (some (bs, none))) ∧
    IsFilteredScan (· ∈ log) base p rts rows ∧
    (∀ b ∈ bs, b ≠ [] ∧ b.length ≤ batchSize) ∧
    bs.flatten = upTo limit (rows.map (fun q => columns base (proj.map (·.1)) q.2))

theorem new_rows {P : Row → Prop} (cap t sv : Nat) :
    (∀ a ∈ (Db.new cap t sv : Db K Row).runs.mem.batches, ∀ r ∈ a.rows, P r) ∧
      ∀ m ∈ (Db.new cap t sv : Db K Row).runs.runs, ∀ r ∈ m.rows, P r :=
  ⟨(fun _ h => by cases h), (fun _ h => by cases h)⟩

/-- At a timestamp not before the newest write, what memory and tables hold shows the rows of the log. -/
theorem filtered_latest (x : Exec K Row) {ext : Row → Option K} {t n : Nat} {s : Db K Row} {log : List (Ver K Row)} {exact : Prop}
    {logs : List (List (Ver K Row))} {cur : List (Ver K Row)} (hc : Cont ext t n s log exact logs cur)
    (hf : Functional (· ∈ log)) {base : Schema} {p : Expr} {rts : Nat} (hts : ∀ w ∈ log, w.ts ≤ rts)
    {rows : List (K × Row)} (g2 : IsFilteredScan (fun w => w ∈ logs.flatten ∨ w ∈ cur ∨ OnDisk t n s w) base p rts rows) :
    IsFilteredScan (· ∈ log) base p rts rows := by
  refine ⟨g2.1, fun k v => (g2.2 k v).trans (and_congr_left fun _ => ?_)⟩
  obtain ⟨c1, c2⟩ := C54.content (x := x) hc
  constructor
  · rintro ⟨ts, hw, hle, hmax⟩
    refine ⟨ts, c1 _ hw, hle, fun u hu hk hut => ?_⟩
    obtain ⟨u', hu', k1, k2, _⟩ := c2 u hu
    exact Nat.le_trans k2 (hmax u' hu' (k1.trans hk) (hts _ (c1 _ hu')))
  · rintro ⟨ts, hw, hle, hmax⟩
    obtain ⟨u, hu, k1, k2, _⟩ := c2 _ hw
    have h1 := hmax u (c1 u hu) k1 (hts _ (c1 u hu))
    have hts' : u.ts = ts := Nat.le_antisymm h1 k2
    have hop : u.op = .put v := hf u ⟨k, ts, .put v⟩ (c1 u hu) hw k1 hts'
    obtain ⟨uk, ut, uo⟩ := u
    simp only at k1 hts' hop
    subst k1
    subst hts'
    subst hop
    exact ⟨_, hu, hle, fun u hu hk hut => hmax u (c1 u hu) hk hut⟩

/-- **C73 (partial).** After any history of successful writes, flushes and compactions, interleaved in any way, a
query at a timestamp not before the newest write returns exactly the columns asked for of the rows visible in what was
written that satisfy the predicate, if rows of a key do not cease to satisfy it (`stale_rows_after_two_flushes`).

Missing: restarts, failed writes (C04, C71), writes that disagree about one key at one timestamp (C14, C15), and
tables whose rows and deletions a merge reads out of step (`Fits`, C15). -/
theorem latest_query_partial (ext : Row → Option K) (x : Exec K Row) (hn : 0 < x.readRows)
    (cap t sv : Nat) (ops : List (Lsm.Op K Row)) (hr : NoRestart ops)
    (hok : (Lsm.run ext x t (Db.new cap t sv) ops).1 = true)
    (hfit : ∀ l e, EverListed (reached ext x cap t sv ops) t l e →
      ∀ f, (reached ext x cap t sv ops).files ⟨l, e.id⟩ = some f → Fits x.readRows f)
    (y : Plan.Ext K) (c : Codec K) (base keys : Schema) (p : Expr) (proj : Schema)
    (hw : WritesOk c base keys p ext ops) (hq : QueryOk y c base keys p proj)
    (rts : Nat) (hts : ∀ w ∈ logOf ext ops, w.ts ≤ rts)
    (hsel : PrunesSoundly y base t (reached ext x cap t sv ops) p rts)
    (hlast : Lasting base (logOf ext ops) p)
    (batchSize : Nat) (hb : 0 < batchSize) (limit : Option Nat) :
    Answers (logOf ext ops) base p rts proj batchSize limit
      (query y c base keys t (reached ext x cap t sv ops) p rts (some proj) batchSize limit) := by
  obtain ⟨n, logs, cur, h, hc⟩ := cont_run (exact := False) hn ops (cont_new ext cap t sv False) (inv_new ext x cap t sv)
    (by simpa using hw.agree) (fun _ l e he => hfit l e (everListed_iff.2 he)) (C54.noRestart hr) (fun h => h.elim) hok
  rw [List.nil_append] at hc
  obtain ⟨bs, rows, g1, g2, g3⟩ := query_of_state h hc hw.agree y c base keys p rts hw.ts hw.fits
    (fun k u r hm => by
      obtain ⟨rows, h1, h2⟩ := put_of_log hm
      exact hw.whole rows h1 (r, u) h2)
    (run_rows ops _ (new_rows cap t sv) hw.whole (C54.noRestart hr) hok) hsel hq.codec hq.foreign hq.pred
    (deletesCovered_latest hc.runs fun w hm => hts w (hc.sub w (List.mem_append_left _ hm)))
    (fun k u r h1 _ h3 u' r' h4 h5 _ => hlast k u r h1 h3 u' r' h4 h5) hq.table proj hq.proj batchSize hb limit
  exact ⟨bs, rows, g1, filtered_latest x hc hw.agree hts g2, g3⟩

theorem lasting_of_keys {c : Codec K} {base keys : Schema} {p : Expr} {ext : Row → Option K} {ops : List (Lsm.Op K Row)}
    (hw : WritesOk c base keys p ext ops) (hkey : ∀ e ∈ leaves p, leafCol e ∈ keys.map (·.1)) :
    Lasting base (logOf ext ops) p := by
  intro k u r h1 hm u' r' h2 _
  rw [← hm]
  exact meaning_of_key (hw.fits k u' r' h2).key (hw.fits k u r h1).key p hkey

/-- **C73 (partial).** If the predicate is about key columns only, or there is none, nothing need be assumed about how
rows change. -/
theorem latest_query_by_key_partial (ext : Row → Option K) (x : Exec K Row) (hn : 0 < x.readRows)
    (cap t sv : Nat) (ops : List (Lsm.Op K Row)) (hr : NoRestart ops)
    (hok : (Lsm.run ext x t (Db.new cap t sv) ops).1 = true)
    (hfit : ∀ l e, EverListed (reached ext x cap t sv ops) t l e →
      ∀ f, (reached ext x cap t sv ops).files ⟨l, e.id⟩ = some f → Fits x.readRows f)
    (y : Plan.Ext K) (c : Codec K) (base keys : Schema) (p : Expr) (proj : Schema)
    (hw : WritesOk c base keys p ext ops) (hq : QueryOk y c base keys p proj)
    (hkey : ∀ e ∈ leaves p, leafCol e ∈ keys.map (·.1))
    (rts : Nat) (hts : ∀ w ∈ logOf ext ops, w.ts ≤ rts)
    (hsel : PrunesSoundly y base t (reached ext x cap t sv ops) p rts)
    (batchSize : Nat) (hb : 0 < batchSize) (limit : Option Nat) :
    Answers (logOf ext ops) base p rts proj batchSize limit
      (query y c base keys t (reached ext x cap t sv ops) p rts (some proj) batchSize limit) :=
  latest_query_partial ext x hn cap t sv ops hr hok hfit y c base keys p proj hw hq rts hts hsel
    (lasting_of_keys hw hkey) batchSize hb limit

/-- **C73 (partial)**, without compactions: at every timestamp, if every frozen run with rows and a visible deletion has
a visible row (`C12.deletion_skipped_with_its_run`). -/
theorem query_without_compaction_partial (ext : Row → Option K) (x : Exec K Row) (hn : 0 < x.readRows)
    (cap t sv : Nat) (ops : List (Lsm.Op K Row)) (hr : NoRestart ops) (hcomp : NoCompaction ops)
    (hok : (Lsm.run ext x t (Db.new cap t sv) ops).1 = true)
    (y : Plan.Ext K) (c : Codec K) (base keys : Schema) (p : Expr) (proj : Schema)
    (hw : WritesOk c base keys p ext ops) (hq : QueryOk y c base keys p proj) (rts : Nat)
    (hdel : DeletesCovered rts (reached ext x cap t sv ops).runs.runs)
    (hsel : PrunesSoundly y base t (reached ext x cap t sv ops) p rts)
    (hlast : Lasting base (logOf ext ops) p ∨ ∀ e ∈ leaves p, leafCol e ∈ keys.map (·.1))
    (batchSize : Nat) (hb : 0 < batchSize) (limit : Option Nat) :
    Answers (logOf ext ops) base p rts proj batchSize limit
      (query y c base keys t (reached ext x cap t sv ops) p rts (some proj) batchSize limit) := by
  have hlast : Lasting base (logOf ext ops) p := hlast.elim id (lasting_of_keys hw)
  obtain ⟨n, logs, cur, h, hc⟩ := cont_run (exact := True) hn ops (cont_new ext cap t sv True) (inv_new ext x cap t sv)
    (by simpa using hw.agree) (fun h => absurd trivial h) (C54.noRestart hr) (fun _ => C54.noCompaction hcomp) hok
  rw [List.nil_append] at hc
  obtain ⟨bs, rows, g1, g2, g3⟩ := query_of_state h hc hw.agree y c base keys p rts hw.ts hw.fits
    (fun k u r hm => by
      obtain ⟨rows, h1, h2⟩ := put_of_log hm
      exact hw.whole rows h1 (r, u) h2)
    (run_rows ops _ (new_rows cap t sv) hw.whole (C54.noRestart hr) hok) hsel hq.codec hq.foreign hq.pred hdel
    (fun k u r h1 _ h3 u' r' h4 h5 _ => hlast k u r h1 h3 u' r' h4 h5) hq.table proj hq.proj batchSize hb limit
  obtain ⟨c1, c2⟩ := C54.content (x := x) hc
  have : (fun w => w ∈ logs.flatten ∨ w ∈ cur ∨ OnDisk t n (Lsm.run ext x t (Db.new cap t sv) ops).2 w) =
      (· ∈ logOf ext ops) := by
    funext w
    apply propext
    constructor
    · exact c1 w
    · intro hw
      obtain ⟨u, hu, _, _, he⟩ := c2 w hw
      rwa [he trivial] at hu
  rw [this] at g2
  exact ⟨bs, rows, g1, g2, g3⟩

/-! ## The hypotheses are met

Two flushes, a compaction, a frozen run and more writes, on the table of C07. -/
section Example
open C07 C61

instance : DecidableEq (List (List Row) × Option EvalErr) := inferInstance

def exWork : Exec Int Row :=
  ⟨none, none, 8, 8, fun _ => 1, fun _ => 1, fun f => f.data.length, Lemmas.Compact.listHeap Int, id,
    fun _ => List.Perm.refl _⟩

def flushed (n : Nat) : List (Lsm.Op Int Row) :=
  [.write .freeze, .flushWrite (some [⟨n, n + 100, n, n⟩]), .flushPublish, .flushDrain]

def exHist : List (Lsm.Op Int Row) :=
  [.write (.put [(exRow 1 5, 1), (exRow 2 1, 1)])] ++ flushed 1 ++
  [.write (.put [(exRow 2 5, 2), (exRow 3 5, 2), (exRow 4 5, 2)]), .write (.del [(3, 3)])] ++ flushed 2 ++
  [.start ⟨0, 1, [⟨0, 1⟩, ⟨0, 2⟩], none⟩ none 0, .write (.put [(exRow 5 6, 4)]), .finish 0, .write .freeze,
   .write (.put [(exRow 5 5, 5)]), .write (.del [(4, 6)])]

def exDb (ops : List (Lsm.Op Int Row)) : Db Int Row := reached exId exWork 4 1 0 ops

/-- The history is one the theorems are about: it has no restart, every write succeeds, and it ends with a compacted
table, a frozen run and rows in memory. The answers at the newest timestamp: of `id > 1 AND x = 5`, without a
predicate, and with a limit. -/
example : NoRestart exHist ∧ (Lsm.run exId exWork 1 (Db.new 4 1 0) exHist).1 = true ∧
    (∀ w ∈ logOf exId exHist, w.ts ≤ 6) ∧
    ((exDb exHist).files ⟨1, 3⟩).map (fun f => (f.data, f.dels)) =
      some ([(⟨1, 1⟩, exRow 1 5), (⟨2, 2⟩, exRow 2 5), (⟨4, 2⟩, exRow 4 5)], [⟨3, 3⟩]) ∧
    (exDb exHist).runs.runs.length = 1 ∧
    query C07.exExt exCodec exSchema exKey 1 (exDb exHist) exPred 6 (some [("id", .int .i64)]) 10 none =
      some (.ok (some ([[[some (.int .i64 2)], [some (.int .i64 5)]]], none))) ∧
    query C07.exExt exCodec exSchema exKey 1 (exDb exHist) .tt 6 (some [("id", .int .i64)]) 2 none =
      some (.ok (some ([[[some (.int .i64 1)], [some (.int .i64 2)]], [[some (.int .i64 5)]]], none))) ∧
    query C07.exExt exCodec exSchema exKey 1 (exDb exHist) .tt 6 (some exProj) 10 (some 1) =
      some (.ok (some ([[[some (.int .i64 5), some (.int .i64 1)]]], none))) := by
  refine ⟨?_, by decide +kernel, by decide, by decide +kernel, by decide +kernel,
    by decide +kernel, by decide +kernel, by decide +kernel⟩
  intro cap h
  simp [exHist, flushed] at h

theorem exLog : logOf exId exHist =
    [⟨1, 1, .put (exRow 1 5)⟩, ⟨2, 1, .put (exRow 2 1)⟩, ⟨2, 2, .put (exRow 2 5)⟩, ⟨3, 2, .put (exRow 3 5)⟩,
     ⟨4, 2, .put (exRow 4 5)⟩, ⟨3, 3, .del⟩, ⟨5, 4, .put (exRow 5 6)⟩, ⟨5, 5, .put (exRow 5 5)⟩, ⟨4, 6, .del⟩] := by
  decide

theorem exRows {k : Int} {u : Nat} {r : Row} (h : ⟨k, u, .put r⟩ ∈ logOf exId exHist) :
    (k = 1 ∧ u = 1 ∧ r = exRow 1 5) ∨ (k = 2 ∧ u = 1 ∧ r = exRow 2 1) ∨ (k = 2 ∧ u = 2 ∧ r = exRow 2 5) ∨
    (k = 3 ∧ u = 2 ∧ r = exRow 3 5) ∨ (k = 4 ∧ u = 2 ∧ r = exRow 4 5) ∨ (k = 5 ∧ u = 4 ∧ r = exRow 5 6) ∨
    (k = 5 ∧ u = 5 ∧ r = exRow 5 5) := by
  rw [exLog] at h
  simpa using h

/-- The writes meet `WritesOk`, and rows of a key do not cease to match, although some begin to. -/
example : WritesOk exCodec exSchema exKey exPred exId exHist ∧ Lasting exSchema (logOf exId exHist) exPred ∧
    meaning (envOf exSchema (exRow 2 1)) exPred ≠ .t := by
  refine ⟨⟨?_, ?_, ?_, ?_⟩, ?_, by decide⟩
  · rw [exLog]; decide
  · have : ∀ a ∈ logOf exId exHist, ∀ b ∈ logOf exId exHist, a.key = b.key → a.ts = b.ts → a.op = b.op := by
      rw [exLog]; decide
    exact fun a b ha hb => this a ha b hb
  · intro rows hr q hq
    simp only [exHist, flushed, List.mem_append, List.mem_cons, List.not_mem_nil, or_false, reduceCtorEq, false_or,
      Lsm.Op.write.injEq, Mem.Op.put.injEq] at hr
    rcases hr with ((rfl | rfl) | rfl | rfl) <;> simp only [List.mem_cons, List.not_mem_nil, or_false] at hq <;>
      first | (rcases hq with rfl | rfl | rfl <;> rfl) | (rcases hq with rfl | rfl <;> rfl) | (subst hq; rfl)
  · intro k u r h
    rcases exRows h with h | h | h | h | h | h | h <;> obtain ⟨rfl, rfl, rfl⟩ := h <;>
      exact exRow_fits _ _ (by decide) (by decide)
  · intro k u r h hm u' r' h' hu
    rcases exRows h with h | h | h | h | h | h | h <;> obtain ⟨rfl, rfl, rfl⟩ := h <;>
      rcases exRows h' with h' | h' | h' | h' | h' | h' | h' <;> obtain ⟨h1, rfl, rfl⟩ := h' <;>
      first | omega | rfl | (cases hm; done)

/-- The query meets `QueryOk`, and files are read whole. -/
example : QueryOk C07.exExt exCodec exSchema exKey exPred exProj ∧
    PrunesSoundly C07.exExt exSchema 1 (exDb exHist) exPred 6 ∧ 0 < exWork.readRows := by
  refine ⟨⟨exCodec_ok, ⟨C08.byValue_ok, fun _ _ _ => rfl⟩, exPred_ok, exTable, by unfold ProjOk; decide⟩, ?_, by decide⟩
  intro st _ q _
  exact ⟨List.Sublist.refl _, rfl⟩

/-- A batch has eight rows, so every table fits. -/
example : ∀ l e, EverListed (exDb exHist) 1 l e → ∀ f, (exDb exHist).files ⟨l, e.id⟩ = some f → Fits exWork.readRows f := by
  have hfiles : (exDb exHist).files = setFile (setFile (setFile (fun _ => none) ⟨0, 1⟩
      (some ⟨[(⟨1, 1⟩, exRow 1 5), (⟨2, 1⟩, exRow 2 1)], []⟩)) ⟨0, 2⟩
      (some ⟨[(⟨2, 2⟩, exRow 2 5), (⟨3, 2⟩, exRow 3 5), (⟨4, 2⟩, exRow 4 5)], [⟨3, 3⟩]⟩)) ⟨1, 3⟩
      (some ⟨[(⟨1, 1⟩, exRow 1 5), (⟨2, 2⟩, exRow 2 5), (⟨4, 2⟩, exRow 4 5)], [⟨3, 3⟩]⟩) := rfl
  intro l e _ f hf
  refine .inr (.inr (.inl ?_))
  rw [hfiles] at hf
  unfold setFile at hf
  split_ifs at hf <;> cases hf <;> decide

/-- The history before the compaction, at an old timestamp. -/
example : NoCompaction (exHist.take 12) ∧ NoRestart (exHist.take 12) ∧
    (Lsm.run exId exWork 1 (Db.new 4 1 0) (exHist.take 12)).1 = true ∧
    DeletesCovered 2 (exDb (exHist.take 12)).runs.runs ∧
    query C07.exExt exCodec exSchema exKey 1 (exDb (exHist.take 12)) exPred 2 (some [("id", .int .i64)]) 10 none =
      some (.ok (some ([[[some (.int .i64 2)], [some (.int .i64 3)], [some (.int .i64 4)]]], none))) := by
  refine ⟨?_, ?_, by decide +kernel, ?_, by decide +kernel⟩
  · intro i h
    simp [exHist, flushed] at h
  · intro cap h
    simp [exHist, flushed] at h
  · have : (exDb (exHist.take 12)).runs.runs = [] := by rfl
    rw [this]
    intro m hm
    cases hm

/-! ## Where it does not hold -/

/-- Key 1 is written with `x = 5`, flushed, overwritten with `x = 7`, and flushed. -/
def overwritten : List (Lsm.Op Int Row) :=
  [.write (.put [(exRow 1 5, 1)])] ++ flushed 1 ++ [.write (.put [(exRow 1 7, 2)])] ++ flushed 2

def merged : List (Lsm.Op Int Row) :=
  overwritten ++ [.start ⟨0, 1, [⟨0, 1⟩, ⟨0, 2⟩], none⟩ none 0, .finish 0]

/-- **C73 refuted** without `Lasting`: after two flushes the query for `x = 5` returns the row that was overwritten;
without a predicate the new row is returned. After a compaction of the two tables, which changes no row, the answer is
another one. -/
theorem stale_rows_after_two_flushes :
    (Lsm.run exId exWork 1 (Db.new 4 1 0) merged).1 = true ∧
    logOf exId overwritten = [⟨1, 1, .put (exRow 1 5)⟩, ⟨1, 2, .put (exRow 1 7)⟩] ∧
    query C07.exExt exCodec exSchema exKey 1 (exDb overwritten) .tt 9 (some exSchema) 10 none =
      some (.ok (some ([[exRow 1 7]], none))) ∧
    query C07.exExt exCodec exSchema exKey 1 (exDb overwritten) isFive 9 (some exSchema) 10 none =
      some (.ok (some ([[exRow 1 5]], none))) ∧
    query C07.exExt exCodec exSchema exKey 1 (exDb merged) isFive 9 (some exSchema) 10 none =
      some (.ok (some ([], none))) := by
  refine ⟨by decide +kernel, by decide, by decide +kernel, by decide +kernel, by decide +kernel⟩

end Example

end Tonbo.Props.C73
