import Verif.Lemmas.LsmTxnQuery
import Verif.Props.C73_Queries
import Verif.Props.C73_Crashes
import Verif.Props.C73_Failures
import Verif.Props.C38_C43_Lsm

/-!
# C74: queries inside a transaction, after any history

`muts` are the upserts and deletions the transaction staged, in the order of the calls, and `Lsm.queryTxn` is its scan
with a predicate, a projection and a limit.
-/

set_option linter.unusedSectionVars false

namespace Tonbo.Props.C74
open Tonbo.Model Tonbo.Model.Manifest Tonbo.Model.Lsm Tonbo.Model.Pred Tonbo.Model.Plan Tonbo.Model.Keys
open Tonbo.Spec Tonbo.Lemmas.Lsm Tonbo.Lemmas.Manifest Tonbo.Lemmas.Plan
open Tonbo.Lemmas.PredEval (leafCol)
open Tonbo.Props.C54 (NoRestart NoCompaction)
open Tonbo.Props.C07 (DeletesCovered)
open Tonbo.Props.C73 (WritesOk QueryOk PrunesSoundly Lasting new_rows)
open Tonbo.Model.Txn (Stage)

variable {A K : Type} [LinearOrder K]

/-- Staged rows have all columns of the table, and the predicate can be evaluated on them. -/
def StagedOk (c : Codec K) (base keys : Schema) (p : Expr) (muts : List (K × Stage Row)) : Prop :=
  ∀ k r, (k, Stage.up r) ∈ muts → r.length = base.length ∧ C07.RowFits c base keys p k r

/-- Once a row of a key for which nothing is staged satisfies the predicate, later rows of that key do. -/
def LastingBeside (muts : List (K × Stage Row)) (base : Schema) (log : List (Ver K Row)) (p : Expr) : Prop :=
  ∀ k, lastFor muts k = none → ∀ u r, ⟨k, u, .put r⟩ ∈ log → meaning (envOf base r) p = .t →
    ∀ u' r', ⟨k, u', .put r'⟩ ∈ log → u ≤ u' → meaning (envOf base r') p = .t

/-- The query succeeds, and returns the columns asked for of exactly the rows that satisfy the predicate, of those last
staged and, for keys without a staged mutation, those visible at `rts` in what was written; by ascending key, up to the
limit, in batches of at most `batchSize`. -/
def Answers (log : List (Ver K Row)) (muts : List (K × Stage Row)) (base : Schema) (p : Expr) (rts : Nat) (proj : Schema)
    (batchSize : Nat) (limit : Option Nat)
    (res : Option (Except Proj.Err (Option (List (List Row) × Option EvalErr)))) : Prop :=
  ∃ (bs : List (List Row)) (rows : List (K × Row)), res = some (.ok (some (bs, none))) ∧
    IsTxnScan (· ∈ log) muts base p rts rows ∧
    (∀ b ∈ bs, b ≠ [] ∧ b.length ≤ batchSize) ∧
    bs.flatten = upTo limit (rows.map (fun q => columns base (proj.map (·.1)) q.2))

theorem lastingBeside_of {c : Codec K} {base keys : Schema} {p : Expr} {log : List (Ver K Row)} {muts : List (K × Stage Row)}
    (hfits : ∀ k u r, (⟨k, u, .put r⟩ : Ver K Row) ∈ log → C07.RowFits c base keys p k r)
    (h : LastingBeside muts base log p ∨ ∀ e ∈ leaves p, leafCol e ∈ keys.map (·.1)) : LastingBeside muts base log p := by
  rcases h with h | hkey
  · exact h
  · intro k _ u r h1 hm u' r' h2 _
    rw [← hm]
    exact meaning_of_key (hfits k u' r' h2).key (hfits k u r h1).key p hkey

/-- What is seen depends on what is visible for keys without a staged mutation. -/
theorem txnScan_of {H H' : Ver K Row → Prop} {muts : List (K × Stage Row)} {base : Schema} {p : Expr} {rts : Nat}
    {rows : List (K × Row)} (g : IsTxnScan H muts base p rts rows)
    (hv : ∀ k r, Visible H rts k r ↔ Visible H' rts k r) : IsTxnScan H' muts base p rts rows := by
  refine ⟨g.1, fun k r => (g.2 k r).trans (and_congr_left fun _ => ?_)⟩
  unfold SeenIn
  rcases lastFor muts k with _ | ⟨_ | _⟩
  · exact hv k r
  · exact Iff.rfl
  · exact Iff.rfl

/-- At a timestamp not before the newest write, what memory and tables hold shows the rows of the log. -/
theorem visible_latest (x : Exec K Row) {ext : Row → Option K} {t n : Nat} {s : Db K Row} {log : List (Ver K Row)} {exact : Prop}
    {logs : List (List (Ver K Row))} {cur : List (Ver K Row)} (hc : Cont ext t n s log exact logs cur)
    (hf : Functional (· ∈ log)) {rts : Nat} (hts : ∀ w ∈ log, w.ts ≤ rts) (k : K) (r : Row) :
    Visible (fun w => w ∈ logs.flatten ∨ w ∈ cur ∨ OnDisk t n s w) rts k r ↔ Visible (· ∈ log) rts k r := by
  obtain ⟨c1, c2⟩ := C54.content (x := x) hc
  constructor
  · rintro ⟨ts, hw, hle, hmax⟩
    refine ⟨ts, c1 _ hw, hle, fun u hu hk hut => ?_⟩
    obtain ⟨u', hu', k1, k2, _⟩ := c2 u hu
    exact Nat.le_trans k2 (hmax u' hu' (k1.trans hk) (hts _ (c1 _ hu')))
  · rintro ⟨ts, hw, hle, hmax⟩
    obtain ⟨u, hu, k1, k2, _⟩ := c2 _ hw
    have h1 := hmax u (c1 u hu) k1 (hts _ (c1 u hu))
    have hts' : u.ts = ts := Nat.le_antisymm h1 k2
    have hop : u.op = .put r := hf u ⟨k, ts, .put r⟩ (c1 u hu) hw k1 hts'
    obtain ⟨uk, ut, uo⟩ := u
    simp only at k1 hts' hop
    subst k1
    subst hts'
    subst hop
    exact ⟨_, hu, hle, fun u hu hk hut => hmax u (c1 u hu) hk hut⟩

/-- **C74 (partial).** After any history of successful writes, flushes and compactions, interleaved in any way, a query
inside a transaction that begins then, at a timestamp not before the newest write, returns exactly the columns asked for
of the rows that satisfy the predicate: what the transaction last staged for a key, and otherwise what is visible in what
was written. Rows written before may satisfy the predicate as they please where the key has a staged mutation; of other
keys they must not cease to satisfy it, or the predicate must be about key columns only
(`stale_rows_inside_a_transaction`).

Missing: writes of others between the start of the transaction and the query (C19, C23), restarts, and what
`C73.latest_query_partial` misses. -/
theorem latest_txn_query_partial (ext : Row → Option K) (x : Exec K Row) (hn : 0 < x.readRows)
    (cap t sv : Nat) (ops : List (Lsm.Op K Row)) (hr : NoRestart ops)
    (hok : (Lsm.run ext x t (Db.new cap t sv) ops).1 = true)
    (hfit : ∀ l e, EverListed (reached ext x cap t sv ops) t l e →
      ∀ f, (reached ext x cap t sv ops).files ⟨l, e.id⟩ = some f → Fits x.readRows f)
    (y : Plan.Ext K) (c : Codec K) (base keys : Schema) (p : Expr) (proj : Schema)
    (hw : WritesOk c base keys p ext ops) (hq : QueryOk y c base keys p proj)
    (muts : List (K × Stage Row)) (hm : StagedOk c base keys p muts)
    (rts : Nat) (hts : ∀ w ∈ logOf ext ops, w.ts ≤ rts)
    (hsel : PrunesSoundly y base t (reached ext x cap t sv ops) p rts)
    (hlast : LastingBeside muts base (logOf ext ops) p ∨ ∀ e ∈ leaves p, leafCol e ∈ keys.map (·.1))
    (batchSize : Nat) (hb : 0 < batchSize) (limit : Option Nat) :
    Answers (logOf ext ops) muts base p rts proj batchSize limit
      (queryTxn y c base keys t (reached ext x cap t sv ops) (stage muts) p rts (some proj) batchSize limit) := by
  have hlast := lastingBeside_of hw.fits hlast
  obtain ⟨n, logs, cur, h, hc⟩ := cont_run (exact := False) hn ops (cont_new ext cap t sv False) (inv_new ext x cap t sv)
    (by simpa using hw.agree) (fun _ l e he => hfit l e (everListed_iff.2 he)) (C54.noRestart hr) (fun h => h.elim) hok
  rw [List.nil_append] at hc
  obtain ⟨bs, rows, g1, g2, g3⟩ := queryTxn_of_state h hc hw.agree y c base keys p rts hw.ts hw.fits
    (fun k u r hm => by
      obtain ⟨rows, h1, h2⟩ := put_of_log hm
      exact hw.whole rows h1 (r, u) h2)
    (run_rows ops _ (new_rows cap t sv) hw.whole (C54.noRestart hr) hok) hsel hq.codec hq.foreign hq.pred
    (deletesCovered_latest hc.runs fun w hm => hts w (hc.sub w (List.mem_append_left _ hm)))
    muts (fun k r h => (hm k r h).2) (fun k r h => (hm k r h).1)
    (fun k hk u r h1 _ h3 u' r' h4 h5 _ => hlast k hk u r h1 h3 u' r' h4 h5) hq.table proj hq.proj batchSize hb limit
  exact ⟨bs, rows, g1, txnScan_of g2 (visible_latest x hc hw.agree hts), g3⟩

/-- **C74 (partial)**, without compactions: at every timestamp, if every frozen run with rows and a visible deletion has
a visible row (`C12.deletion_skipped_with_its_run`). -/
theorem txn_query_without_compaction_partial (ext : Row → Option K) (x : Exec K Row) (hn : 0 < x.readRows)
    (cap t sv : Nat) (ops : List (Lsm.Op K Row)) (hr : NoRestart ops) (hcomp : NoCompaction ops)
    (hok : (Lsm.run ext x t (Db.new cap t sv) ops).1 = true)
    (y : Plan.Ext K) (c : Codec K) (base keys : Schema) (p : Expr) (proj : Schema)
    (hw : WritesOk c base keys p ext ops) (hq : QueryOk y c base keys p proj)
    (muts : List (K × Stage Row)) (hm : StagedOk c base keys p muts) (rts : Nat)
    (hdel : DeletesCovered rts (reached ext x cap t sv ops).runs.runs)
    (hsel : PrunesSoundly y base t (reached ext x cap t sv ops) p rts)
    (hlast : LastingBeside muts base (logOf ext ops) p ∨ ∀ e ∈ leaves p, leafCol e ∈ keys.map (·.1))
    (batchSize : Nat) (hb : 0 < batchSize) (limit : Option Nat) :
    Answers (logOf ext ops) muts base p rts proj batchSize limit
      (queryTxn y c base keys t (reached ext x cap t sv ops) (stage muts) p rts (some proj) batchSize limit) := by
  have hlast := lastingBeside_of hw.fits hlast
  obtain ⟨n, logs, cur, h, hc⟩ := cont_run (exact := True) hn ops (cont_new ext cap t sv True) (inv_new ext x cap t sv)
    (by simpa using hw.agree) (fun h => absurd trivial h) (C54.noRestart hr) (fun _ => C54.noCompaction hcomp) hok
  rw [List.nil_append] at hc
  obtain ⟨bs, rows, g1, g2, g3⟩ := queryTxn_of_state h hc hw.agree y c base keys p rts hw.ts hw.fits
    (fun k u r hm => by
      obtain ⟨rows, h1, h2⟩ := put_of_log hm
      exact hw.whole rows h1 (r, u) h2)
    (run_rows ops _ (new_rows cap t sv) hw.whole (C54.noRestart hr) hok) hsel hq.codec hq.foreign hq.pred hdel
    muts (fun k r h => (hm k r h).2) (fun k r h => (hm k r h).1)
    (fun k hk u r h1 _ h3 u' r' h4 h5 _ => hlast k hk u r h1 h3 u' r' h4 h5) hq.table proj hq.proj batchSize hb limit
  obtain ⟨c1, c2⟩ := C54.content (x := x) hc
  have : (fun w => w ∈ logs.flatten ∨ w ∈ cur ∨ OnDisk t n (Lsm.run ext x t (Db.new cap t sv) ops).2 w) =
      (· ∈ logOf ext ops) := by
    funext w
    apply propext
    constructor
    · exact c1 w
    · intro hw
      obtain ⟨u, hu, _, _, he⟩ := c2 w hw
      rwa [he trivial] at hu
  rw [this] at g2
  exact ⟨bs, rows, g1, g2, g3⟩

/-- **C74, C68 (partial).** The same when flushes and compactions of the history fail. -/
theorem txn_query_despite_failures_partial (ext : Row → Option K) (x : Exec K Row) (hn : 0 < x.readRows)
    (cap t sv : Nat) (ops : List (LsmFail.Op K Row)) (hh : JobsHeard ops) (hr : NoRestartF ops)
    (hok : (LsmFail.run ext x t (Db.new cap t sv) ops).1 = true)
    (hfit : ∀ l e, EverListed (reachedF ext x cap t sv ops) t l e →
      ∀ f, (reachedF ext x cap t sv ops).files ⟨l, e.id⟩ = some f → Fits x.readRows f)
    (y : Plan.Ext K) (c : Codec K) (base keys : Schema) (p : Expr) (proj : Schema)
    (hw : C73.WritesOkF c base keys p ext ops) (hq : QueryOk y c base keys p proj)
    (muts : List (K × Stage Row)) (hm : StagedOk c base keys p muts)
    (rts : Nat) (hts : ∀ w ∈ logOfF ext ops, w.ts ≤ rts)
    (hsel : PrunesSoundly y base t (reachedF ext x cap t sv ops) p rts)
    (hlast : LastingBeside muts base (logOfF ext ops) p ∨ ∀ e ∈ leaves p, leafCol e ∈ keys.map (·.1))
    (batchSize : Nat) (hb : 0 < batchSize) (limit : Option Nat) :
    Answers (logOfF ext ops) muts base p rts proj batchSize limit
      (queryTxn y c base keys t (reachedF ext x cap t sv ops) (stage muts) p rts (some proj) batchSize limit) := by
  have hlast := lastingBeside_of hw.fits hlast
  obtain ⟨n, logs, cur, h, hc⟩ := Lemmas.LsmFail.run_cont (exact := False) hn ops (cont_new ext cap t sv False) (inv_new ext x cap t sv)
    (by simpa using hw.agree) (fun _ l e he => hfit l e (everListed_iff.2 he)) (C68.heard_all hh) (C68.noRestart_all hr)
    (fun h => h.elim) hok
  rw [List.nil_append] at hc
  obtain ⟨bs, rows, g1, g2, g3⟩ := queryTxn_of_state h hc hw.agree y c base keys p rts hw.ts hw.fits
    (fun k u r hm => by
      obtain ⟨rows, h1, h2⟩ := C73.put_of_logF hm
      exact hw.whole rows h1 (r, u) h2)
    (C73.run_rowsF ops _ (new_rows cap t sv) hw.whole (C68.noRestart_all hr) hok) hsel hq.codec hq.foreign hq.pred
    (deletesCovered_latest hc.runs fun w hm => hts w (hc.sub w (List.mem_append_left _ hm)))
    muts (fun k r h => (hm k r h).2) (fun k r h => (hm k r h).1)
    (fun k hk u r h1 _ h3 u' r' h4 h5 _ => hlast k hk u r h1 h3 u' r' h4 h5) hq.table proj hq.proj batchSize hb limit
  exact ⟨bs, rows, g1, txnScan_of g2 (visible_latest x hc hw.agree hts), g3⟩

/-- **C74, C29 (partial).** The same after any quiet history with any number of crashes (`C32.Quiet`): what is seen of
what was written is that of a set of writes that has every acknowledged write and nothing that was not committed. -/
theorem txn_query_after_crashes_partial (c : Durable.Ctx A K Row) (cap sv : Nat) (ops : List (Durable.Op K Row))
    (h : C32.Quiet c cap sv ops)
    (y : Plan.Ext K) (cod : Codec K) (base keys : Schema) (p : Expr) (proj : Schema)
    (hw : C73.RowsHanded cod base keys p c.ext ops) (hq : QueryOk y cod base keys p proj)
    (muts : List (K × Stage Row)) (hm : StagedOk cod base keys p muts)
    (rts : Nat) (hts : ∀ w ∈ (C32.after c cap sv ops).committed, w.ts ≤ rts)
    (hsel : PrunesSoundly y base c.table (C32.after c cap sv ops).db p rts)
    (hlast : LastingBeside muts base (C32.after c cap sv ops).committed p ∨ ∀ e ∈ leaves p, leafCol e ∈ keys.map (·.1))
    (batchSize : Nat) (hb : 0 < batchSize) (limit : Option Nat) :
    ∃ log : List (Ver K Row), (∀ w ∈ (C32.after c cap sv ops).acked, w ∈ log) ∧
      (∀ w ∈ log, w ∈ (C32.after c cap sv ops).committed) ∧
      Answers log muts base p rts proj batchSize limit
        (queryTxn y cod base keys c.table (C32.after c cap sv ops).db (stage muts) p rts (some proj) batchSize limit) := by
  obtain ⟨hck, n, log, logs, cur, hd⟩ := C32.quiet_state h
  have hrows := Lemmas.DurableRows.run_ok ops (Durable.Sys.new cap c.table sv)
    (Lemmas.DurableRows.new_ok (P := fun r : Row => r.length = base.length ∧
      ∀ k, c.ext r = some k → C07.RowFits cod base keys p k r) c cap c.table sv) h.2.2.1 hw
  have hput : ∀ k u r, (⟨k, u, .put r⟩ : Ver K Row) ∈ (C32.after c cap sv ops).committed →
      r.length = base.length ∧ C07.RowFits cod base keys p k r := by
    intro k u r hm
    obtain ⟨h1, h2, h3⟩ := (hrows.committed _ hm).2 r rfl
    exact ⟨h2, h3 k h1⟩
  have hlast := lastingBeside_of (fun k u r h => (hput k u r h).2) hlast
  have hf : Functional (· ∈ log) := fun a b ha hb => hck.fn a b (hd.sub a ha) (hd.sub b hb)
  obtain ⟨bs, rows, g1, g2, g3⟩ := queryTxn_of_state hd.inv hd.cont hf y cod base keys p rts
    (fun w hw => (hrows.committed w (hd.sub w hw)).1)
    (fun k u r hm => (hput k u r (hd.sub _ hm)).2)
    (fun k u r hm => (hput k u r (hd.sub _ hm)).1)
    ⟨(fun a ha r hr => (hrows.mem.1 a ha r hr).1), (fun m hm r hr => (hrows.mem.2 m hm r hr).1)⟩
    hsel hq.codec hq.foreign hq.pred
    (deletesCovered_latest hd.cont.runs fun w hm => hts w (hd.sub w (hd.cont.sub w (List.mem_append_left _ hm))))
    muts (fun k r h => (hm k r h).2) (fun k r h => (hm k r h).1)
    (fun k hk u r h1 _ h3 u' r' h4 h5 _ => hlast k hk u r (hd.sub _ h1) h3 u' r' (hd.sub _ h4) h5)
    hq.table proj hq.proj batchSize hb limit
  exact ⟨log, hd.acked, hd.sub, bs, rows, g1,
    txnScan_of g2 (visible_latest c.x hd.cont hf (fun w hw => hts w (hd.sub w hw))), g3⟩

/-- **C74.** A transaction that staged nothing gets the answer of a query outside transactions, whatever the state. -/
theorem without_mutations (y : Plan.Ext K) (c : Codec K) (base keys : Schema) (t : Nat) (s : Db K Row) (p : Expr) (rts : Nat)
    (proj : Option Schema) (batchSize : Nat) (limit : Option Nat) :
    queryTxn y c base keys t s (stage []) p rts proj batchSize limit = query y c base keys t s p rts proj batchSize limit :=
  rfl

/-! ## Before and after the commit -/

/-- These writes are those of a commit of `muts` at timestamp `ts`: for every key the last mutation. -/
def CommitsAt (muts : List (K × Stage Row)) (ts : Nat) (log : List (Ver K Row)) : Prop :=
  ∀ w : Ver K Row, w ∈ log ↔ w.ts = ts ∧ lastFor muts w.key = some (match w.op with | .put r => .up r | .del => .del)

/-- What a transaction sees is what everybody sees after its commit. -/
theorem seen_iff_committed {log log' : List (Ver K Row)} {muts : List (K × Stage Row)} {rts ts rts' : Nat}
    (hlog : ∀ w ∈ log, w.ts ≤ rts) (hlt : rts < ts) (hle : ts ≤ rts') (hc : CommitsAt muts ts log') (k : K) (r : Row) :
    Visible (· ∈ log ++ log') rts' k r ↔ SeenIn (· ∈ log) muts rts k r := by
  have hnew : ∀ s, lastFor muts k = some s →
      (⟨k, ts, match s with | .up r => Mut.put r | .del => Mut.del⟩ : Ver K Row) ∈ log' := by
    intro s hs
    refine (hc _).2 ⟨rfl, ?_⟩
    cases s <;> exact hs
  have htop : ∀ s, lastFor muts k = some s → Visible (· ∈ log ++ log') rts' k r → s = .up r := by
    rintro s hs ⟨u, hu, hur, hmax⟩
    have h1 := hmax _ (List.mem_append_right _ (hnew s hs)) rfl hle
    rcases List.mem_append.1 hu with hu | hu
    · have h2 : u ≤ rts := hlog _ hu
      have h1 : ts ≤ u := h1
      omega
    · have := ((hc _).1 hu).2
      simp only at this
      rw [hs] at this
      exact Option.some.inj this
  unfold SeenIn
  cases hs : lastFor muts k with
  | some s =>
    cases s with
    | up r' =>
      constructor
      · intro hv
        have h := htop _ hs hv
        cases h
        rfl
      · intro h
        have h : r = r' := h
        subst h
        refine ⟨ts, List.mem_append_right _ (hnew _ hs), hle, fun w hw hk _ => ?_⟩
        rcases List.mem_append.1 hw with hw | hw
        · exact Nat.le_of_lt (Nat.lt_of_le_of_lt (hlog w hw) hlt)
        · exact Nat.le_of_eq ((hc w).1 hw).1
    | del => exact ⟨(fun hv => by cases htop _ hs hv), (fun h => h.elim)⟩
  | none =>
    have hno : ∀ w ∈ log', w.key ≠ k := by
      intro w hw hk
      have := ((hc w).1 hw).2
      rw [hk, hs] at this
      cases this
    constructor
    · rintro ⟨u, hu, _, hmax⟩
      rcases List.mem_append.1 hu with hu | hu
      · exact ⟨u, hu, hlog _ hu, fun w hw hk hwr =>
          hmax w (List.mem_append_left _ hw) hk (Nat.le_trans hwr (Nat.le_trans (Nat.le_of_lt hlt) hle))⟩
      · exact absurd rfl (hno _ hu)
    · rintro ⟨u, hu, hur, hmax⟩
      refine ⟨u, List.mem_append_left _ hu, Nat.le_trans hur (Nat.le_trans (Nat.le_of_lt hlt) hle), fun w hw hk _ => ?_⟩
      rcases List.mem_append.1 hw with hw | hw
      · exact hmax w hw hk (hlog w hw)
      · exact absurd hk (hno w hw)

theorem ok_prefix (ext : Row → Option K) (x : Exec K Row) (t : Nat) : ∀ (a b : List (Lsm.Op K Row)) (s : Db K Row),
    (Lsm.run ext x t s (a ++ b)).1 = true → (Lsm.run ext x t s a).1 = true
  | [], _, _, _ => rfl
  | o :: a, b, s, h => by
    rw [List.cons_append] at h
    unfold Lsm.run at h
    simp only [Bool.and_eq_true] at h
    unfold Lsm.run
    simp only [Bool.and_eq_true]
    exact ⟨h.1, ok_prefix ext x t a b _ h.2⟩

/-- **C74 (partial).** A transaction queries; the history goes on by the writes of its commit, and flushes and
compactions as it may be. A query of the database then returns the rows the transaction got, in the same order.

Missing: as in `latest_txn_query_partial`. -/
theorem commit_changes_no_answer_partial (ext : Row → Option K) (x : Exec K Row) (hn : 0 < x.readRows)
    (cap t sv : Nat) (ops more : List (Lsm.Op K Row)) (hr : NoRestart (ops ++ more))
    (hok : (Lsm.run ext x t (Db.new cap t sv) (ops ++ more)).1 = true)
    (hfit : ∀ l e, EverListed (reached ext x cap t sv (ops ++ more)) t l e →
      ∀ f, (reached ext x cap t sv (ops ++ more)).files ⟨l, e.id⟩ = some f → Fits x.readRows f)
    (y : Plan.Ext K) (c : Codec K) (base keys : Schema) (p : Expr) (proj : Schema)
    (hw : WritesOk c base keys p ext (ops ++ more)) (hq : QueryOk y c base keys p proj)
    (muts : List (K × Stage Row)) (hm : StagedOk c base keys p muts)
    (rts ts rts' : Nat) (hts : ∀ w ∈ logOf ext ops, w.ts ≤ rts) (hlt : rts < ts) (hle : ts ≤ rts')
    (hcommit : CommitsAt muts ts (logOf ext more))
    (hsel : PrunesSoundly y base t (reached ext x cap t sv ops) p rts)
    (hsel' : PrunesSoundly y base t (reached ext x cap t sv (ops ++ more)) p rts')
    (hlast : Lasting base (logOf ext (ops ++ more)) p ∨ ∀ e ∈ leaves p, leafCol e ∈ keys.map (·.1))
    (batchSize : Nat) (hb : 0 < batchSize) (limit : Option Nat) :
    ∃ bs bs' : List (List Row),
      queryTxn y c base keys t (reached ext x cap t sv ops) (stage muts) p rts (some proj) batchSize limit =
        some (.ok (some (bs, none))) ∧
      query y c base keys t (reached ext x cap t sv (ops ++ more)) p rts' (some proj) batchSize limit =
        some (.ok (some (bs', none))) ∧ bs'.flatten = bs.flatten := by
  have hlog : logOf ext (ops ++ more) = logOf ext ops ++ logOf ext more := by
    unfold logOf
    rw [List.flatMap_append]
  have hin : ∀ w ∈ logOf ext ops, w ∈ logOf ext (ops ++ more) := fun w h => by rw [hlog]; exact List.mem_append_left _ h
  have hlast : Lasting base (logOf ext (ops ++ more)) p := hlast.elim id (C73.lasting_of_keys hw)
  obtain ⟨bs, rows, g1, g2, _, g4⟩ := latest_txn_query_partial ext x hn cap t sv ops
    (fun c h => hr c (List.mem_append_left _ h)) (ok_prefix ext x t ops more _ hok)
    (by
      intro l e he f hf
      obtain ⟨a, g, b1, b2⟩ := C41.published_files_never_change ext x hn cap t sv ops more l e he
      obtain ⟨n, hi⟩ := C38.reached_inv ext x hn cap t sv ops
      rw [(hi.ent l e (everListed_iff.1 he)).1] at b1 b2
      rw [b1] at hf
      obtain rfl := Option.some.inj hf
      exact hfit l e a g b2)
    y c base keys p proj
    ⟨fun w h => hw.ts w (hin w h), fun a b ha hb => hw.agree a b (hin a ha) (hin b hb),
      fun rows h => hw.whole rows (List.mem_append_left _ h), fun k u r h => hw.fits k u r (hin _ h)⟩
    hq muts hm rts hts hsel
    (.inl fun k _ u r h1 h2 u' r' h3 h4 => hlast k u r (hin _ h1) h2 u' r' (hin _ h3) h4) batchSize hb limit
  obtain ⟨bs', rows', g1', g2', _, g4'⟩ := C73.latest_query_partial ext x hn cap t sv (ops ++ more) hr hok hfit y c base keys
    p proj hw hq rts'
    (by
      intro w h
      rw [hlog] at h
      rcases List.mem_append.1 h with h | h
      · exact Nat.le_trans (hts w h) (Nat.le_trans (Nat.le_of_lt hlt) hle)
      · rw [((hcommit w).1 h).1]; exact hle)
    hsel' hlast batchSize hb limit
  rw [hlog] at g2'
  have : rows' = rows := SMap.sorted_ext g2'.1 g2.1 (fun q => by
    rw [g2'.2 q.1 q.2, g2.2 q.1 q.2, seen_iff_committed hts hlt hle hcommit])
  exact ⟨bs, bs', g1, g1', by rw [g4, g4', this]⟩

/-! ## The hypotheses are met

The history of C73: two flushes, a compaction, a frozen run and more writes. -/
section Example
open C07 C61 C73

/-- Key 3 was deleted and is written anew, key 2 ceases to match, key 6 is new, key 7 is written and deleted. -/
def exMuts : List (Int × Stage Row) :=
  [(3, .up (exRow 3 5)), (2, .up (exRow 2 5)), (6, .up (exRow 6 5)), (7, .up (exRow 7 5)), (2, .up (exRow 2 7)), (7, .del)]

theorem exMuts_ok : StagedOk exCodec exSchema exKey exPred exMuts := by
  intro k r h
  simp only [exMuts, List.mem_cons, List.not_mem_nil, or_false, Prod.mk.injEq, Stage.up.injEq, reduceCtorEq,
    and_false] at h
  rcases h with h | h | h | h | h <;> obtain ⟨rfl, rfl⟩ := h <;> exact ⟨rfl, exRow_fits _ _ (by decide) (by decide)⟩

/-- The answers at the newest timestamp for `id > 1 AND x = 5`: outside the transaction, inside it, with a limit, and
without a predicate. -/
example : LastingBeside exMuts exSchema (logOf exId exHist) exPred ∧
    query C07.exExt exCodec exSchema exKey 1 (exDb exHist) exPred 6 (some [("id", .int .i64)]) 10 none =
      some (.ok (some ([[[some (.int .i64 2)], [some (.int .i64 5)]]], none))) ∧
    queryTxn C07.exExt exCodec exSchema exKey 1 (exDb exHist) (stage exMuts) exPred 6 (some [("id", .int .i64)]) 10 none =
      some (.ok (some ([[[some (.int .i64 3)], [some (.int .i64 5)], [some (.int .i64 6)]]], none))) ∧
    queryTxn C07.exExt exCodec exSchema exKey 1 (exDb exHist) (stage exMuts) exPred 6 (some [("id", .int .i64)]) 1 (some 2) =
      some (.ok (some ([[[some (.int .i64 3)]], [[some (.int .i64 5)]]], none))) ∧
    queryTxn C07.exExt exCodec exSchema exKey 1 (exDb exHist) (stage exMuts) .tt 6 (some exSchema) 10 none =
      some (.ok (some ([[exRow 1 5, exRow 2 7, exRow 3 5, exRow 5 5, exRow 6 5]], none))) := by
  refine ⟨?_, by decide +kernel, by decide +kernel, by decide +kernel, by decide +kernel⟩
  intro k _ u r h hm u' r' h' hu
  rcases exRows h with h | h | h | h | h | h | h <;> obtain ⟨rfl, rfl, rfl⟩ := h <;>
    rcases exRows h' with h' | h' | h' | h' | h' | h' | h' <;> obtain ⟨h1, rfl, rfl⟩ := h' <;>
    first | omega | rfl | (cases hm; done)

/-- Before the compaction, at an old timestamp. -/
example : NoCompaction (exHist.take 12) ∧ DeletesCovered 2 (exDb (exHist.take 12)).runs.runs ∧
    queryTxn C07.exExt exCodec exSchema exKey 1 (exDb (exHist.take 12)) (stage exMuts) exPred 2 (some [("id", .int .i64)]) 10
      none = some (.ok (some ([[[some (.int .i64 3)], [some (.int .i64 4)], [some (.int .i64 6)]]], none))) := by
  refine ⟨?_, ?_, by decide +kernel⟩
  · intro i h
    simp [exHist, flushed] at h
  · have : (exDb (exHist.take 12)).runs.runs = [] := by rfl
    rw [this]
    intro m hm
    cases hm

/-- After failing flushes, and after crashes. -/
example :
    queryTxn C07.exExt exCodec exSchema exKey 1 (failDb failing) (stage exMuts) exPred 9 (some [("id", .int .i64)]) 10 none =
      some (.ok (some ([[[some (.int .i64 3)], [some (.int .i64 4)], [some (.int .i64 6)]]], none))) ∧
    queryTxn C07.exExt exCodec exSchema exKey 1 (C32.after rowC 4 0 storm).db (stage exMuts) exPred 9
      (some [("id", .int .i64)]) 10 none =
      some (.ok (some ([[[some (.int .i64 3)], [some (.int .i64 4)], [some (.int .i64 6)]]], none))) := by
  refine ⟨by decide +kernel, by decide +kernel⟩

/-- A commit: the two writes, and a flush between them and the query. -/
def exCommit : List (Lsm.Op Int Row) :=
  [.write (.put [(exRow 3 5, 7), (exRow 6 5, 7)]), .write (.del [(1, 7), (7, 7)]), .write .freeze]

def exStaged : List (Int × Stage Row) :=
  [(1, .up (exRow 1 5)), (7, .del), (3, .up (exRow 3 5)), (1, .del), (6, .up (exRow 6 5))]

example : CommitsAt exStaged 7 (logOf exId exCommit) := by
  have e : logOf exId exCommit = [⟨3, 7, .put (exRow 3 5)⟩, ⟨6, 7, .put (exRow 6 5)⟩, ⟨1, 7, .del⟩, ⟨7, 7, .del⟩] := by decide
  rintro ⟨k, u, op⟩
  rw [e]
  by_cases h1 : k = 1
  · subst h1
    have : lastFor exStaged 1 = some .del := by decide
    cases op <;> simp [this]
  by_cases h3 : k = 3
  · subst h3
    have : lastFor exStaged 3 = some (.up (exRow 3 5)) := by decide
    cases op <;> simp [this, eq_comm]
  by_cases h6 : k = 6
  · subst h6
    have : lastFor exStaged 6 = some (.up (exRow 6 5)) := by decide
    cases op <;> simp [this, eq_comm]
  by_cases h7 : k = 7
  · subst h7
    have : lastFor exStaged 7 = some .del := by decide
    cases op <;> simp [this]
  have : lastFor exStaged k = none := by
    simp [lastFor, exStaged, List.find?, Ne.symm h1, Ne.symm h3, Ne.symm h6, Ne.symm h7]
  simp [this, h1, h3, h6, h7]

example : NoRestart (exHist ++ exCommit) ∧ (Lsm.run exId exWork 1 (Db.new 4 1 0) (exHist ++ exCommit)).1 = true ∧
    queryTxn C07.exExt exCodec exSchema exKey 1 (exDb exHist) (stage exStaged) .tt 6 (some exSchema) 10 none =
      some (.ok (some ([[exRow 2 5, exRow 3 5, exRow 5 5, exRow 6 5]], none))) ∧
    query C07.exExt exCodec exSchema exKey 1 (exDb (exHist ++ exCommit)) .tt 8 (some exSchema) 10 none =
      some (.ok (some ([[exRow 2 5, exRow 3 5, exRow 5 5, exRow 6 5]], none))) := by
  refine ⟨?_, by decide +kernel, by decide +kernel, by decide +kernel⟩
  intro cap h
  simp [exHist, flushed, exCommit] at h

/-! ## Where it does not hold -/

/-- **C74 refuted** without `LastingBeside`: key 1 was overwritten with `x = 7` in a second table. A transaction that
stages another key gets the overwritten row for `x = 5`, as queries outside do (`C73.stale_rows_after_two_flushes`). One
that stages key 1, be it with the very row that is there, does not. -/
theorem stale_rows_inside_a_transaction :
    logOf exId overwritten = [⟨1, 1, .put (exRow 1 5)⟩, ⟨1, 2, .put (exRow 1 7)⟩] ∧
    queryTxn C07.exExt exCodec exSchema exKey 1 (exDb overwritten) (stage [(2, .up (exRow 2 5))]) isFive 9 (some exSchema) 10
      none = some (.ok (some ([[exRow 1 5, exRow 2 5]], none))) ∧
    queryTxn C07.exExt exCodec exSchema exKey 1 (exDb overwritten) (stage [(1, .up (exRow 1 7))]) isFive 9 (some exSchema) 10
      none = some (.ok (some ([], none))) := by
  refine ⟨by decide, by decide +kernel, by decide +kernel⟩

end Example

end Tonbo.Props.C74
