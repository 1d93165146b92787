import Verif.Spec.CompactView
import Verif.Lemmas.StoreScan
import Verif.Props.C45_KeyOrder

/-!
# C07 and C12: a scan with a predicate, from the plan to the batches

The store holds what a sequence of successful calls left in memory, and files in levels. The result
of a scan is compared with the history (`Spec.History`): the rows visible at the read timestamp of
which the predicate is true.
-/

set_option linter.unusedSectionVars false

namespace Tonbo.Props.C07
open Tonbo.Model Tonbo.Model.Mem Tonbo.Model.Merge Tonbo.Spec Tonbo.Lemmas.Mem Tonbo.Lemmas.Scan
open Tonbo.Model.Pred Tonbo.Model.Keys Tonbo.Model.Bounds Tonbo.Model.Plan Tonbo.Lemmas.Pred
open Tonbo.Lemmas.PredEval Tonbo.Lemmas.Keys Tonbo.Lemmas.Bounds Tonbo.Lemmas.Plan
open Tonbo.Props.C09 (IsKey FitsExactly)

variable {K : Type} [LinearOrder K]

/-- The predicate can be evaluated on the row (C08, C09): its key columns hold the key, literals on the
key column are of the type of the column, and the evaluator handles every leaf. -/
abbrev RowFits (c : Codec K) (schema ks : Schema) (p : Expr) (k : K) (r : Row) : Prop :=
  Lemmas.Plan.RowFits c schema ks p k r

/-- What the code relies on from other crates: scalars of one type compare by value, and the row filter
computes the predicate. -/
structure Foreign (x : Plan.Ext K) (schema : Schema) (p : Expr) : Prop where
  pc : PcOk x.pc
  filter : ∀ q r, (splitRowFilter schema p).pushdown = some q →
    x.rowFilter q r = decide (meaning (envOf schema r) q = .t)

/-- What is assumed of a file: sorted, honest statistics, and the selection of row groups and pages
omits no visible row that satisfies the predicate. -/
structure FileOk (x : Plan.Ext K) (schema : Schema) (p : Expr) (rts : Nat) (f : Sst K) : Prop where
  sorted : FileSorted f.file
  stats : StatsEnclose f
  select : SelectsMatches schema p rts f.file.data (x.select p rts f)

/-- The predicate: no Bloom-filter leaves (rejected by the planner), literals on the key column not NaN,
and not the constant `FALSE` on a composite key (`Props.C09.false_matches_composite_keys`). -/
structure PredOk (ks : Schema) (p : Expr) : Prop where
  bloom : ∀ e ∈ leaves p, ∀ col, ¬ BloomLeaf col e
  literals : ∀ f ∈ ks, ∀ e ∈ leaves p, LeafGood f.1 e
  notFalse : ks.length ≠ 1 → p ≠ .ff

/-- Every frozen run with rows and a visible deletion has a visible row. -/
def DeletesCovered (rts : Nat) (runs : List (Imm K Row)) : Prop :=
  ∀ m ∈ runs, m.ts ≠ [] → (∃ e ∈ m.index, e.1.ts ≤ rts) → ∃ t ∈ m.ts, t ≤ rts

/-- If one visible row of a key satisfies the predicate, so do all visible rows of that key in files. -/
def StableInFiles (schema : Schema) (log : List (Ver K Row)) (levels : List (List (Sst K))) (p : Expr)
    (rts : Nat) : Prop :=
  ∀ k t r, t ≤ rts → RowAt log levels k t r → meaning (envOf schema r) p = .t →
    ∀ t' r', t' ≤ rts → (∃ f ∈ levels.flatten, (⟨k, t'⟩, r') ∈ f.file.data) →
      meaning (envOf schema r') p = .t

/-- What holds of a memory that represents writes, and of files. -/
theorem basis_of_content {x : Plan.Ext K} {c : Codec K} {schema ks : Schema} {ext : Row → Option K}
    {st : Store K} {L : Ver K Row → Prop} {p : Expr} {rts : Nat} (hm : WF ext st.mem) (hi : ∀ m ∈ st.imms, Imm.WF ext m)
    (hmem : ∀ w, (Content st.mem st.mem.index w ∨ ∃ m ∈ st.imms, Imm.Content m w) → L w)
    (hts : ∀ w, L w → w.ts < 2 ^ 64)
    (hfiles : ∀ f ∈ st.levels.flatten, FileOk x schema p rts f)
    (hrows : ∀ k u r, Lemmas.Plan.Holds st ⟨k, u⟩ r → RowFits c schema ks p k r)
    (hc : CodecOk c ks p) (hx : Foreign x schema p) (hp : PredOk ks p)
    (hdel : DeletesCovered rts st.imms) :
    Basis x c schema ks ext st p rts := by
  have hmemTs : ∀ e ∈ st.mem.index, e.1.ts ≤ tsMax := by
    intro e he
    have hpt := hm.points e he
    have hr : ∃ m, res st.mem e.2 = some m := by
      obtain ⟨kt, loc⟩ := e
      cases loc with
      | up b r => obtain ⟨row, g1, _⟩ := hpt; exact ⟨_, by simp [res, g1]; rfl⟩
      | dl b r => exact ⟨_, rfl⟩
    obtain ⟨m, hm⟩ := hr
    have := hts ⟨e.1.key, e.1.ts, m⟩ (hmem _ (.inl ⟨e.2, he, hm⟩))
    simp only [tsMax] at *; omega
  have himmTs : ∀ m ∈ st.imms, ∀ e ∈ m.index, e.1.ts ≤ tsMax := by
    intro m hm e he
    have : ∃ op, Imm.Content m ⟨e.1.key, e.1.ts, op⟩ := imm_content_of_index (hi m hm) he
    obtain ⟨op, ho⟩ := this
    have := hts _ (hmem _ (.inr ⟨m, hm, ho⟩))
    simp only [tsMax] at *; omega
  exact
    { mem := hm, memTs := hmemTs, imm := hi, immTs := himmTs, tomb := hdel,
      sorted := fun f hf => (hfiles f hf).sorted, stats := fun f hf => (hfiles f hf).stats,
      select := fun f hf => (hfiles f hf).select, fits := hrows,
      codec := hc, pc := hx.pc, filter := hx.filter, bloom := (findBloom_none p).2 hp.bloom, hff := hp.notFalse,
      leafGood := hp.literals }

/-- What holds of the memory successful calls leave, and of files. -/
theorem basis_of_calls {x : Plan.Ext K} {c : Codec K} {schema ks : Schema} {ext : Row → Option K}
    {cap : Nat} {ops : List (Op K Row)} {t : Runs K Row} {levels : List (List (Sst K))} {p : Expr}
    {rts : Nat} (hcalls : (Runs.new cap).calls ext ops = (true, t))
    (hts : ∀ w ∈ ops.flatMap (opWrites ext), w.ts < 2 ^ 64)
    (hfl : Functional (· ∈ ops.flatMap (opWrites ext)))
    (hfiles : ∀ f ∈ levels.flatten, FileOk x schema p rts f)
    (hrows : ∀ k u r, RowAt (ops.flatMap (opWrites ext)) levels k u r → RowFits c schema ks p k r)
    (hc : CodecOk c ks p) (hx : Foreign x schema p) (hp : PredOk ks p)
    (hdel : DeletesCovered rts t.runs) :
    Basis x c schema ks ext ⟨t.mem, t.runs, levels⟩ p rts ∧
    ∀ w, (Content t.mem t.mem.index w ∨ ∃ m ∈ t.runs, Imm.Content m w) ↔ w ∈ ops.flatMap (opWrites ext) := by
  have hmem := memory_is_log hcalls hfl
  obtain ⟨logs, cur, h1, h2, _⟩ := calls_ok ops (Runs.new cap) t [] [] .nil (rep_new ext cap) hcalls
  refine ⟨basis_of_content (L := (· ∈ ops.flatMap (opWrites ext))) h2.1 ?_ (fun w hw => (hmem w).1 hw) hts hfiles ?_ hc hx hp hdel, hmem⟩
  · intro m hm
    obtain ⟨i, hi⟩ := List.mem_iff_getElem?.1 hm
    obtain ⟨l, _, hrep⟩ := forall₂_getElem? h1 hi
    exact hrep.1
  · intro k u r h
    refine hrows k u r ?_
    unfold RowAt
    rw [← hmem, or_assoc]
    exact h

/-- **C07 (partial).** A scan with predicate `p` at `rts` over memory and files returns, in batches of at
most `batchSize`, exactly the rows visible at `rts` of which `p` is true, by ascending key, cut at the
limit; it neither panics nor reports an error. `hdel` and `hstable` are what is missing: without them the
code returns other rows, see `deletion_skipped_with_its_run` and `stale_row_returned`. -/
theorem filtered_scan_partial (x : Plan.Ext K) (c : Codec K) (schema ks : Schema) (ext : Row → Option K)
    (cap : Nat) (ops : List (Op K Row)) (t : Runs K Row) (levels : List (List (Sst K))) (p : Expr)
    (rts : Nat) (hcalls : (Runs.new cap).calls ext ops = (true, t))
    (hts : ∀ w ∈ ops.flatMap (opWrites ext), w.ts < 2 ^ 64)
    (hfun : Functional (History (ops.flatMap (opWrites ext)) levels))
    (hfiles : ∀ f ∈ levels.flatten, FileOk x schema p rts f)
    (hrows : ∀ k u r, RowAt (ops.flatMap (opWrites ext)) levels k u r → RowFits c schema ks p k r)
    (hc : CodecOk c ks p) (hx : Foreign x schema p) (hp : PredOk ks p)
    (hdel : DeletesCovered rts t.runs)
    (hstable : StableInFiles schema (ops.flatMap (opWrites ext)) levels p rts)
    {Q : Type} (proj : Row → Q) (batchSize : Nat) (hb : 0 < batchSize) (limit : Option Nat) :
    ∃ (bs : List (List Q)) (rows : List (K × Row)),
      scanStore x c schema ks ⟨t.mem, t.runs, levels⟩ p rts proj batchSize limit = .ok (some (bs, none)) ∧
      IsFilteredScan (History (ops.flatMap (opWrites ext)) levels) schema p rts rows ∧
      (∀ b ∈ bs, b ≠ [] ∧ b.length ≤ batchSize) ∧
      bs.flatten = upTo limit (rows.map (fun q => proj q.2)) := by
  obtain ⟨hbasis, hmem⟩ := basis_of_calls hcalls hts (fun a b ha hb => hfun a b (.inl ha) (.inl hb)) hfiles hrows hc hx hp hdel
  have hver : ∀ w, Versions ⟨t.mem, t.runs, levels⟩ w ↔ History (ops.flatMap (opWrites ext)) levels w := by
    intro w
    unfold Versions History
    rw [← hmem w, or_assoc]
  have hholds : ∀ k u r, Lemmas.Plan.Holds ⟨t.mem, t.runs, levels⟩ ⟨k, u⟩ r ↔
      RowAt (ops.flatMap (opWrites ext)) levels k u r := by
    intro k u r
    unfold Lemmas.Plan.Holds RowAt
    rw [← hmem, or_assoc]
  have hready : Ready x c schema ks ext ⟨t.mem, t.runs, levels⟩ p rts :=
    { hbasis with
      stable := fun k ⟨u, r, h1, h2, h3⟩ t' r' ht' hf =>
        hstable k u r h1 ((hholds k u r).1 h2) h3 t' r' ht' hf,
      functional := fun a b ha hb => hfun a b ((hver a).1 ha) ((hver b).1 hb) }
  obtain ⟨bs, rows, g1, g2, g3, g4, g5⟩ := scanStore_spec hready proj hb limit
  refine ⟨bs, rows, g1, ⟨g2, fun k r => ?_⟩, g4, ?_⟩
  · rw [g3 k r]
    exact and_congr_left fun _ => visible_congr fun w _ _ => hver w
  · rw [g5]; cases limit <;> rfl

/-- Once a visible row of a key satisfies the predicate, so do the later visible rows of that key in
files. -/
def LastsInFiles (schema : Schema) (log : List (Ver K Row)) (levels : List (List (Sst K))) (p : Expr)
    (rts : Nat) : Prop :=
  ∀ k t r, t ≤ rts → RowAt log levels k t r → meaning (envOf schema r) p = .t →
    ∀ t' r', t ≤ t' → t' ≤ rts → (∃ f ∈ levels.flatten, (⟨k, t'⟩, r') ∈ f.file.data) →
      meaning (envOf schema r') p = .t

/-- What was written to memory, and all that is stored in files. -/
def Kept (log : List (Ver K Row)) (levels : List (List (Sst K))) (w : Ver K Row) : Prop :=
  w ∈ log ∨ ∃ f ∈ levels.flatten, Spec.Holds f.file w

/-- **C07 (partial).** The same if rows of a key may begin to satisfy the predicate, but not cease to: rows
that do not match yet may be overwritten by rows that do. Nothing that is stored may conflict. -/
theorem filtered_scan_of_lasting_predicate_partial (x : Plan.Ext K) (c : Codec K) (schema ks : Schema)
    (ext : Row → Option K) (cap : Nat) (ops : List (Op K Row)) (t : Runs K Row)
    (levels : List (List (Sst K))) (p : Expr)
    (rts : Nat) (hcalls : (Runs.new cap).calls ext ops = (true, t))
    (hts : ∀ w ∈ ops.flatMap (opWrites ext), w.ts < 2 ^ 64)
    (hfun : Functional (Kept (ops.flatMap (opWrites ext)) levels))
    (hfiles : ∀ f ∈ levels.flatten, FileOk x schema p rts f)
    (hrows : ∀ k u r, RowAt (ops.flatMap (opWrites ext)) levels k u r → RowFits c schema ks p k r)
    (hc : CodecOk c ks p) (hx : Foreign x schema p) (hp : PredOk ks p)
    (hdel : DeletesCovered rts t.runs)
    (hlast : LastsInFiles schema (ops.flatMap (opWrites ext)) levels p rts)
    {Q : Type} (proj : Row → Q) (batchSize : Nat) (hb : 0 < batchSize) (limit : Option Nat) :
    ∃ (bs : List (List Q)) (rows : List (K × Row)),
      scanStore x c schema ks ⟨t.mem, t.runs, levels⟩ p rts proj batchSize limit = .ok (some (bs, none)) ∧
      IsFilteredScan (History (ops.flatMap (opWrites ext)) levels) schema p rts rows ∧
      (∀ b ∈ bs, b ≠ [] ∧ b.length ≤ batchSize) ∧
      bs.flatten = upTo limit (rows.map (fun q => proj q.2)) := by
  obtain ⟨hbasis, hmem⟩ := basis_of_calls hcalls hts (fun a b ha hb => hfun a b (.inl ha) (.inl hb)) hfiles hrows hc hx hp hdel
  have hver : ∀ w, Versions ⟨t.mem, t.runs, levels⟩ w ↔ History (ops.flatMap (opWrites ext)) levels w := by
    intro w
    unfold Versions History
    rw [← hmem w, or_assoc]
  have hall : ∀ w, AllVersions ⟨t.mem, t.runs, levels⟩ w → Kept (ops.flatMap (opWrites ext)) levels w := by
    rintro ⟨k, ts, op⟩ (hw | hw | ⟨f, hf, hw⟩)
    · exact .inl ((hmem _).1 (.inl hw))
    · exact .inl ((hmem _).1 (.inr hw))
    · exact .inr ⟨f, hf, by cases op <;> exact hw⟩
  have hholds : ∀ k u r, Lemmas.Plan.Holds ⟨t.mem, t.runs, levels⟩ ⟨k, u⟩ r →
      RowAt (ops.flatMap (opWrites ext)) levels k u r := by
    intro k u r h
    unfold RowAt
    rw [← hmem, or_assoc]
    exact h
  obtain ⟨bs, rows, g1, g2, g3, g4, g5⟩ := scanStore_lasting hbasis
    (fun a b ha hb => hfun a b (hall a ha) (hall b hb))
    (fun k u r hu hr hm t' r' h1 h2 hf => hlast k u r hu (hholds k u r hr) hm t' r' h1 h2 hf) proj hb limit
  refine ⟨bs, rows, g1, ⟨g2, fun k r => ?_⟩, g4, ?_⟩
  · rw [g3 k r]
    exact and_congr_left fun _ => visible_congr fun w _ _ => hver w
  · rw [g5]; cases limit <;> rfl

/-- **C07 (partial).** If every leaf of the predicate is about a key column, nothing need be assumed
about other versions of a row. -/
theorem filtered_scan_by_key_partial (x : Plan.Ext K) (c : Codec K) (schema ks : Schema)
    (ext : Row → Option K) (cap : Nat) (ops : List (Op K Row)) (t : Runs K Row)
    (levels : List (List (Sst K))) (p : Expr)
    (rts : Nat) (hcalls : (Runs.new cap).calls ext ops = (true, t))
    (hts : ∀ w ∈ ops.flatMap (opWrites ext), w.ts < 2 ^ 64)
    (hfun : Functional (History (ops.flatMap (opWrites ext)) levels))
    (hfiles : ∀ f ∈ levels.flatten, FileOk x schema p rts f)
    (hrows : ∀ k u r, RowAt (ops.flatMap (opWrites ext)) levels k u r → RowFits c schema ks p k r)
    (hc : CodecOk c ks p) (hx : Foreign x schema p) (hp : PredOk ks p)
    (hkey : ∀ e ∈ leaves p, leafCol e ∈ ks.map (·.1))
    (hdel : DeletesCovered rts t.runs)
    {Q : Type} (proj : Row → Q) (batchSize : Nat) (hb : 0 < batchSize) (limit : Option Nat) :
    ∃ (bs : List (List Q)) (rows : List (K × Row)),
      scanStore x c schema ks ⟨t.mem, t.runs, levels⟩ p rts proj batchSize limit = .ok (some (bs, none)) ∧
      IsFilteredScan (History (ops.flatMap (opWrites ext)) levels) schema p rts rows ∧
      (∀ b ∈ bs, b ≠ [] ∧ b.length ≤ batchSize) ∧
      bs.flatten = upTo limit (rows.map (fun q => proj q.2)) :=
  filtered_scan_partial x c schema ks ext cap ops t levels p rts hcalls hts hfun hfiles hrows hc hx hp
    hdel (fun k u r _ hr hm u' r' _ hf => by
      rw [← hm]
      exact meaning_of_key (hrows k u' r' (.inr hf)).key (hrows k u r hr).key p hkey)
    proj batchSize hb limit

/-- **C07 (partial).** If everything is still in the mutable table, nothing need be assumed about
deletions or other versions: every filtered scan is exact. -/
theorem filtered_scan_memory (x : Plan.Ext K) (c : Codec K) (schema ks : Schema)
    (ext : Row → Option K) (cap : Nat) (ops : List (Op K Row)) (t : Runs K Row) (p : Expr)
    (rts : Nat) (hcalls : (Runs.new cap).calls ext ops = (true, t)) (hruns : t.runs = [])
    (hts : ∀ w ∈ ops.flatMap (opWrites ext), w.ts < 2 ^ 64)
    (hfun : Functional (· ∈ ops.flatMap (opWrites ext)))
    (hrows : ∀ k u r, ⟨k, u, .put r⟩ ∈ ops.flatMap (opWrites ext) → RowFits c schema ks p k r)
    (hc : CodecOk c ks p) (hx : Foreign x schema p) (hp : PredOk ks p)
    {Q : Type} (proj : Row → Q) (batchSize : Nat) (hb : 0 < batchSize) (limit : Option Nat) :
    ∃ (bs : List (List Q)) (rows : List (K × Row)),
      scanStore x c schema ks ⟨t.mem, [], []⟩ p rts proj batchSize limit = .ok (some (bs, none)) ∧
      IsFilteredScan (· ∈ ops.flatMap (opWrites ext)) schema p rts rows ∧
      (∀ b ∈ bs, b ≠ [] ∧ b.length ≤ batchSize) ∧
      bs.flatten = upTo limit (rows.map (fun q => proj q.2)) := by
  have hH : ∀ w, History (ops.flatMap (opWrites ext)) ([] : List (List (Sst K))) w ↔
      w ∈ ops.flatMap (opWrites ext) := by
    intro w; simp [History]
  obtain ⟨bs, rows, g1, g2, g3, g4⟩ := filtered_scan_partial x c schema ks ext cap ops t [] p rts hcalls
    hts (fun a b ha hb => hfun a b ((hH a).1 ha) ((hH b).1 hb)) (fun f hf => by cases hf)
    (fun k u r hr => by
      rcases hr with hr | ⟨f, hf, _⟩
      · exact hrows k u r hr
      · cases hf)
    hc hx hp (by rw [hruns]; intro m hm; cases hm)
    (fun k u r _ _ _ u' r' _ hf => by obtain ⟨f, hf, _⟩ := hf; cases hf) proj batchSize hb limit
  rw [hruns] at g1
  refine ⟨bs, rows, g1, ⟨g2.1, fun k r => ?_⟩, g3, g4⟩
  rw [g2.2 k r]
  exact and_congr_left fun _ => visible_congr fun w _ _ => hH w

/-! ## Keys as lists of cells -/

/-- A zero without its sign. -/
def canonCell : Cell → Cell
  | .f32 v => if v.isZero = true ∧ v.signNeg = true then .f32 ⟨0⟩ else .f32 v
  | .f64 v => if v.isZero = true ∧ v.signNeg = true then .f64 ⟨0⟩ else .f64 v
  | c => c

theorem canonCell_spec (c : Cell) (h : Lemmas.Keys.Good c) :
    Lemmas.Keys.Good (canonCell c) ∧ NotNegZero (canonCell c) ∧ rank (canonCell c) = rank c := by
  have hz : ∀ v : Model.Num.F64, v.isZero = true → ordKey v = 0 := by
    intro v hv
    obtain ⟨h1, h2⟩ : v.expBits = 0 ∧ v.frac = 0 := of_decide_eq_true hv
    unfold Model.Num.F64.expBits at h1
    unfold Model.Num.F64.frac at h2
    have h0 : v.bits.toNat % 2 ^ 63 = 0 := by
      have := v.bits.isLt
      omega
    unfold ordKey
    rw [h0]
    split <;> rfl
  cases c with
  | f32 v =>
    by_cases hh : v.isZero = true ∧ v.signNeg = true
    · simp only [canonCell, if_pos hh]
      refine ⟨by decide, (fun h => absurd h.2 (by decide)), ?_⟩
      simp only [rank, hz v hh.1]
      rfl
    · simp only [canonCell, if_neg hh]
      exact ⟨h, hh, trivial⟩
  | f64 v =>
    by_cases hh : v.isZero = true ∧ v.signNeg = true
    · simp only [canonCell, if_pos hh]
      refine ⟨by decide, (fun h => absurd h.2 (by decide)), ?_⟩
      simp only [rank, hz v hh.1]
      rfl
    · simp only [canonCell, if_neg hh]
      exact ⟨h, hh, trivial⟩
  | str s => exact ⟨h, trivial, rfl⟩
  | bin s => exact ⟨h, trivial, rfl⟩
  | bool s => exact ⟨h, trivial, rfl⟩
  | int t s => exact ⟨h, trivial, rfl⟩

/-- Keys are lists of cells without NaN and negative zero, ordered as the code orders them (C45). -/
def canonCodec : Codec C45.CanonKey where
  cells k := k.1
  ofCells l := if h : ∀ c ∈ l, Lemmas.Keys.Good c then
      ⟨l.map canonCell, by
        constructor
        · intro c hc
          obtain ⟨d, hd, rfl⟩ := List.mem_map.1 hc
          exact (canonCell_spec d (h d hd)).1
        · intro c hc
          obtain ⟨d, hd, rfl⟩ := List.mem_map.1 hc
          exact (canonCell_spec d (h d hd)).2.1⟩
    else ⟨[], (fun _ h => by cases h), (fun _ h => by cases h)⟩

/-- The hypothesis on keys is met by every key type the code supports. -/
theorem canonCodec_ok (ks : Schema) (p : Expr) (h : ∀ f ∈ ks, ∀ e ∈ leaves p, LeafGood f.1 e) :
    CodecOk canonCodec ks p := by
  refine ⟨fun k => k.2.1, fun a b => (C45.keyLinearOrder_spec a b).1, ?_⟩
  intro b y hb hy
  have hg : GoodKey y.key := by
    unfold keyBoundsFor at hb
    split at hb
    · rename_i kc kt
      obtain ⟨g, _⟩ := boundsFrom_consistent p (h (kc, kt) (by simp)) b hb
      rcases hy with hy | hy
      · exact g.1 y hy
      · exact g.2 y hy
    · cases hb
  refine ⟨hg, ?_⟩
  have hg' : ∀ c ∈ y.key, Lemmas.Keys.Good c := hg
  simp only [canonCodec, dif_pos hg']
  rw [rowCmp_eq (fun c hc => by
    obtain ⟨d, hd, rfl⟩ := List.mem_map.1 hc
    exact (canonCell_spec d (hg' d hd)).1) hg, List.map_map]
  exact List.map_congr_left fun c hc => (canonCell_spec c (hg' c hc)).2.2

end Tonbo.Props.C07

namespace Tonbo.Props.C12
open Tonbo.Model Tonbo.Model.Mem Tonbo.Spec Tonbo.Lemmas.Mem Tonbo.Model.Pred Tonbo.Model.Keys
open Tonbo.Model.Bounds Tonbo.Model.Plan Tonbo.Lemmas.Bounds Tonbo.Lemmas.Plan Tonbo.Props.C07

variable {K : Type} [LinearOrder K]

/-- The range handed to memtables and runs for a predicate. -/
abbrev rangeFor (c : Codec K) (ks : Schema) (p : Expr) : Option (Bnd K × Bnd K) := storeRange c ks p

private theorem nothing {H : Ver K Row → Prop} {rts : Nat} {inR : K → Prop} {out : List (Entry K Row)}
    (h : IsVersionScan H rts inR (out.map toVer)) (hn : ∀ w, H w → w.ts ≤ rts → ¬ inR w.key) : out = [] := by
  cases out with
  | nil => rfl
  | cons e out =>
    obtain ⟨h1, h2, h3, _⟩ := (h.2 (toVer e)).1 (by simp)
    exact absurd h1 (hn _ h2 h3)

private theorem overlap_of_inside {c : Codec K} {ks : Schema} {p : Expr} (hc : CodecOk c ks p)
    (hgood : ∀ f ∈ ks, ∀ e ∈ leaves p, LeafGood f.1 e)
    {k mn mx : K} (hk : InsideOpt (keyBoundsFor ks p) (c.cells k)) (h1 : mn ≤ k) (h2 : k ≤ mx) :
    mayOverlap c (keyBoundsFor ks p) (some mn) (some mx) = true := by
  unfold mayOverlap
  cases hb : keyBoundsFor ks p with
  | none => rfl
  | some b =>
    have g : GoodBounds b := by
      have hb' := hb
      unfold keyBoundsFor at hb'
      split at hb'
      · rename_i kc kt
        exact (boundsFrom_consistent p (hgood (kc, kt) (by simp)) b hb').1
      · cases hb'
    exact overlaps_sound g (hc.good mn) (hc.good mx) (hc.pos_le.2 h1) (hc.pos_le.2 h2)
      ((inside_iff g (hc.good k)).1 (hk b hb))

/-- **C12 (partial).** A frozen run the planner skips would have contributed nothing: scanning it with the
range of the predicate gives no row and no tombstone. (When the predicate admits no key at all, every
source is skipped: `Props.C09.empty_range_matches_nothing_partial`.) `hdel` is what is missing: see
`deletion_skipped_with_its_run`. -/
theorem skipped_run_is_silent_partial (ext : Row → Option K) (c : Codec K) (ks : Schema) (p : Expr)
    (hc : CodecOk c ks p) (hgood : ∀ f ∈ ks, ∀ e ∈ leaves p, LeafGood f.1 e)
    (he : ∀ b, keyBoundsFor ks p = some b → b.empty = false) (cap : Nat) (ops : List (Op K Row))
    (t : Runs K Row) (hcalls : (Runs.new cap).calls ext ops = (true, t))
    (hts : ∀ w ∈ ops.flatMap (opWrites ext), w.ts < 2 ^ 64)
    (rts : Nat) (hdel : DeletesCovered rts t.runs)
    (i : Nat) (m : Imm K Row) (hi : t.runs[i]? = some m)
    (hskip : i ∉ pruneSegments c (keyBoundsFor ks p) rts t.runs) :
    m.scan (rangeFor c ks p) rts = some [] := by
  obtain ⟨logs, cur, h1, h2, h3⟩ := calls_ok ops (Runs.new cap) t [] [] .nil (rep_new ext cap) hcalls
  obtain ⟨l, hl, hrep⟩ := forall₂_getElem? h1 hi
  have hm := List.mem_of_getElem? hi
  have hkeep : keepSegment c (keyBoundsFor ks p) rts m = false := by
    cases hk : keepSegment c (keyBoundsFor ks p) rts m with
    | false => rfl
    | true =>
      refine absurd (List.mem_filter.2 ⟨List.mem_range.2 (List.getElem?_eq_some_iff.1 hi).1, ?_⟩) hskip
      simp only [hi, hk]
  have htm : ∀ e ∈ m.index, e.1.ts ≤ tsMax := by
    intro e hme
    obtain ⟨op, ho⟩ := imm_content_of_index hrep.1 hme
    have := hts ⟨e.1.key, e.1.ts, op⟩ (by
      rw [List.flatten_nil, List.nil_append, List.nil_append] at h3
      rw [← h3]
      exact List.mem_append_left _ (List.mem_flatten.2
        ⟨l, List.mem_of_getElem? hl, Lemmas.Mem.lastWrite_mem ((hrep.2 _).1 ho)⟩))
    simp only [tsMax] at *; omega
  obtain ⟨out, g1, g2⟩ := imm_wf_scan hrep.1 htm (rangeFor c ks p)
    (storeRange_no_panic hc hgood) rts
  rw [g1, nothing g2]
  rintro w ⟨e, hme, _⟩ hwt hin
  rw [storeRange_iff hc he] at hin
  obtain ⟨mn, mx, q1, q2, q3, q4⟩ := sorted_ends hrep.1.sorted hme
  have hne : m.index.length ≠ 0 := by
    have := List.length_pos_of_mem hme; omega
  have hov := overlap_of_inside hc hgood hin q3 q4
  have hvis : mayBeVisible (m.commitTsBounds.map (·.1)) rts = true := by
    unfold mayBeVisible
    cases hb : m.commitTsBounds with
    | none => rfl
    | some q =>
      obtain ⟨r1, r2, _⟩ := tsBounds_spec hb
      obtain ⟨u, hu1, hu2⟩ := hdel m hm (List.ne_nil_of_mem r2) ⟨_, hme, hwt⟩
      have := (r1 u hu1).1
      simp; omega
  rw [keepSegment, if_neg hne] at hkeep
  simp only [Mem.Imm.keyBounds, q1, q2, hov, hvis] at hkeep
  simp at hkeep

/-- **C12.** The mutable table, when the planner skips it, would have contributed nothing. -/
theorem skipped_memtable_is_silent (ext : Row → Option K) (c : Codec K) (ks : Schema) (p : Expr)
    (hc : CodecOk c ks p) (hgood : ∀ f ∈ ks, ∀ e ∈ leaves p, LeafGood f.1 e)
    (he : ∀ b, keyBoundsFor ks p = some b → b.empty = false) (cap : Nat) (ops : List (Op K Row))
    (t : Runs K Row) (hcalls : (Runs.new cap).calls ext ops = (true, t))
    (hts : ∀ w ∈ ops.flatMap (opWrites ext), w.ts < 2 ^ 64) (rts : Nat)
    (hskip : keepMutable c (keyBoundsFor ks p) rts t.mem = false) :
    scan t.mem (rangeFor c ks p) rts = some [] := by
  obtain ⟨logs, cur, h1, h2, h3⟩ := calls_ok ops (Runs.new cap) t [] [] .nil (rep_new ext cap) hcalls
  have htm : ∀ e ∈ t.mem.index, e.1.ts ≤ tsMax := by
    intro e hme
    have hpt := h2.1.points e hme
    have hr : ∃ m, res t.mem e.2 = some m := by
      obtain ⟨kt, loc⟩ := e
      cases loc with
      | up b r => obtain ⟨row, g1, _⟩ := hpt; exact ⟨_, by simp [res, g1]; rfl⟩
      | dl b r => exact ⟨_, rfl⟩
    obtain ⟨m, hm⟩ := hr
    have := hts ⟨e.1.key, e.1.ts, m⟩ (by
      rw [List.flatten_nil, List.nil_append, List.nil_append] at h3
      rw [← h3]
      exact List.mem_append_right _ (Lemmas.Mem.lastWrite_mem ((h2.2 _).1 ⟨e.2, hme, hm⟩)))
    simp only [tsMax] at *; omega
  obtain ⟨out, g1, g2⟩ := wf_scan h2.1 htm (rangeFor c ks p) rts
  rw [g1, nothing g2]
  rintro w ⟨e, hme, _⟩ hwt hin
  rw [storeRange_iff hc he] at hin
  obtain ⟨mn, mx, q1, q2, q3, q4⟩ := sorted_ends h2.1.sorted hme
  have hne : t.mem.index.length ≠ 0 := by
    have := List.length_pos_of_mem hme; omega
  have hov := overlap_of_inside hc hgood hin q3 q4
  have hvis : mayBeVisible ((commitTsBounds t.mem).map (·.1)) rts = true := by
    unfold mayBeVisible
    cases hb : commitTsBounds t.mem with
    | none => rfl
    | some q =>
      have := (tsBounds_spec hb).1 w.ts (List.mem_map.2 ⟨_, hme, rfl⟩)
      simp; omega
  rw [keepMutable, if_neg hne] at hskip
  simp only [Mem.keyBounds, q1, q2, hov, hvis] at hskip
  simp at hskip

end Tonbo.Props.C12

namespace Tonbo.Props.C07
open Tonbo.Model Tonbo.Model.Mem Tonbo.Model.Merge Tonbo.Spec Tonbo.Lemmas.Mem Tonbo.Lemmas.Scan
open Tonbo.Model.Pred Tonbo.Model.Keys Tonbo.Model.Bounds Tonbo.Model.Plan Tonbo.Lemmas.Pred
open Tonbo.Lemmas.PredEval Tonbo.Lemmas.Keys Tonbo.Lemmas.Bounds Tonbo.Lemmas.Plan
open Tonbo.Props.C09 (IsKey FitsExactly)

/-! ## The hypotheses are met

A table with an `Int64` key `id` and a column `x`. -/

def exCodec : Codec Int where
  cells k := [.int .i64 k]
  ofCells
    | [.int _ v] => v
    | _ => 0

def exSchema : Schema := [("id", .int .i64), ("x", .int .i64)]
def exKey : Schema := [("id", .int .i64)]

def exId : Row → Option Int
  | some (.int _ v) :: _ => some v
  | _ => none

def exRow (k v : Int) : Row := [some (.int .i64 k), some (.int .i64 v)]

/-- Reads whole files; filters with the evaluator. -/
def exExt : Plan.Ext Int where
  pc := C08.byValue
  rowFilter q r := decide (meaning (envOf exSchema r) q = .t)
  select _ _ t := t.file.data

/-- `id > 1 AND x = 5` -/
def exPred : Expr := .and [.cmp "id" .gt (.int .i64 1), .cmp "x" .eq (.int .i64 5)]

/-- Three versions of key 2, two keys more, a deletion, and two frozen runs. -/
def exOps : List (Op Int Row) :=
  [.put [(exRow 1 5, 4), (exRow 2 6, 4)], .freeze, .put [(exRow 2 7, 6), (exRow 3 5, 6)], .del [(4, 7)],
   .freeze, .put [(exRow 2 5, 8)]]

def exFile : Sst Int where
  file := ⟨[(⟨4, 3⟩, exRow 4 5), (⟨5, 3⟩, exRow 5 5), (⟨6, 3⟩, exRow 6 1)], []⟩
  minKey := some 4
  maxKey := some 6
  minTs := some 3
  schema := exSchema

def exRuns : Runs Int Row := ((Runs.new 4).calls exId exOps).2

/-- At timestamp 7 key 2 does not match, key 4 is deleted; at 8 key 2 matches. -/
example : scanStore exExt exCodec exSchema exKey ⟨exRuns.mem, exRuns.runs, [[exFile]]⟩ exPred 7
      (fun r => r) 10 none = .ok (some ([[exRow 3 5, exRow 5 5]], none)) ∧
    scanStore exExt exCodec exSchema exKey ⟨exRuns.mem, exRuns.runs, [[exFile]]⟩ exPred 8
      (fun r => r) 10 none = .ok (some ([[exRow 2 5, exRow 3 5, exRow 5 5]], none)) := ⟨rfl, rfl⟩

theorem exPred_leaves : leaves exPred = [.cmp "id" .gt (.int .i64 1), .cmp "x" .eq (.int .i64 5)] := by
  simp [exPred, leaves, leavesList]

theorem exRow_fits (k v : Int) (hk : (intRange .i64).1 ≤ k ∧ k ≤ (intRange .i64).2)
    (hv : (intRange .i64).1 ≤ v ∧ v ≤ (intRange .i64).2) :
    RowFits exCodec exSchema exKey exPred k (exRow k v) := by
  refine ⟨.cons ⟨rfl, rfl⟩ .nil, ?_, ?_⟩
  · intro kc kt h
    cases h
    refine ⟨_, rfl, fun e he => ?_⟩
    rw [exPred_leaves] at he
    simp only [List.mem_cons, List.not_mem_nil, or_false] at he
    rcases he with rfl | rfl
    · refine ⟨fun _ => ⟨fun w hw _ => ?_, ?_⟩, fun _ w hw => ?_⟩
      · simp only [literals, List.mem_singleton] at hw
        subst hw
        exact ⟨_, rfl, rfl, rfl⟩
      · rintro ⟨_, h⟩; cases h
      · simp only [literals, List.mem_singleton] at hw
        subst hw; rfl
    · exact ⟨fun h => absurd h (by decide), fun h => absurd h (by decide)⟩
  · have hc : columnIdx exSchema "id" = some 0 ∧ columnIdx exSchema "x" = some 1 := by decide
    have cmpOk : ∀ u, ((intRange .i64).1 ≤ u ∧ u ≤ (intRange .i64).2) → ∀ t w, InRange (.int t w) →
        Comparable (convertCell (.int .i64 u)) (.int t w) :=
      fun u hu t w hw => ⟨hu, hw, fun _ => ⟨trivial, trivial⟩, (fun _ _ _ h => by cases h),
        (fun _ _ _ h => by cases h)⟩
    intro e he
    rw [exPred_leaves] at he
    simp only [List.mem_cons, List.not_mem_nil, or_false] at he
    rcases he with rfl | rfl
    · refine ⟨.inl ⟨_, _, _, rfl⟩, ⟨0, hc.1, by simp [exRow]⟩, ?_, (fun _ _ _ _ h => by cases h)⟩
      intro i c hi hcell w hw _
      cases hc.1.symm.trans hi; cases hcell
      cases List.mem_singleton.1 hw
      exact cmpOk k hk _ _ ⟨by decide, by decide⟩
    · refine ⟨.inl ⟨_, _, _, rfl⟩, ⟨1, hc.2, by simp [exRow]⟩, ?_, (fun _ _ _ _ h => by cases h)⟩
      intro i c hi hcell w hw _
      cases hc.2.symm.trans hi; cases hcell
      cases List.mem_singleton.1 hw
      exact cmpOk v hv _ _ ⟨by decide, by decide⟩

theorem exPred_ok : PredOk exKey exPred where
  bloom := by
    intro e he
    rw [exPred_leaves] at he
    simp only [List.mem_cons, List.not_mem_nil, or_false] at he
    rcases he with rfl | rfl <;> exact fun _ h => h
  literals := by
    intro f hf e he
    rw [exPred_leaves] at he
    cases List.mem_singleton.1 hf
    simp only [List.mem_cons, List.not_mem_nil, or_false] at he
    rcases he with rfl | rfl
    · intro _ v hv k hk
      cases List.mem_singleton.1 hv
      cases hk
      intro c hc
      cases List.mem_singleton.1 hc
      rfl
    · intro h; exact absurd h (by decide)
  notFalse := fun h => absurd rfl h

theorem exCodec_ok : CodecOk exCodec exKey exPred where
  good k := by intro c hc; cases List.mem_singleton.1 hc; rfl
  lt a b := by
    simp only [exCodec, rowCmp, cellCmp, IntTy.keyable, Model.Num.cmpInt]
    by_cases h : a < b
    · simp [h]
    · by_cases h' : a = b <;> simp [h, h']
  bound := by
    intro b y hb hy
    have : keyBoundsFor exKey exPred = some (withLower [.int .i64 1] false) := by rfl
    rw [this] at hb
    cases hb
    rcases hy with hy | hy
    · cases hy
      exact ⟨(fun c hc => by cases List.mem_singleton.1 hc; rfl), by decide⟩
    · cases hy

theorem exHistory : exOps.flatMap (opWrites exId) =
    [⟨1, 4, .put (exRow 1 5)⟩, ⟨2, 4, .put (exRow 2 6)⟩, ⟨2, 6, .put (exRow 2 7)⟩,
     ⟨3, 6, .put (exRow 3 5)⟩, ⟨4, 7, .del⟩, ⟨2, 8, .put (exRow 2 5)⟩] := by decide

/-- A run that is skipped: no key of the first run is above 2 when the predicate says `id > 2`; and the mutable
table, with key 2 only, is skipped as well. -/
def exAbove : Expr := .cmp "id" .gt (.int .i64 2)

/-- The hypotheses of `skipped_run_is_silent_partial` and `skipped_memtable_is_silent`. -/
example : CodecOk exCodec exKey exAbove ∧ (∀ f ∈ exKey, ∀ e ∈ leaves exAbove, LeafGood f.1 e) ∧
    (∀ b, keyBoundsFor exKey exAbove = some b → b.empty = false) ∧ exRuns.runs.length = 2 ∧
    pruneSegments exCodec (keyBoundsFor exKey exAbove) 9 exRuns.runs = [1] ∧
    keepMutable exCodec (keyBoundsFor exKey exAbove) 9 exRuns.mem = false := by
  have hb : keyBoundsFor exKey exAbove = some (withLower [.int .i64 2] false) := rfl
  refine ⟨⟨exCodec_ok.good, exCodec_ok.lt, ?_⟩, ?_, ?_, rfl, rfl, rfl⟩
  · intro b y h hy
    rw [hb] at h
    cases h
    rcases hy with hy | hy
    · cases hy
      exact ⟨(fun c hc => by cases List.mem_singleton.1 hc; rfl), by decide⟩
    · cases hy
  · intro f hf e he
    cases List.mem_singleton.1 hf
    rw [show leaves exAbove = [.cmp "id" .gt (.int .i64 2)] by simp [exAbove, leaves]] at he
    cases List.mem_singleton.1 he
    intro _ v hv k hk
    cases List.mem_singleton.1 hv
    cases hk
    intro c hc
    cases List.mem_singleton.1 hc
    rfl
  · intro b h
    rw [hb] at h
    cases h
    rfl

/-- All hypotheses of `filtered_scan_partial` hold at timestamp 7. -/
example : (Runs.new 4).calls exId exOps = (true, exRuns) ∧
    (∀ w ∈ exOps.flatMap (opWrites exId), w.ts < 2 ^ 64) ∧
    Functional (History (exOps.flatMap (opWrites exId)) [[exFile]]) ∧
    (∀ f ∈ [[exFile]].flatten, FileOk exExt exSchema exPred 7 f) ∧
    (∀ k u r, RowAt (exOps.flatMap (opWrites exId)) [[exFile]] k u r →
      RowFits exCodec exSchema exKey exPred k r) ∧
    CodecOk exCodec exKey exPred ∧ Foreign exExt exSchema exPred ∧ PredOk exKey exPred ∧
    DeletesCovered 7 exRuns.runs ∧
    StableInFiles exSchema (exOps.flatMap (opWrites exId)) [[exFile]] exPred 7 := by
  have hrow : ∀ k u r, RowAt (exOps.flatMap (opWrites exId)) [[exFile]] k u r →
      (k, u, r) ∈ [(1, 4, exRow 1 5), (2, 4, exRow 2 6), (2, 6, exRow 2 7), (3, 6, exRow 3 5),
        (2, 8, exRow 2 5), ((4 : Int), 3, exRow 4 5), (5, 3, exRow 5 5), (6, 3, exRow 6 1)] := by
    rintro k u r (h | ⟨f, hf, h⟩)
    · rw [exHistory] at h
      simp only [List.mem_cons, List.not_mem_nil, or_false, Ver.mk.injEq, Mut.put.injEq, reduceCtorEq,
        and_false, false_or] at h
      rcases h with ⟨rfl, rfl, rfl⟩ | ⟨rfl, rfl, rfl⟩ | ⟨rfl, rfl, rfl⟩ | ⟨rfl, rfl, rfl⟩ | ⟨rfl, rfl, rfl⟩
      · exact .head _
      · exact .tail _ (.head _)
      · exact .tail _ (.tail _ (.head _))
      · exact .tail _ (.tail _ (.tail _ (.head _)))
      · exact .tail _ (.tail _ (.tail _ (.tail _ (.head _))))
    · simp only [List.flatten_cons, List.flatten_nil, List.append_nil, List.mem_singleton] at hf
      subst hf
      simp only [exFile, List.mem_cons, List.not_mem_nil, or_false, Prod.mk.injEq, KT.mk.injEq] at h
      have hl : ∀ x ∈ [((4 : Int), 3, exRow 4 5), (5, 3, exRow 5 5), (6, 3, exRow 6 1)],
          x ∈ [(1, 4, exRow 1 5), (2, 4, exRow 2 6), (2, 6, exRow 2 7), (3, 6, exRow 3 5),
            (2, 8, exRow 2 5), ((4 : Int), 3, exRow 4 5), (5, 3, exRow 5 5), (6, 3, exRow 6 1)] :=
        fun x hx => .tail _ (.tail _ (.tail _ (.tail _ (.tail _ hx))))
      rcases h with ⟨⟨rfl, rfl⟩, rfl⟩ | ⟨⟨rfl, rfl⟩, rfl⟩ | ⟨⟨rfl, rfl⟩, rfl⟩
      · exact hl _ (.head _)
      · exact hl _ (.tail _ (.head _))
      · exact hl _ (.tail _ (.tail _ (.head _)))
  refine ⟨rfl, ?_, ?_, ?_, ?_, exCodec_ok, ⟨C08.byValue_ok, fun q r _ => rfl⟩, exPred_ok, ?_, ?_⟩
  · rw [exHistory]; decide
  · have : ∀ w, History (exOps.flatMap (opWrites exId)) [[exFile]] w →
        w ∈ ([⟨1, 4, .put (exRow 1 5)⟩, ⟨2, 4, .put (exRow 2 6)⟩, ⟨2, 6, .put (exRow 2 7)⟩,
          ⟨3, 6, .put (exRow 3 5)⟩, ⟨4, 7, .del⟩, ⟨2, 8, .put (exRow 2 5)⟩, ⟨4, 3, .put (exRow 4 5)⟩,
          ⟨5, 3, .put (exRow 5 5)⟩, ⟨6, 3, .put (exRow 6 1)⟩] : List (Ver Int Row)) := by
      rintro ⟨k, u, op⟩ (h | ⟨f, hf, h⟩)
      · rw [exHistory] at h
        exact List.mem_append_left _ h
      · simp only [List.flatten_cons, List.flatten_nil, List.append_nil, List.mem_singleton] at hf
        subst hf
        cases op with
        | del => simp [FileVersions, exFile] at h
        | put r =>
          have := Lemmas.Sst.firstIn_mem h.1
          simp only [exFile, List.mem_cons, List.not_mem_nil, or_false, Prod.mk.injEq, KT.mk.injEq] at this
          refine List.mem_append_right ([⟨1, 4, .put (exRow 1 5)⟩, ⟨2, 4, .put (exRow 2 6)⟩,
            ⟨2, 6, .put (exRow 2 7)⟩, ⟨3, 6, .put (exRow 3 5)⟩, ⟨4, 7, .del⟩, ⟨2, 8, .put (exRow 2 5)⟩] : List (Ver Int Row)) ?_
          rcases this with ⟨⟨rfl, rfl⟩, rfl⟩ | ⟨⟨rfl, rfl⟩, rfl⟩ | ⟨⟨rfl, rfl⟩, rfl⟩
          · exact .head _
          · exact .tail _ (.head _)
          · exact .tail _ (.tail _ (.head _))
    intro a b ha hb
    have key : ∀ a ∈ ([⟨1, 4, .put (exRow 1 5)⟩, ⟨2, 4, .put (exRow 2 6)⟩, ⟨2, 6, .put (exRow 2 7)⟩,
          ⟨3, 6, .put (exRow 3 5)⟩, ⟨4, 7, .del⟩, ⟨2, 8, .put (exRow 2 5)⟩, ⟨4, 3, .put (exRow 4 5)⟩,
          ⟨5, 3, .put (exRow 5 5)⟩, ⟨6, 3, .put (exRow 6 1)⟩] : List (Ver Int Row)),
        ∀ b ∈ ([⟨1, 4, .put (exRow 1 5)⟩, ⟨2, 4, .put (exRow 2 6)⟩, ⟨2, 6, .put (exRow 2 7)⟩,
          ⟨3, 6, .put (exRow 3 5)⟩, ⟨4, 7, .del⟩, ⟨2, 8, .put (exRow 2 5)⟩, ⟨4, 3, .put (exRow 4 5)⟩,
          ⟨5, 3, .put (exRow 5 5)⟩, ⟨6, 3, .put (exRow 6 1)⟩] : List (Ver Int Row)),
        a.key = b.key → a.ts = b.ts → a.op = b.op := by decide
    exact key a (this a ha) b (this b hb)
  · intro f hf
    simp only [List.flatten_cons, List.flatten_nil, List.append_nil, List.mem_singleton] at hf
    subst hf
    refine ⟨⟨by decide, by decide⟩, ?_, List.Sublist.refl _, rfl⟩
    rintro kt (⟨r, h⟩ | h)
    · simp only [exFile, List.mem_cons, List.not_mem_nil, or_false, Prod.mk.injEq] at h
      rcases h with ⟨rfl, _⟩ | ⟨rfl, _⟩ | ⟨rfl, _⟩ <;> decide
    · cases h
  · intro k u r h
    have := hrow k u r h
    simp only [List.mem_cons, List.not_mem_nil, or_false, Prod.mk.injEq] at this
    rcases this with h | h | h | h | h | h | h | h <;> obtain ⟨rfl, rfl, rfl⟩ := h <;>
      exact exRow_fits _ _ (by decide) (by decide)
  · unfold DeletesCovered; decide
  · intro k u r hu h hm u' r' hu' hf
    have h' := hrow k u r h
    have h'' := hrow k u' r' (.inr hf)
    simp only [List.mem_cons, List.not_mem_nil, or_false, Prod.mk.injEq] at h' h''
    obtain ⟨f, hf, hd⟩ := hf
    simp only [List.flatten_cons, List.flatten_nil, List.append_nil, List.mem_singleton] at hf
    subst hf
    simp only [exFile, List.mem_cons, List.not_mem_nil, or_false, Prod.mk.injEq, KT.mk.injEq] at hd
    rcases hd with h1 | h1 | h1 <;> obtain ⟨⟨rfl, rfl⟩, rfl⟩ := h1
    · rfl
    · rfl
    · rcases h' with h | h | h | h | h | h | h | h <;> obtain ⟨h, rfl, rfl⟩ := h <;>
        first | omega | exact hm

def oneFile (d : List (KT Int × Row)) (minTs : Nat) : Sst Int :=
  ⟨⟨d, []⟩, d.head?.map (·.1.key), d.getLast?.map (·.1.key), some minTs, exSchema⟩

/-- Key 2 has had `x = 5` since timestamp 9; before, it did not match. -/
def lateFile : Sst Int := oneFile [(⟨2, 9⟩, exRow 2 5), (⟨2, 3⟩, exRow 2 1), (⟨3, 4⟩, exRow 3 5)] 3

/-- The hypotheses of `filtered_scan_of_lasting_predicate_partial` hold where those of `filtered_scan_partial` do
not. -/
example : LastsInFiles exSchema ([] : List (Ver Int Row)) [[lateFile]] exPred 9 ∧
    ¬ StableInFiles exSchema ([] : List (Ver Int Row)) [[lateFile]] exPred 9 ∧
    Functional (Kept ([] : List (Ver Int Row)) [[lateFile]]) ∧ FileOk exExt exSchema exPred 9 lateFile ∧
    scanStore exExt exCodec exSchema exKey ⟨Inner.new 4, [], [[lateFile]]⟩ exPred 9 (fun r => r) 10 none =
      .ok (some ([[exRow 2 5, exRow 3 5]], none)) := by
  have hd : ∀ k u r, (⟨k, u⟩, r) ∈ lateFile.file.data →
      (k = 2 ∧ u = 9 ∧ r = exRow 2 5) ∨ (k = 2 ∧ u = 3 ∧ r = exRow 2 1) ∨ (k = 3 ∧ u = 4 ∧ r = exRow 3 5) := by
    intro k u r h
    simpa [lateFile, oneFile, and_assoc] using h
  have hone : ∀ f ∈ [[lateFile]].flatten, f = lateFile := by simp
  refine ⟨?_, ?_, ?_, ⟨⟨by decide, by decide⟩, ?_, List.Sublist.refl _, rfl⟩, rfl⟩
  · rintro k u r _ (h | ⟨f, hf, h⟩) hm u' r' hu _ ⟨f', hf', h'⟩
    · cases h
    · rw [hone f hf] at h
      rw [hone f' hf'] at h'
      rcases hd k u r h with ⟨rfl, rfl, rfl⟩ | ⟨rfl, rfl, rfl⟩ | ⟨rfl, rfl, rfl⟩ <;>
        rcases hd _ u' r' h' with ⟨h1, rfl, rfl⟩ | ⟨h1, rfl, rfl⟩ | ⟨h1, rfl, rfl⟩ <;>
        first | omega | rfl | (cases hm; done)
  · intro h
    have := h 2 9 (exRow 2 5) (by decide) (.inr ⟨lateFile, by simp, by simp [lateFile, oneFile]⟩) rfl 3 (exRow 2 1)
      (by decide) ⟨lateFile, by simp, by simp [lateFile, oneFile]⟩
    exact absurd this (by decide)
  · rintro ⟨k, u, a⟩ ⟨k', u', b⟩ (h | ⟨f, hf, h⟩) (h' | ⟨f', hf', h'⟩) hk hu
    · cases h
    · cases h
    · cases h'
    · rw [hone f hf] at h
      rw [hone f' hf'] at h'
      cases a with
      | del => cases h
      | put r =>
        cases b with
        | del => cases h'
        | put r' =>
          simp only at hk hu
          subst hk; subst hu
          rcases hd _ _ r h with ⟨rfl, rfl, rfl⟩ | ⟨rfl, rfl, rfl⟩ | ⟨rfl, rfl, rfl⟩ <;>
            rcases hd _ _ r' h' with ⟨h1, h2, rfl⟩ | ⟨h1, h2, rfl⟩ | ⟨h1, h2, rfl⟩ <;> first | rfl | (exact absurd h1 (by decide)) | (exact absurd h2 (by decide))
  · rintro kt (⟨r, h⟩ | h)
    · obtain ⟨k, u⟩ := kt
      rcases hd k u r h with ⟨rfl, rfl, rfl⟩ | ⟨rfl, rfl, rfl⟩ | ⟨rfl, rfl, rfl⟩ <;> decide
    · cases h

/-! ## Where the code departs from the property -/

/-- `x = 5` -/
def isFive : Expr := .cmp "x" .eq (.int .i64 5)

/-- **C07 refuted.** The row filter and the row-group selection run before versions are compared, so a
row that was overwritten is returned if the new version does not match and the old one does: key 1 has
`x = 7` since timestamp 9, and the scan for `x = 5` at 9 returns the version of timestamp 5. This
happens within one file and across files; the scan without a predicate is right. -/
theorem stale_row_returned :
    let one : Store Int := ⟨Inner.new 4, [], [[oneFile [(⟨1, 9⟩, exRow 1 7), (⟨1, 5⟩, exRow 1 5)] 5]]⟩
    let two : Store Int := ⟨Inner.new 4, [], [[oneFile [(⟨1, 5⟩, exRow 1 5)] 5], [oneFile [(⟨1, 9⟩, exRow 1 7)] 9]]⟩
    scanStore exExt exCodec exSchema exKey one .tt 9 id 10 none = .ok (some ([[exRow 1 7]], none)) ∧
    scanStore exExt exCodec exSchema exKey one isFive 9 id 10 none = .ok (some ([[exRow 1 5]], none)) ∧
    scanStore exExt exCodec exSchema exKey two .tt 9 id 10 none = .ok (some ([[exRow 1 7]], none)) ∧
    scanStore exExt exCodec exSchema exKey two isFive 9 id 10 none = .ok (some ([[exRow 1 5]], none)) :=
  ⟨rfl, rfl, rfl, rfl⟩

/-- **C07, C12 refuted.** The commit bounds of a frozen run cover its rows but not its deletions, so a run
is skipped although it holds a visible deletion: key 1 is deleted at timestamp 6, and a scan at 7 returns
it, because the only row in the run of the deletion was written at 9. -/
theorem deletion_skipped_with_its_run :
    let ops : List (Op Int Row) :=
      [.put [(exRow 1 10, 5)], .freeze, .del [(1, 6)], .put [(exRow 2 20, 9)], .freeze]
    let t := (Runs.new 4).calls exId ops
    t.1 = true ∧
    ¬ Visible (· ∈ ops.flatMap (opWrites exId)) 7 1 (exRow 1 10) ∧
    scanStore exExt exCodec exSchema exKey ⟨t.2.mem, t.2.runs, []⟩ .tt 7 id 10 none =
      .ok (some ([[exRow 1 10]], none)) := by
  refine ⟨rfl, ?_, rfl⟩
  rintro ⟨u, h1, h2, h3⟩
  have hw : ([.put [(exRow 1 10, 5)], .freeze, .del [(1, 6)], .put [(exRow 2 20, 9)], .freeze] :
      List (Op Int Row)).flatMap (opWrites exId) =
      [⟨1, 5, .put (exRow 1 10)⟩, ⟨1, 6, .del⟩, ⟨2, 9, .put (exRow 2 20)⟩] := by decide
  simp only [hw] at h1 h3
  have h4 : 6 ≤ u := h3 ⟨1, 6, .del⟩ (by simp) rfl (by simp)
  simp at h1
  omega

/-- **C07 refuted.** The plan names frozen runs by position and decides whether to read the mutable table;
the streams are opened later. If the mutable table is frozen in between, its rows are in a run the plan
does not name: a row committed before the scan began, and still stored, is not returned. -/
theorem rows_missed_when_frozen_during_planning :
    let before := ((Runs.new 4).calls exId [.put [(exRow 1 10, 5)]]).2
    let after := ((Runs.new 4).calls exId [.put [(exRow 1 10, 5)], .freeze]).2
    ∃ pl, plan exExt exCodec exSchema exKey false ⟨before.mem, before.runs, []⟩ .tt 9 = .ok pl ∧
      streams exExt ⟨before.mem, before.runs, []⟩ pl .tt 9 = some [(.mutable, [.row ⟨1, 5⟩ (exRow 1 10)])] ∧
      streams exExt ⟨after.mem, after.runs, []⟩ pl .tt 9 = some [(.mutable, [])] :=
  ⟨_, rfl, rfl, rfl⟩

end Tonbo.Props.C07
