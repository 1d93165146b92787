import Verif.Lemmas.ProjScan
import Verif.Props.C07_C12_Filter

/-!
# C61: a projection selects columns and nothing else

The scan is `Model.Proj.scan`: columns are found by name when a scan is planned, in memory, in files and when
batches are built. `Spec.columns` cuts a row of the table down to the columns of given names.
-/

set_option linter.unusedSectionVars false

namespace Tonbo.Props.C61
open Tonbo.Model Tonbo.Model.Mem Tonbo.Model.Pred Tonbo.Model.Plan Tonbo.Model.Keys Tonbo.Spec
open Tonbo.Lemmas.Mem Tonbo.Lemmas.Plan Tonbo.Lemmas.Proj Tonbo.Lemmas.ProjMerge
open Tonbo.Props.C07 (FileOk PredOk Foreign DeletesCovered StableInFiles)

variable {K : Type} [LinearOrder K]

/-- A table whose columns have different names, none of them the reserved one, with a key among them, and a
predicate on its columns. -/
structure TableOk (base keys : Schema) (p : Expr) : Prop where
  nodup : (base.map (·.1)).Nodup
  reserved : "_commit_ts" ∉ base.map (·.1)
  keys : ∀ f ∈ keys, f ∈ base
  cols : ∀ n, Mentions p n → n ∈ base.map (·.1)

/-- Files hold the columns of the table and the commit timestamps, and of every row all columns; the selection of
row groups and pages yields rows of the file. -/
def FilesOk (x : Plan.Ext K) (base : Schema) (p : Expr) (rts : Nat) (levels : List (List (Plan.Sst K))) : Prop :=
  ∀ t ∈ levels.flatten, t.schema = base ++ [("_commit_ts", .int .u64)] ∧
    (∀ e ∈ t.file.data, e.2.length = base.length) ∧ ∀ e ∈ x.select p rts t, e ∈ t.file.data

/-- Every row in memory has all columns. -/
def MemoryOk (base : Schema) (st : Store K) : Prop :=
  (∀ a ∈ st.mem.batches, ∀ r ∈ a.rows, r.length = base.length) ∧ ∀ m ∈ st.imms, ∀ r ∈ m.rows, r.length = base.length

/-- The projection names at least one column, and columns of the table only. -/
def ProjOk (base proj : Schema) : Prop := proj ≠ [] ∧ ∀ f ∈ proj, f ∈ base

theorem shapes {x : Plan.Ext K} {base keys : Schema} {overlay : Option (List (Mem.Entry K Row))} {st : Store K} {p : Expr}
    {rts : Nat} (ht : TableOk base keys p) (hf : FilesOk x base p rts st.levels) (hm : MemoryOk base st)
    (ho : ∀ o, overlay = some o → ∀ kt r, Entry.row kt r ∈ o → r.length = base.length) :
    Shapes x base keys overlay st p rts :=
  { nodup := ht.nodup, reserved := ht.reserved, keys := ht.keys,
    cols := fun n hn => ht.cols n ((predCols_mentions p n).1 hn),
    files := fun t h => (hf t h).1, mem := hm.1, imm := hm.2,
    data := fun t h e he => (hf t h).2.1 e ((hf t h).2.2 e he), staged := ho }

/-- **C61 (partial).** A scan that asks for some columns returns the batches of the scan of whole rows, every row
cut down to those columns: the same rows, in the same order and the same batches, under the same limit, with the
same error if there is one. This holds with or without a predicate, on columns asked for or not, and with the
staged writes of a transaction. Missing: projections with columns the table does not have, or with none
(`unknown_column_refused_only_with_rows`, `no_columns_refused_only_with_rows`), and reserved names
(`commit_column_only_from_files`). -/
theorem projection_selects_columns_partial (x : Plan.Ext K) (c : Codec K) (base keys : Schema)
    (overlay : Option (List (Mem.Entry K Row))) (st : Store K) (p : Expr) (rts : Nat) (proj : Schema)
    (ht : TableOk base keys p) (hf : FilesOk x base p rts st.levels) (hm : MemoryOk base st)
    (ho : ∀ o, overlay = some o → ∀ kt r, Entry.row kt r ∈ o → r.length = base.length)
    (hp : ProjOk base proj) (batchSize : Nat) (limit : Option Nat) :
    Proj.scan x c base keys overlay st p rts (some proj) batchSize limit =
      (Proj.scan x c base keys overlay st p rts none batchSize limit).map
        (Option.map (fun q => (q.1.map (List.map (columns base (proj.map (·.1)))), q.2))) := by
  have hb : base ≠ [] := by
    obtain ⟨f, hf⟩ := List.exists_mem_of_ne_nil _ hp.1
    exact List.ne_nil_of_mem (hp.2 f hf)
  have hsh := shapes ht hf hm ho
  rw [scan_eq c hsh (some proj) hp.2 hp.1, scan_eq c hsh none (fun f h => h) hb]
  unfold wholeScan
  cases hpl : Plan.plan x c base keys overlay.isSome st p rts with
  | error e => rfl
  | ok pl =>
    simp only [Except.map]
    congr 1
    cases wholeStreams x overlay st pl p rts with
    | none => rfl
    | some ss =>
      simp only [Option.bind_some, Option.getD_some, Option.getD_none]
      rw [← scanStreams_out]
      congr 1
      funext r
      unfold columns
      refine List.map_congr_left fun n hn => ?_
      refine (cellOf_columns (s := base) ?_).symm
      obtain ⟨f, hf, rfl⟩ := List.mem_map.1 hn
      exact List.mem_map_of_mem (hp.2 f hf)

/-- **C61.** Without a projection the rows are whole. -/
theorem no_projection_keeps_rows (x : Plan.Ext K) (c : Codec K) (base keys : Schema) (st : Store K) (p : Expr)
    (rts : Nat) (hb : base ≠ []) (ht : TableOk base keys p) (hf : FilesOk x base p rts st.levels) (hm : MemoryOk base st)
    (batchSize : Nat) (limit : Option Nat) :
    Proj.scan x c base keys none st p rts none batchSize limit =
      (match scanStore x c base keys st p rts (fun r => columns base (base.map (·.1)) r) batchSize limit with
       | .error col => .error (.bloom col)
       | .ok r => .ok r) ∧ ∀ r : Row, r.length = base.length → columns base (base.map (·.1)) r = r := by
  refine ⟨?_, fun r hr => columns_all base r ht.nodup hr⟩
  rw [scan_eq c (shapes ht hf hm (by intro o h; cases h)) none (fun f h => h) hb]
  unfold wholeScan scanStore wholeStreams
  simp only [Option.isSome_none]
  cases Plan.plan x c base keys false st p rts with
  | error e => rfl
  | ok pl =>
    simp only [Option.toList_none, List.map_nil, List.nil_append, Option.map_id']
    rfl

/-- **C61 and C07 (partial).** A scan with a predicate and a projection, over what successful writes left in memory
and over files, returns for exactly the rows that are visible and satisfy the predicate the columns asked for.
The predicate may be on columns that are not asked for. What is missing is said at
`Props.C07.filtered_scan_partial`. -/
theorem projected_filtered_scan_partial (x : Plan.Ext K) (c : Codec K) (base keys : Schema) (ext : Row → Option K)
    (cap : Nat) (ops : List (Mem.Op K Row)) (t : Runs K Row) (levels : List (List (Plan.Sst K))) (p : Expr)
    (rts : Nat) (hcalls : (Runs.new cap).calls ext ops = (true, t))
    (hts : ∀ w ∈ ops.flatMap (opWrites ext), w.ts < 2 ^ 64)
    (hfun : Functional (History (ops.flatMap (opWrites ext)) levels))
    (hfiles : ∀ f ∈ levels.flatten, FileOk x base p rts f)
    (hrows : ∀ k u r, RowAt (ops.flatMap (opWrites ext)) levels k u r → C07.RowFits c base keys p k r)
    (hc : CodecOk c keys p) (hx : Foreign x base p) (hp : PredOk keys p)
    (hdel : DeletesCovered rts t.runs)
    (hstable : StableInFiles base (ops.flatMap (opWrites ext)) levels p rts)
    (ht : TableOk base keys p) (hf : FilesOk x base p rts levels)
    (hw : ∀ rows, Mem.Op.put rows ∈ ops → ∀ q ∈ rows, q.1.length = base.length)
    (proj : Schema) (hproj : ProjOk base proj) (batchSize : Nat) (hb : 0 < batchSize) (limit : Option Nat) :
    ∃ (bs : List (List Row)) (rows : List (K × Row)),
      Proj.scan x c base keys none ⟨t.mem, t.runs, levels⟩ p rts (some proj) batchSize limit = .ok (some (bs, none)) ∧
      IsFilteredScan (History (ops.flatMap (opWrites ext)) levels) base p rts rows ∧
      (∀ b ∈ bs, b ≠ [] ∧ b.length ≤ batchSize) ∧
      bs.flatten = upTo limit (rows.map (fun q => columns base (proj.map (·.1)) q.2)) := by
  have hm : MemoryOk base (⟨t.mem, t.runs, levels⟩ : Store K) :=
    calls_rows (P := fun r : Row => r.length = base.length) ops (Runs.new cap) t (by intro a ha; cases ha)
      (by intro m hm; cases hm) hw hcalls
  obtain ⟨bs, rows, h1, h2⟩ := C07.filtered_scan_partial x c base keys ext cap ops t levels p rts hcalls hts hfun
    hfiles hrows hc hx hp hdel hstable (columns base (proj.map (·.1))) batchSize hb limit
  refine ⟨bs, rows, ?_, h2⟩
  rw [scan_eq c (shapes ht hf hm (by intro o h; cases h)) (some proj) hproj.2 hproj.1]
  unfold scanStore at h1
  unfold wholeScan wholeStreams
  simp only [Option.isSome_none]
  cases hpl : Plan.plan x c base keys false ⟨t.mem, t.runs, levels⟩ p rts with
  | error e => rw [hpl] at h1; cases h1
  | ok pl =>
    rw [hpl] at h1
    simp only [Option.toList_none, List.map_nil, List.nil_append, Option.map_id']
    simp only [Except.ok.injEq] at h1
    rw [← h1]
    rfl

/-- **C61.** Whatever columns a scan asks for, the scan of a file finds in a stored row these columns, the key columns
and the commit timestamp. -/
theorem file_row_is_read_by_name (base scan keys : Schema) (hr : "_commit_ts" ∉ base.map (·.1))
    (hs : ∀ f ∈ scan, f ∈ base) (hk : ∀ f ∈ keys, f ∈ base) :
    ∃ fields roots m k,
      Proj.sstProjection (base ++ [("_commit_ts", .int .u64)]) scan keys = .ok (fields, roots) ∧
      Proj.sstMap (base ++ [("_commit_ts", .int .u64)]) scan keys = .ok (m, k) ∧
      ∀ (ts : Nat) (r : Row), r.length = base.length →
        m (Proj.stored ts r) = columns base (scan.map (·.1)) r ∧
        k (Proj.stored ts r) = columns base (keys.map (·.1)) r ∧
        Proj.readCommit fields (Proj.project roots (Proj.stored ts r)) = some ts := by
  obtain ⟨fields, roots, m, k, h1, h2, h3⟩ := sstMap_ok (base := base) (scan := scan) (keys := keys)
    (fun f hf => List.mem_map_of_mem (hs f hf)) (fun f hf => List.mem_map_of_mem (hk f hf))
  refine ⟨fields, roots, m, k, h1, h2, fun ts r hl => ?_⟩
  obtain ⟨g1, g2, g3, g4, g5, g6⟩ := h3 ts r hl
  refine ⟨g1, g2, ?_⟩
  obtain ⟨i, hi⟩ := findIdx_some (s := fields) g4
  have hcell := findIdx_cell fields (Proj.project roots (Proj.stored ts r)) _ i (by
    rw [g3, columns_length]; simp) hi
  rw [g3, cellOf_columns g4, cellOf_commit hl hr] at hcell
  have hf : fields[i]? = some ("_commit_ts", .int .u64) := by
    obtain ⟨hlt, hp, _⟩ := List.findIdx?_eq_some_iff_getElem.1 hi
    rw [List.getElem?_eq_getElem hlt]
    have hmem := g5 _ (List.getElem_mem hlt)
    have hname : (fields[i]).1 = "_commit_ts" := by simpa [Proj.commitField] using hp
    rcases List.mem_append.1 hmem with h | h
    · exact absurd (hname ▸ List.mem_map_of_mem h) hr
    · rw [List.mem_singleton.1 h]; rfl
  unfold Proj.readCommit
  rw [hi]
  simp only [hf, g3, hcell]
  simp

/-- **C61.** A predicate on a column that neither the table nor the projection has is refused, whatever the table
holds. -/
theorem unknown_predicate_column_refused (x : Plan.Ext K) (c : Codec K) (base keys : Schema)
    (overlay : Option (List (Mem.Entry K Row))) (st : Store K) (p : Expr) (rts : Nat) (proj : Option Schema) (n : String)
    (hn : Mentions p n) (hb : n ∉ base.map (·.1)) (hp : n ∉ (proj.getD base).map (·.1)) (batchSize : Nat)
    (limit : Option Nat) :
    ∃ e, Proj.scan x c base keys overlay st p rts proj batchSize limit = .error e ∧
      ((∃ col, e = .bloom col) ∨ e = .noSuchField) := by
  unfold Proj.scan Proj.plan
  cases hbl : findBloom p with
  | some col => exact ⟨_, rfl, .inl ⟨col, rfl⟩⟩
  | none =>
    simp only
    rw [extend_error ⟨n, (predCols_mentions p n).2 hn, hb, hp⟩]
    exact ⟨_, rfl, .inr rfl⟩

/-- **C61.** A predicate that tests a Bloom filter, however deep, is refused and the column named; no other
predicate is refused for that. -/
theorem bloom_predicates_refused (x : Plan.Ext K) (c : Codec K) (base keys : Schema)
    (overlay : Option (List (Mem.Entry K Row))) (st : Store K) (p : Expr) (rts : Nat) (proj : Option Schema) (batchSize : Nat)
    (limit : Option Nat) :
    ((∃ e ∈ leaves p, ∃ col, BloomLeaf col e) →
      ∃ col, (∃ e ∈ leaves p, BloomLeaf col e) ∧
        Proj.scan x c base keys overlay st p rts proj batchSize limit = .error (.bloom col)) ∧
    ((∀ e ∈ leaves p, ∀ col, ¬ BloomLeaf col e) →
      ∀ col, Proj.scan x c base keys overlay st p rts proj batchSize limit ≠ .error (.bloom col)) := by
  constructor
  · rintro ⟨e, he, col, hcol⟩
    cases hb : findBloom p with
    | none => exact absurd hcol ((Lemmas.Plan.findBloom_none p).1 hb e he col)
    | some col' =>
      refine ⟨col', Lemmas.Plan.findBloom_some hb, ?_⟩
      unfold Proj.scan Proj.plan
      rw [hb]
  · intro h col
    have hb := (Lemmas.Plan.findBloom_none p).2 h
    intro he
    unfold Proj.scan at he
    split at he
    · next hi => cases he; exact Lemmas.Proj.plan_err hb col hi rfl
    · split at he
      · next hi => cases he; exact Lemmas.Proj.openAll_err col hi rfl
      · cases he
      · cases he
      · split at he
        · next hi => cases he; exact Lemmas.Proj.packMap_err hi col rfl
        · cases he

/-! ## The hypotheses are met

The table of C07: a key `id` and a column `x`; rows in memory, in two frozen runs and in a file. -/

open C07 in
def exFile : Plan.Sst Int := { C07.exFile with schema := exSchema ++ [("_commit_ts", .int .u64)] }

open C07 in
def exStore : Store Int := ⟨exRuns.mem, exRuns.runs, [[exFile]]⟩

/-- The column `x`, then the key. -/
def exProj : Schema := [("x", .int .i64), ("id", .int .i64)]

open C07 in
theorem exTable : TableOk exSchema exKey exPred where
  nodup := by decide
  reserved := by decide
  keys := by decide
  cols := by
    rintro n ⟨e, he, hn⟩
    rw [exPred_leaves] at he
    simp only [List.mem_cons, List.not_mem_nil, or_false] at he
    rcases he with rfl | rfl <;> (cases hn; decide)

open C07 in
example : TableOk exSchema exKey exPred ∧ FilesOk exExt exSchema exPred 7 exStore.levels ∧ MemoryOk exSchema exStore ∧
    ProjOk exSchema exProj ∧ ProjOk exSchema [("id", .int .i64)] := by
  refine ⟨exTable, ?_, ?_, by unfold ProjOk; decide, by unfold ProjOk; decide⟩
  · intro t ht
    simp only [exStore, List.flatten_cons, List.flatten_nil, List.append_nil, List.mem_singleton] at ht
    subst ht
    exact ⟨rfl, by decide, fun e he => he⟩
  · exact calls_rows (P := fun r : Row => r.length = exSchema.length) (ext := exId) exOps (Runs.new 4) exRuns (by intro a ha; cases ha)
      (by intro m hm; cases hm) (by
        intro rows hr q hq
        simp only [exOps, List.mem_cons, List.not_mem_nil, or_false, reduceCtorEq, false_or, Op.put.injEq] at hr
        rcases hr with rfl | rfl | rfl <;> simp only [List.mem_cons, List.not_mem_nil, or_false] at hq <;>
          (first | (rcases hq with rfl | rfl <;> rfl) | (subst hq; rfl))) rfl

/-- `id > 1 AND x = 5`, asking for `x` and `id`, for `id` only, with a limit, and in a transaction that has put the row
of key 9 and deleted key 3. -/
example :
    Proj.scan C07.exExt C07.exCodec C07.exSchema C07.exKey none exStore C07.exPred 8 (some exProj) 2 none =
      .ok (some ([[[some (.int .i64 5), some (.int .i64 2)], [some (.int .i64 5), some (.int .i64 3)]],
        [[some (.int .i64 5), some (.int .i64 5)]]], none)) ∧
    Proj.scan C07.exExt C07.exCodec C07.exSchema C07.exKey none exStore C07.exPred 8 (some [("id", .int .i64)]) 10 (some 2) =
      .ok (some ([[[some (.int .i64 2)], [some (.int .i64 3)]]], none)) ∧
    Proj.scan C07.exExt C07.exCodec C07.exSchema C07.exKey
        (some [.tomb ⟨3, 8⟩, .row ⟨9, 8⟩ (C07.exRow 9 5)]) exStore C07.exPred 8 (some [("id", .int .i64)]) 10 none =
      .ok (some ([[[some (.int .i64 2)], [some (.int .i64 5)], [some (.int .i64 9)]]], none)) := ⟨rfl, rfl, rfl⟩

/-- All further hypotheses of `projected_filtered_scan_partial` are those of C07 (see the example there); the rows that
are written have both columns. -/
example : ∀ rows, Mem.Op.put rows ∈ C07.exOps → ∀ q ∈ rows, q.1.length = C07.exSchema.length := by
  intro rows hr q hq
  simp only [C07.exOps, List.mem_cons, List.not_mem_nil, or_false, reduceCtorEq, false_or, Mem.Op.put.injEq] at hr
  rcases hr with rfl | rfl | rfl <;> simp only [List.mem_cons, List.not_mem_nil, or_false] at hq <;>
    (first | (rcases hq with rfl | rfl <;> rfl) | (subst hq; rfl))

/-- A predicate on `y`. -/
example : Mentions (.not (.isNull "y" false)) "y" ∧ "y" ∉ C07.exSchema.map (·.1) ∧ "y" ∉ exProj.map (·.1) :=
  ⟨⟨.isNull "y" false, by simp [leaves], rfl⟩, by decide, by decide⟩

/-! ## Where it does not hold -/

/-- Asking for a column the table does not have is an error if the table has rows, and an empty result if it has
none. -/
theorem unknown_column_refused_only_with_rows :
    Proj.scan C07.exExt C07.exCodec C07.exSchema C07.exKey none exStore .tt 8 (some [("y", .int .i64)]) 10 none =
      .error .noSuchField ∧
    Proj.scan C07.exExt C07.exCodec C07.exSchema C07.exKey none ⟨Inner.new 4, [], []⟩ .tt 8 (some [("y", .int .i64)]) 10 none =
      .ok (some ([], none)) := ⟨rfl, rfl⟩

/-- The same for a projection without columns. -/
theorem no_columns_refused_only_with_rows :
    Proj.scan C07.exExt C07.exCodec C07.exSchema C07.exKey none exStore .tt 8 (some []) 10 none = .error .noColumns ∧
    Proj.scan C07.exExt C07.exCodec C07.exSchema C07.exKey none ⟨Inner.new 4, [], []⟩ .tt 8 (some []) 10 none =
      .ok (some ([], none)) := ⟨rfl, rfl⟩

/-- The commit timestamps can be asked for by the name of their column while all rows are in files; with a row in
memory the same scan is an error. -/
theorem commit_column_only_from_files :
    Proj.scan C07.exExt C07.exCodec C07.exSchema C07.exKey none ⟨Inner.new 4, [], [[exFile]]⟩ .tt 8
        (some [("id", .int .i64), ("_commit_ts", .int .u64)]) 10 none =
      .ok (some ([[[some (.int .i64 4), some (.int .u64 3)], [some (.int .i64 5), some (.int .u64 3)],
        [some (.int .i64 6), some (.int .u64 3)]]], none)) ∧
    Proj.scan C07.exExt C07.exCodec C07.exSchema C07.exKey none exStore .tt 8
        (some [("id", .int .i64), ("_commit_ts", .int .u64)]) 10 none = .error .noSuchField := ⟨rfl, rfl⟩

/-- A test of a Bloom filter inside a conjunction, under a negation. -/
example : ∃ e ∈ leaves (.and [.tt, .not (.bloomEq "k" (.bool true))]), ∃ col, BloomLeaf col e :=
  ⟨.bloomEq "k" (.bool true), by simp [leaves, leavesList], "k", rfl⟩

end Tonbo.Props.C61
