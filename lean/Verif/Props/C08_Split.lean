import Verif.Lemmas.PredEval

/-!
# C08: splitting a predicate, and evaluating it

`kleene leaf p` is the three-valued value of `p` when its leaves have the values `leaf`; the theorems
on splitting hold for every assignment of values to leaves, so they do not depend on what the leaves
mean. `meaning` (`Spec/Pred.lean`) is the meaning of a predicate on the values of a row.
-/

namespace Tonbo.Props.C08
open Tonbo.Spec Tonbo.Model.Pred Tonbo.Model.Keys Tonbo.Lemmas.Pred Tonbo.Lemmas.PredEval

/-- The value of the parts of a split taken together. -/
def together (leaf : Expr → Tri) (s : Split) : Tri :=
  mAnd ((s.pushdown.toList ++ s.residual.toList).map (kleene leaf))

theorem together_eq (leaf : Expr → Tri) (s : Split) :
    together leaf s = (optVal leaf s.pushdown).and (optVal leaf s.residual) := by
  unfold together
  rw [List.map_append, mAnd_append, mAnd_toList, mAnd_toList]

/-- **C08.** Whatever the schema, the part handed to the file reader and the part evaluated
afterwards, taken together, have exactly the value of the predicate: true, false or unknown. -/
theorem split_loses_nothing (leaf : Expr → Tri) (schema : Schema) (p : Expr) :
    together leaf (splitRowFilter schema p) = kleene leaf p := by
  rw [together_eq]; exact splitRowFilter_ok leaf schema p

/-- **C08.** When nothing remains to be evaluated, the part handed to the reader is the whole
predicate; when nothing is handed to the reader, what remains is. -/
theorem split_whole (leaf : Expr → Tri) (schema : Schema) (p : Expr) :
    ((splitRowFilter schema p).residual = none → ∀ q, (splitRowFilter schema p).pushdown = some q →
      kleene leaf q = kleene leaf p) ∧
    ((splitRowFilter schema p).pushdown = none → ∀ q, (splitRowFilter schema p).residual = some q →
      kleene leaf q = kleene leaf p) ∧
    ((splitRowFilter schema p).pushdown = none → (splitRowFilter schema p).residual = none →
      kleene leaf p = .t) := by
  have h := splitRowFilter_ok leaf schema p
  unfold SplitOk at h
  refine ⟨fun h1 q h2 => ?_, fun h1 q h2 => ?_, fun h1 h2 => ?_⟩
  · rw [h1, h2] at h; simpa [optVal, tri_t_and] using h
  · rw [h1, h2] at h; simpa [optVal, tri_and_t] using h
  · rw [h1, h2] at h; simpa [optVal, tri_and_t] using h.symm

/-- A row passes the predicate if and only if it passes both parts. -/
theorem split_true_iff (leaf : Expr → Tri) (schema : Schema) (p : Expr) :
    kleene leaf p = .t ↔ (∀ q, (splitRowFilter schema p).pushdown = some q → kleene leaf q = .t) ∧
      ∀ q, (splitRowFilter schema p).residual = some q → kleene leaf q = .t := by
  rw [← split_loses_nothing leaf schema p, together, mAnd_true]
  constructor
  · intro h
    exact ⟨fun q hq => h _ (List.mem_map.2 ⟨q, by simp [hq], rfl⟩),
      fun q hq => h _ (List.mem_map.2 ⟨q, by simp [hq], rfl⟩)⟩
  · rintro ⟨h1, h2⟩ x hx
    obtain ⟨q, hq, rfl⟩ := List.mem_map.1 hx
    rcases List.mem_append.1 hq with h | h
    · exact h1 q (Option.mem_toList.1 h)
    · exact h2 q (Option.mem_toList.1 h)

/-- **C08.** Whatever is handed to the file reader is built from leaves of the predicate whose column
is in the file and whose literals have exactly the type of the column. -/
theorem pushed_is_typed (schema : Schema) (p q : Expr)
    (h : (splitRowFilter schema p).pushdown = some q) :
    ∀ e ∈ leaves q, e ∈ leaves p ∧ ∃ t, columnType schema (leafCol e) = some t ∧
      ∀ v ∈ literals e, v.dtype = t := by
  intro e he
  obtain ⟨h1, h2⟩ := pushed_leaves schema p q h e he
  refine ⟨h2, ?_⟩
  have key : ∀ {v : Scalar} {t : DType}, scalarMatchesType v t = true → v.dtype = t := by
    intro v t hv
    cases v <;> simp [scalarMatchesType] at hv <;> exact hv
  cases e with
  | cmp col op v =>
    simp only [leafTyped, scalarMatchesColumn] at h1
    cases ht : columnType schema col with
    | none => rw [ht] at h1; cases h1
    | some t =>
      rw [ht] at h1
      exact ⟨t, ht, fun w hw => by rw [List.mem_singleton.1 hw]; exact key h1⟩
  | between col lo hi i =>
    simp only [leafTyped, scalarMatchesColumn, Bool.and_eq_true] at h1
    cases ht : columnType schema col with
    | none => rw [ht] at h1; cases h1.1
    | some t =>
      rw [ht] at h1
      refine ⟨t, ht, fun w hw => ?_⟩
      simp only [literals, List.mem_cons, List.not_mem_nil, or_false] at hw
      rcases hw with rfl | rfl
      · exact key h1.1
      · exact key h1.2
  | inList col vs =>
    simp only [leafTyped, scalarsMatchColumn] at h1
    cases ht : columnType schema col with
    | none => rw [ht] at h1; cases h1
    | some t =>
      rw [ht] at h1
      exact ⟨t, ht, fun w hw => key (List.all_eq_true.1 h1 w hw)⟩
  | startsWith col pre =>
    simp only [leafTyped, isStringColumn] at h1
    cases ht : columnType schema col with
    | none => rw [ht] at h1; cases h1
    | some t => exact ⟨t, ht, fun w hw => by cases hw⟩
  | isNull col neg =>
    simp only [leafTyped] at h1
    obtain ⟨t, ht⟩ := Option.isSome_iff_exists.1 h1
    exact ⟨t, ht, fun w hw => by cases hw⟩
  | _ => cases h1

/-- **C08.** The split used for the memtables loses nothing either. -/
theorem memory_split_loses_nothing (leaf : Expr → Tri) (keySchema : Schema) (p : Expr) :
    together leaf (splitNonSst keySchema p) = kleene leaf p := by
  rw [together_eq]; exact splitNonSst_ok leaf keySchema p

/-- **C08.** The evaluator computes the meaning of the predicate, and reports no error, on every row
on which each leaf is one it handles (`LeafOk`): the column exists, prefixes are tested on strings,
and literals of string or binary columns are plain `Utf8` or `Binary`. `pc` is the comparison of
`ScalarValue`s of one type, assumed to compare by value away from NaN and negative zero. -/
theorem evaluator_correct_partial {pc : Scalar → Scalar → Option Ordering} (hpc : PcOk pc)
    {schema : Schema} {row : Row} (p : Expr) (h : ∀ e ∈ leaves p, LeafOk schema row e) :
    evalExpr pc schema row p = .ok (meaning (envOf schema row) p) :=
  eval_kleene pc schema row (leafMeaning (envOf schema row)) p (fun e he => evalLeaf_val hpc (h e he))

/-- A row is kept if and only if the predicate is true of it. -/
theorem row_kept_iff_partial {pc : Scalar → Scalar → Option Ordering} (hpc : PcOk pc)
    {schema : Schema} {row : Row} (p : Expr) (h : ∀ e ∈ leaves p, LeafOk schema row e) :
    matchesOwned pc schema p row = .ok (decide (meaning (envOf schema row) p = .t)) := by
  unfold matchesOwned
  rw [evaluator_correct_partial hpc p h]

/-! ## The hypotheses are met -/

/-- Comparison by value: meets `PcOk`. -/
def byValue (a b : Scalar) : Option Ordering := cmpVal (scalarVal a) (scalarVal b)

theorem byValue_ok : PcOk byValue := fun _ _ _ _ _ _ _ => rfl

instance (a b : Scalar) : Decidable (OneType a b) := by
  unfold OneType
  split <;> infer_instance

/-- As `ScalarValue::partial_cmp` does: nothing about values of different types. -/
noncomputable def ofOneType (a b : Scalar) : Option Ordering := if OneType a b then byValue a b else none

theorem ofOneType_ok : PcOk ofOneType := fun _ _ h _ _ _ _ => if_pos h

/-- Columns `id : Int64`, `name : Utf8`, `score : Float64`. -/
def schema : Schema := [("id", .int .i64), ("name", .str .plain), ("score", .f64)]

/-- `id >= 3 AND (name STARTS WITH "a" OR id IN (1, NULL)) AND NOT (score IS NULL) AND id = 7u8` -/
def pred : Expr :=
  .and [.cmp "id" .ge (.int .i64 3),
    .or [.startsWith "name" ['a'], .inList "id" [.int .i64 1, .null]],
    .not (.isNull "score" false), .cmp "id" .ne (.int .u8 7)]

def row : Row := [some (.int .i64 5), some (.str ['a', 'b']), none]

example : ∀ e ∈ leaves pred, LeafOk schema row e := by
  have hc : columnIdx schema "id" = some 0 ∧ columnIdx schema "name" = some 1 ∧
    columnIdx schema "score" = some 2 := by decide
  have hl : leaves pred = [.cmp "id" .ge (.int .i64 3), .startsWith "name" ['a'],
    .inList "id" [.int .i64 1, .null], .isNull "score" false, .cmp "id" .ne (.int .u8 7)] := by
    simp [pred, leaves, leavesList]
  have cmpOk : ∀ t v, InRange (.int t v) → Comparable (convertCell (.int .i64 5)) (.int t v) :=
    fun t v hv => ⟨⟨by decide, by decide⟩, hv, fun _ => ⟨trivial, trivial⟩,
      (fun _ _ _ h => by cases h), (fun _ _ _ h => by cases h)⟩
  rw [hl]
  intro e he
  simp only [List.mem_cons, List.not_mem_nil, or_false] at he
  rcases he with rfl | rfl | rfl | rfl | rfl
  · refine ⟨.inl ⟨_, _, _, rfl⟩, ⟨0, hc.1, by decide⟩, ?_, ?_⟩
    · intro i c hi hcell v hv _
      cases hc.1.symm.trans hi; cases hcell
      cases List.mem_singleton.1 hv
      exact cmpOk _ _ ⟨by decide, by decide⟩
    · intro _ _ _ _ h; cases h
  · refine ⟨.inr (.inr (.inr (.inl ⟨_, _, rfl⟩))), ⟨1, hc.2.1, by decide⟩, ?_, ?_⟩
    · intro i c hi hcell v hv _; cases hv
    · intro col pre i c h hi hcell
      cases h
      cases hc.2.1.symm.trans hi; cases hcell
      exact ⟨_, rfl⟩
  · refine ⟨.inr (.inr (.inl ⟨_, _, rfl⟩)), ⟨0, hc.1, by decide⟩, ?_, ?_⟩
    · intro i c hi hcell v hv hn
      cases hc.1.symm.trans hi; cases hcell
      simp only [literals, List.mem_cons, List.not_mem_nil, or_false] at hv
      rcases hv with rfl | rfl
      · exact cmpOk _ _ ⟨by decide, by decide⟩
      · cases hn
    · intro _ _ _ _ h; cases h
  · refine ⟨.inr (.inr (.inr (.inr ⟨_, _, rfl⟩))), ⟨2, hc.2.2, by decide⟩, ?_, ?_⟩
    · intro i c hi hcell; cases hc.2.2.symm.trans hi; cases hcell
    · intro _ _ _ _ h; cases h
  · refine ⟨.inl ⟨_, _, _, rfl⟩, ⟨0, hc.1, by decide⟩, ?_, ?_⟩
    · intro i c hi hcell v hv _
      cases hc.1.symm.trans hi; cases hcell
      cases List.mem_singleton.1 hv
      exact cmpOk _ _ ⟨by decide, by decide⟩
    · intro _ _ _ _ h; cases h

/-- The predicate is split: `id <> 7u8` and the disjunction with the untyped null stay behind. -/
example : ∃ a b c d, (splitRowFilter schema pred).pushdown = some (.and [a, b]) ∧
    (splitRowFilter schema pred).residual = some (.and [c, d]) ∧
    leaves a = [.cmp "id" .ge (.int .i64 3)] ∧ leaves d = [.cmp "id" .ne (.int .u8 7)] := by
  refine ⟨.cmp "id" .ge (.int .i64 3), .not (.isNull "score" false),
    .or [.startsWith "name" ['a'], .inList "id" [.int .i64 1, .null]],
    .cmp "id" .ne (.int .u8 7), ?_, ?_, ?_, ?_⟩ <;>
  simp [pred, schema, splitRowFilter, splitAnd, splitOr, combineAnd, Split.leaf,
    scalarMatchesColumn, scalarsMatchColumn, scalarMatchesType, columnType, Scalar.dtype,
    isStringColumn, isStringType, leaves]

/-! ## Where the code departs from the property -/

/-- On a `LargeUtf8` column, a literal of exactly the column's type is never equal to any
string, the predicate is unknown, and the row is dropped although it satisfies the predicate. The
same leaf is handed to the file reader, which keeps the row. -/
theorem large_string_rows_dropped (pc : Scalar → Scalar → Option Ordering) (s : List Char) :
    let sch : Schema := [("name", .str .large)]
    let p : Expr := .cmp "name" .eq (.str .large s)
    let r : Row := [some (.str s)]
    meaning (envOf sch r) p = .t ∧ evalExpr pc sch r p = .ok .u ∧
      matchesOwned pc sch p r = .ok false ∧ (splitRowFilter sch p).residual = none := by
  have hm : meaning (envOf [("name", .str .large)] [some (.str s)]) (.cmp "name" .eq (.str .large s)) = .t := by
    rw [meaning, kleene]
    · have : cmpList (s.map Char.toNat) (s.map Char.toNat) = .eq := by simp [cmpList]
      simp [leafMeaning, envOf, columnIdx, cellVal, scalarVal, mCmp, cmpVal, this, opHolds]
    all_goals simp
  have he : evalExpr pc [("name", .str .large)] [some (.str s)] (.cmp "name" .eq (.str .large s)) = .ok .u := by
    rw [evalExpr]
    simp [evalCmp, resolve, columnIdx, convertCell, Scalar.isNull, compareScalars, Scalar.dtype,
      numericCompare, isFloat, toI128]
  refine ⟨hm, he, ?_, ?_⟩
  · unfold matchesOwned; rw [he]; rfl
  · rw [splitRowFilter]
    simp [Split.leaf, scalarMatchesColumn, columnType, scalarMatchesType, Scalar.dtype]

end Tonbo.Props.C08
