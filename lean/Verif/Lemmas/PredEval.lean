import Verif.Lemmas.Pred
import Verif.Lemmas.KeyOrder
import Verif.Props.C11_NumCmp

/-!
# The evaluator against the meaning of predicates
-/

namespace Tonbo.Lemmas.PredEval
open Tonbo.Spec Tonbo.Model.Pred Tonbo.Model.Keys Tonbo.Model.Num Tonbo.Lemmas.Pred
open Tonbo.Lemmas.Float Tonbo.Lemmas.Keys Tonbo.Lemmas.Str

/-- Not a NaN and not a negative zero. -/
def Tame : Scalar → Prop
  | .f32 v => v.isNan = false ∧ ¬ (v.isZero = true ∧ v.signNeg = true)
  | .f64 v => v.isNan = false ∧ ¬ (v.isZero = true ∧ v.signNeg = true)
  | _ => True

/-- Two values of one type. -/
def OneType : Scalar → Scalar → Prop
  | .bool _, .bool _ => True
  | .int s _, .int t _ => s = t
  | .f32 _, .f32 _ => True
  | .f64 _, .f64 _ => True
  | .str j _, .str k _ => j = k
  | .bin j _, .bin k _ => j = k
  | _, _ => False

theorem oneType_of {a b : Scalar} (h : a.dtype = b.dtype) (ha : a.isNull = false) (hb : b.isNull = false) :
    OneType a b := by
  cases a <;> cases b <;> simp_all [Scalar.dtype, Scalar.isNull, OneType]

/-- What is assumed of `ScalarValue::partial_cmp` on values of one type: it compares by value, except
that nothing is assumed of NaN and negative zero. -/
def PcOk (pc : Scalar → Scalar → Option Ordering) : Prop :=
  ∀ a b, OneType a b → a.isNull = false → b.isNull = false → Tame a → Tame b →
    pc a b = cmpVal (scalarVal a) (scalarVal b)

/-- The integer lies in the range of its type. -/
def intRange : IntTy → Int × Int
  | .i8 => (-128, 127)
  | .i16 => (-32768, 32767)
  | .i32 => (-2147483648, 2147483647)
  | .i64 => (-9223372036854775808, 9223372036854775807)
  | .u8 => (0, 255)
  | .u16 => (0, 65535)
  | .u32 => (0, 4294967295)
  | .u64 => (0, 18446744073709551615)

/-- Integers lie in the range of their type. -/
def InRange : Scalar → Prop
  | .int t v => (intRange t).1 ≤ v ∧ v ≤ (intRange t).2
  | _ => True

/-- A column value and a literal the evaluator compares by value. Excluded: a large or view string or
binary literal against a string or binary column (the evaluator turns every string cell into a plain
`Utf8` value and every binary cell into a plain `Binary` value, and then finds different types), and,
for floats of one type, NaN and negative zero. -/
structure Comparable (a b : Scalar) : Prop where
  rangeA : InRange a
  rangeB : InRange b
  tame : OneType a b → Tame a ∧ Tame b
  str : ∀ s k t, a = .str .plain s → b = .str k t → k = .plain
  bin : ∀ s k t, a = .bin .plain s → b = .bin k t → k = .plain

theorem range_i128 {t : IntTy} {v : Int} (h : (intRange t).1 ≤ v ∧ v ≤ (intRange t).2) :
    -2 ^ 127 ≤ v ∧ v < 2 ^ 127 := by
  cases t <;> simp only [intRange] at h <;> omega

theorem cmpReal_swap (a b : Real64) : (cmpReal a b).map rev = cmpReal b a := by
  cases a <;> cases b <;> simp only [cmpReal, Option.map_none, Option.map_some]
  · rename_i x y; cases x <;> cases y <;> rfl
  · rename_i x y; cases x <;> rfl
  · rename_i x y; cases y <;> rfl
  · rename_i p q
    congr 1
    by_cases h : p < q
    · rw [if_pos h, if_neg (not_lt.2 h.le), if_neg h.ne']; rfl
    · by_cases h' : p = q
      · rw [if_neg h, if_pos h', if_neg (by rw [h']; exact lt_irrefl _), if_pos h'.symm]; rfl
      · have : q < p := lt_of_le_of_ne (not_lt.1 h) (Ne.symm h')
        rw [if_neg h, if_neg h', if_pos this]; rfl

theorem cmpExact_eq (i : Int) (r : Real64) : cmpExact i r = cmpReal (.fin i) r := by
  cases r <;> rfl

theorem cmpInt_val (x y : Int) : some (cmpInt x y) = cmpReal (.fin x) (.fin y) := by
  simp only [cmpReal, cmpInt, Int.cast_lt, Int.cast_inj]

theorem isNan_val {x : F64} : x.isNan = true ↔ valueOf x = .nan := by
  simp only [F64.isNan, valueOf, ieee, decide_eq_true_eq]
  by_cases h : x.expBits = 2047
  · by_cases h' : x.frac = 0 <;> simp [h, h']
  · simp [h]

theorem real_lt_iff {a b : Real64} : Real64.Lt a b ↔ cmpReal a b = some .lt := by
  cases a <;> cases b <;> simp only [Real64.Lt, cmpReal]
  · simp
  · simp
  · simp
  · simp
  · rename_i x y; cases x <;> cases y <;> simp
  · rename_i x y; cases x <;> simp
  · simp
  · rename_i x y; cases y <;> simp
  · rename_i p q
    by_cases h : p < q
    · simp [h]
    · by_cases h' : p = q <;> simp [h, h']

theorem fcmp_val (x y : F64) : fcmp x y = cmpReal (valueOf x) (valueOf y) := by
  unfold fcmp
  cases hx : x.isNan with
  | true => rw [isNan_val.1 hx]; cases valueOf y <;> rfl
  | false =>
    cases hy : y.isNan with
    | true => rw [isNan_val.1 hy]; cases valueOf x <;> rfl
    | false =>
      simp only [Bool.or_self, Bool.false_eq_true, if_false]
      have nx : valueOf x ≠ .nan := fun h => by rw [isNan_val.2 h] at hx; cases hx
      have ny : valueOf y ≠ .nan := fun h => by rw [isNan_val.2 h] at hy; cases hy
      have h1 := ordKey_lt_iff hx hy
      have h2 := ordKey_lt_iff hy hx
      have h3 := ordKey_eq_iff hx hy
      rw [real_lt_iff] at h1 h2
      rcases lt_trichotomy (ordKey x) (ordKey y) with h | h | h
      · rw [h1.1 h]; exact congrArg some (cmpInt_lt.2 h)
      · rw [← h3.1 h, cmpInt_eq.2 h]
        cases hv : valueOf x with
        | nan => exact absurd hv nx
        | inf s => simp [cmpReal]
        | fin q => simp [cmpReal]
      · rw [cmpInt_gt.2 h]
        have := h2.1 h
        rw [← cmpReal_swap, this]; rfl

/-- The comparison of two non-null values the code performs is the comparison of the values. -/
theorem compareScalars_val {pc : Scalar → Scalar → Option Ordering} (hpc : PcOk pc) {a b : Scalar}
    (ha : a.isNull = false) (hb : b.isNull = false) (h : Comparable a b)
    (hs : ∀ k s, a = .str k s → k = .plain) (hbn : ∀ k s, a = .bin k s → k = .plain) :
    compareScalars pc a b = cmpVal (scalarVal a) (scalarVal b) := by
  unfold compareScalars
  split
  · rename_i hd
    have hd := oneType_of hd ha hb
    exact hpc a b hd ha hb (h.tame hd).1 (h.tame hd).2
  · rename_i hd
    cases a with
    | null => cases ha
    | typedNull t => cases ha
    | bool x =>
      cases b with
      | null => cases hb
      | typedNull t => cases hb
      | bool y => exact absurd rfl hd
      | _ => rfl
    | int t x =>
      cases b with
      | null => cases hb
      | typedNull t => cases hb
      | int u y => simp [numericCompare, isFloat, toI128, scalarVal, cmpVal, cmpInt_val]
      | f32 y =>
        have hr := range_i128 h.rangeA
        simp [numericCompare, isFloat, toI128, toF64, scalarVal, cmpVal, valueOf,
          Props.C11.int_float_exact x hr.1 hr.2, cmpExact_eq]
      | f64 y =>
        have hr := range_i128 h.rangeA
        simp [numericCompare, isFloat, toI128, toF64, scalarVal, cmpVal, valueOf,
          Props.C11.int_float_exact x hr.1 hr.2, cmpExact_eq]
      | _ => rfl
    | f32 x =>
      cases b with
      | null => cases hb
      | typedNull t => cases hb
      | int u y =>
        have hr := range_i128 h.rangeB
        simp [numericCompare, isFloat, toI128, toF64, scalarVal, cmpVal, valueOf,
          Props.C11.int_float_exact y hr.1 hr.2, cmpExact_eq, cmpReal_swap]
      | f32 y => exact absurd rfl hd
      | f64 y => simp [numericCompare, isFloat, toF64, scalarVal, cmpVal, fcmp_val]
      | _ => rfl
    | f64 x =>
      cases b with
      | null => cases hb
      | typedNull t => cases hb
      | int u y =>
        have hr := range_i128 h.rangeB
        simp [numericCompare, isFloat, toI128, toF64, scalarVal, cmpVal, valueOf,
          Props.C11.int_float_exact y hr.1 hr.2, cmpExact_eq, cmpReal_swap]
      | f64 y => exact absurd rfl hd
      | f32 y => simp [numericCompare, isFloat, toF64, scalarVal, cmpVal, fcmp_val]
      | _ => rfl
    | str k s =>
      have := hs k s rfl
      subst this
      cases b with
      | null => cases hb
      | typedNull t => cases hb
      | str k' t =>
        have := h.str s k' t rfl rfl
        subst this
        exact absurd rfl hd
      | _ => rfl
    | bin k s =>
      have := hbn k s rfl
      subst this
      cases b with
      | null => cases hb
      | typedNull t => cases hb
      | bin k' t =>
        have := h.bin s k' t rfl rfl
        subst this
        exact absurd rfl hd
      | _ => rfl

theorem holds_iff (op : CmpOp) (o : Ordering) : op.holds o = true ↔ opHolds op o := by
  cases op <;> cases o <;> simp [CmpOp.holds, opHolds]

theorem convert_val (c : Cell) : scalarVal (convertCell c) = cellVal c := by cases c <;> rfl
theorem convert_notNull (c : Cell) : (convertCell c).isNull = false := by cases c <;> rfl
theorem cellVal_notNull (c : Cell) : cellVal c ≠ .null := by cases c <;> simp [cellVal]
theorem convert_str {c : Cell} {k : StrKind} {s : List Char} (h : convertCell c = .str k s) :
    k = .plain := by
  cases c <;> simp only [convertCell, reduceCtorEq] at h
  cases h; rfl
theorem convert_bin {c : Cell} {k : BinKind} {s : List Nat} (h : convertCell c = .bin k s) :
    k = .plain := by
  cases c <;> simp only [convertCell, reduceCtorEq] at h
  cases h; rfl

theorem cmpVal_null_left (v : Val) : cmpVal .null v = none := by cases v <;> rfl
theorem cmpVal_null_right (v : Val) : cmpVal v .null = none := by cases v <;> rfl
theorem isNull_val {v : Scalar} (h : v.isNull = true) : scalarVal v = .null := by
  cases v <;> first | rfl | cases h

/-- The literals of a leaf. -/
def literals : Expr → List Scalar
  | .cmp _ _ v => [v]
  | .between _ lo hi _ => [lo, hi]
  | .inList _ vs => vs
  | _ => []

/-- The column of a leaf. -/
def leafCol : Expr → String
  | .cmp col _ _ => col
  | .between col _ _ _ => col
  | .inList col _ => col
  | .startsWith col _ => col
  | .isNull col _ => col
  | .bloomEq col _ => col
  | .bloomIn col _ => col
  | _ => ""

/-- A leaf the evaluator handles: its column is in the row, its literals compare with the cell, a
prefix test is made on a string. -/
structure LeafOk (schema : Schema) (row : Row) (e : Expr) : Prop where
  kind : (∃ col op v, e = .cmp col op v) ∨ (∃ col lo hi i, e = .between col lo hi i) ∨
    (∃ col vs, e = .inList col vs) ∨ (∃ col pre, e = .startsWith col pre) ∨
    (∃ col neg, e = .isNull col neg)
  found : ∃ i, columnIdx schema (leafCol e) = some i ∧ i < row.length
  lits : ∀ i c, columnIdx schema (leafCol e) = some i → row[i]? = some (some c) →
    ∀ v ∈ literals e, v.isNull = false → Comparable (convertCell c) v
  prefixStr : ∀ col pre i c, e = .startsWith col pre → columnIdx schema col = some i →
    row[i]? = some (some c) → ∃ s, c = .str s

theorem resolve_env {schema : Schema} {row : Row} {col : String} {i : Nat}
    (hi : columnIdx schema col = some i) (hlt : i < row.length) :
    (row[i]? = some none ∧ resolve schema col row = .ok none ∧ envOf schema row col = .null) ∨
    ∃ c, row[i]? = some (some c) ∧ resolve schema col row = .ok (some (convertCell c)) ∧
      envOf schema row col = cellVal c := by
  have h : row[i]? = some row[i] := List.getElem?_eq_getElem hlt
  unfold resolve envOf
  simp only [hi, h]
  cases row[i] with
  | none => left; simp
  | some c => right; exact ⟨c, rfl, rfl, rfl⟩

theorem evalCmp_val {pc : Scalar → Scalar → Option Ordering} (hpc : PcOk pc) {schema : Schema}
    {row : Row} {col : String} {i : Nat} (op : CmpOp) {v : Scalar}
    (hi : columnIdx schema col = some i) (hlt : i < row.length)
    (hl : ∀ c, row[i]? = some (some c) → v.isNull = false → Comparable (convertCell c) v) :
    evalCmp pc schema col op v row = .ok (mCmp op (envOf schema row col) (scalarVal v)) := by
  unfold evalCmp mCmp
  rcases resolve_env hi hlt with ⟨_, h2, h3⟩ | ⟨c, h1, h2, h3⟩
  · rw [h2, h3, cmpVal_null_left]
  · rw [h2, h3]
    simp only [convert_notNull, Bool.false_or]
    cases hn : v.isNull with
    | true => simp [isNull_val hn, cmpVal_null_right]
    | false =>
      simp only [Bool.false_eq_true, if_false]
      rw [compareScalars_val hpc (convert_notNull c) hn (hl c h1 hn) (fun k s h => convert_str h)
        (fun k s h => convert_bin h), convert_val]
      cases cmpVal (cellVal c) (scalarVal v) with
      | none => rfl
      | some o =>
        simp only [Tri.ofBool]
        by_cases ho : opHolds op o
        · rw [if_pos ((holds_iff op o).2 ho), if_pos ho]
        · rw [if_neg (fun h => ho ((holds_iff op o).1 h)), if_neg ho]

theorem inListLoop_val {pc : Scalar → Scalar → Option Ordering} (hpc : PcOk pc) (c : Cell) :
    ∀ (vs : List Scalar) (saw : Bool),
    (∀ v ∈ vs, v.isNull = false → Comparable (convertCell c) v) →
    inListLoop pc (convertCell c) vs saw =
      (mOr (vs.map (fun v => mCmp .eq (cellVal c) (scalarVal v)))).or (if saw then .u else .f)
  | [], saw, _ => by
    have : mOr [] = .f := by decide
    simp only [inListLoop, List.map_nil, this]
    cases saw <;> rfl
  | v :: vs, saw, h => by
    have ih := fun s => inListLoop_val hpc c vs s (fun x hx => h x (List.mem_cons_of_mem _ hx))
    rw [List.map_cons, mOr_cons]
    generalize hX : mOr (vs.map (fun v => mCmp .eq (cellVal c) (scalarVal v))) = X at ih ⊢
    clear hX
    rw [inListLoop]
    cases hn : v.isNull with
    | true =>
      have hm : mCmp .eq (cellVal c) (scalarVal v) = .u := by
        rw [isNull_val hn, mCmp, cmpVal_null_right]
      rw [if_pos rfl, ih, hm]
      cases X <;> cases saw <;> rfl
    | false =>
      rw [if_neg (by simp)]
      rw [compareScalars_val hpc (convert_notNull c) hn (h v List.mem_cons_self hn)
        (fun k s h => convert_str h) (fun k s h => convert_bin h), convert_val]
      have hm : mCmp .eq (cellVal c) (scalarVal v) = match cmpVal (cellVal c) (scalarVal v) with
        | none => .u
        | some o => if opHolds .eq o then .t else .f := rfl
      rw [hm]
      cases cmpVal (cellVal c) (scalarVal v) with
      | none =>
        simp only [ih]
        cases X <;> cases saw <;> rfl
      | some o =>
        cases o with
        | eq => cases X <;> cases saw <;> rfl
        | lt => simp only [ih]; cases X <;> cases saw <;> rfl
        | gt => simp only [ih]; cases X <;> cases saw <;> rfl

/-- On leaves it handles, the evaluator returns the meaning of the leaf. -/
theorem evalLeaf_val {pc : Scalar → Scalar → Option Ordering} (hpc : PcOk pc) {schema : Schema}
    {row : Row} {e : Expr} (h : LeafOk schema row e) :
    evalExpr pc schema row e = .ok (leafMeaning (envOf schema row) e) := by
  obtain ⟨i, hi, hlt⟩ := h.found
  have hlits := h.lits i
  rcases h.kind with ⟨col, op, v, rfl⟩ | ⟨col, lo, hi', inc, rfl⟩ | ⟨col, vs, rfl⟩ | ⟨col, pre, rfl⟩ |
    ⟨col, neg, rfl⟩
  · rw [evalExpr]
    exact evalCmp_val hpc op hi hlt (fun c hc hn => hlits c hi hc v (by simp [literals]) hn)
  · rw [evalExpr]
    unfold evalBetween
    simp only [leafCol] at hi hlits
    rw [evalCmp_val hpc _ hi hlt (fun c hc hn => hlits c hi hc lo (by simp [literals]) hn)]
    simp only
    rw [evalCmp_val hpc _ hi hlt (fun c hc hn => hlits c hi hc hi' (by simp [literals]) hn)]
    simp only [leafMeaning, mAnd_cons]
    rw [show mAnd [] = .t by decide, tri_t_and]
  · rw [evalExpr]
    unfold evalInList
    simp only [leafMeaning, leafCol] at *
    rcases resolve_env hi hlt with ⟨_, h2, h3⟩ | ⟨c, h1, h2, h3⟩
    · rw [h2, h3]
    · rw [h2, h3]
      simp only [convert_notNull, Bool.false_eq_true, if_false]
      rw [inListLoop_val hpc c vs false (fun v hv hn => hlits c hi h1 v (by simpa [literals] using hv) hn)]
      simp only [Bool.false_eq_true, if_false, tri_f_or]
      cases hv : cellVal c with
      | null => exact absurd hv (cellVal_notNull c)
      | _ => rfl
  · rw [evalExpr]
    unfold evalStartsWith
    simp only [leafMeaning, leafCol] at *
    rcases resolve_env hi hlt with ⟨_, h2, h3⟩ | ⟨c, h1, h2, h3⟩
    · rw [h2, h3]
    · obtain ⟨s, rfl⟩ := h.prefixStr col pre i c rfl hi h1
      rw [h2, h3]
      simp only [convertCell, Scalar.isNull, Bool.false_eq_true, if_false, cellVal, Tri.ofBool,
        List.isPrefixOf_iff_prefix]
  · rw [evalExpr]
    unfold evalIsNull
    simp only [leafMeaning, leafCol] at *
    rcases resolve_env hi hlt with ⟨_, h2, h3⟩ | ⟨c, h1, h2, h3⟩
    · rw [h2, h3]
      cases neg <;> rfl
    · rw [h2, h3]
      simp only [convert_notNull]
      cases hv : cellVal c with
      | null => exact absurd hv (cellVal_notNull c)
      | _ => cases neg <;> rfl

end Tonbo.Lemmas.PredEval
