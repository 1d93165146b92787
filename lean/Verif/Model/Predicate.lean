import Verif.Model.Cell

/-!
# Predicates
(src/query/stream/package.rs, src/ondisk/sstable.rs, src/db/scan.rs)

`Expr` and `ScalarValue` come from the external crates aisle and datafusion. `ScalarValue` is
restricted to the types tonbo handles by name, without `Float16`; list, struct, decimal and temporal
types are left out. A 32-bit float is represented by the 64-bit float of the same value, as in
`Model/Cell.lean`.
-/

namespace Tonbo.Model.Pred
open Tonbo.Model.Num Tonbo.Model.Keys

/-- `Utf8`, `LargeUtf8`, `Utf8View`. -/
inductive StrKind where
  | plain | large | view
deriving DecidableEq, Repr

/-- `Binary`, `LargeBinary`, `BinaryView`, `FixedSizeBinary`. -/
inductive BinKind where
  | plain | large | view | fixed (n : Nat)
deriving DecidableEq, Repr

/-- `arrow_schema::DataType`, the supported part. -/
inductive DType where
  | null | bool | int (t : IntTy) | f32 | f64 | str (k : StrKind) | bin (k : BinKind) | other (n : Nat)
deriving DecidableEq, Repr

/-- `ScalarValue`: `null` is `ScalarValue::Null`, `typedNull t` is a `None` of type `t`. -/
inductive Scalar where
  | null
  | typedNull (t : DType)
  | bool (b : Bool)
  | int (t : IntTy) (v : Int)
  | f32 (v : F64)
  | f64 (v : F64)
  | str (k : StrKind) (s : List Char)
  | bin (k : BinKind) (b : List Nat)
deriving DecidableEq, Repr

/-- `ScalarValue::data_type`. -/
def Scalar.dtype : Scalar → DType
  | .null => .null
  | .typedNull t => t
  | .bool _ => .bool
  | .int t _ => .int t
  | .f32 _ => .f32
  | .f64 _ => .f64
  | .str k _ => .str k
  | .bin k _ => .bin k

/-- `ScalarValue::is_null`. -/
def Scalar.isNull : Scalar → Bool
  | .null => true
  | .typedNull _ => true
  | _ => false

/-- `aisle::CmpOp`. -/
inductive CmpOp where
  | eq | ne | lt | le | gt | ge
deriving DecidableEq, Repr

/-- `aisle::Expr`. `other` stands for the variants the code meets with a catch-all arm. -/
inductive Expr where
  | tt
  | ff
  | cmp (col : String) (op : CmpOp) (v : Scalar)
  | between (col : String) (lo hi : Scalar) (inclusive : Bool)
  | inList (col : String) (vs : List Scalar)
  | startsWith (col : String) (pre : List Char)
  | isNull (col : String) (negated : Bool)
  | bloomEq (col : String) (v : Scalar)
  | bloomIn (col : String) (vs : List Scalar)
  | other (n : Nat)
  | and (cs : List Expr)
  | or (cs : List Expr)
  | not (e : Expr)

/-! ## The evaluator -/

/-- `TriState` (package.rs:241-245). -/
inductive Tri where
  | t | f | u
deriving DecidableEq, Repr

/-- `TriState::from_bool` (package.rs:248-250). -/
def Tri.ofBool (b : Bool) : Tri := if b then .t else .f

/-- `TriState::and` (package.rs:252-258). -/
def Tri.and : Tri → Tri → Tri
  | .f, _ => .f
  | _, .f => .f
  | .t, .t => .t
  | _, _ => .u

/-- `TriState::or` (package.rs:260-266). -/
def Tri.or : Tri → Tri → Tri
  | .t, _ => .t
  | _, .t => .t
  | .f, .f => .f
  | _, _ => .u

/-- `TriState::not` (package.rs:268-274). -/
def Tri.not : Tri → Tri
  | .t => .f
  | .f => .t
  | .u => .u

/-- `ResidualError` (package.rs:226-238). -/
inductive EvalErr where
  | missing (col : String) | unsupportedColumn | unsupportedPredicate | unexpected
deriving DecidableEq, Repr

/-- `SchemaRef`: column names with their types. -/
abbrev Schema := List (String × DType)

/-- `DynRow`: a cell per column; `none` is a null. `DynCell::Null` is merged with the missing cell
(both are null to every use below). -/
abbrev Row := List (Option Cell)

/-- The `column_map` of `ResidualEvaluator::new` (package.rs:286-294): the index of a column; of two
columns of one name the later one. -/
def columnIdx (schema : Schema) (col : String) : Option Nat :=
  match schema with
  | [] => none
  | f :: rest =>
    match columnIdx rest col with
    | some i => some (i + 1)
    | none => if f.1 = col then some 0 else none

/-- `convert_owned_cell` (package.rs:656-675). -/
def convertCell : Cell → Scalar
  | .str s => .str .plain s
  | .bin b => .bin .plain b
  | .bool b => .bool b
  | .int t v => .int t v
  | .f32 v => .f32 v
  | .f64 v => .f64 v

/-- `resolve_column` (package.rs:459-477). -/
def resolve (schema : Schema) (col : String) (row : Row) : Except EvalErr (Option Scalar) :=
  match columnIdx schema col with
  | none => .error (.missing col)
  | some i =>
    match row[i]? with
    | none => .error (.missing col)
    | some none => .ok none
    | some (some c) => .ok (some (convertCell c))

/-- `scalar_to_i128` (package.rs:625-637). -/
def toI128 : Scalar → Option Int
  | .int _ v => some v
  | _ => none

/-- `scalar_to_f64` (package.rs:639-654), as far as it is reached: `numeric_compare` calls it on
floats only. -/
def toF64 : Scalar → Option F64
  | .f32 v => some v
  | .f64 v => some v
  | _ => none

/-- `is_float_scalar` (package.rs:618-623); a typed null of a float type counts as float. -/
def isFloat : Scalar → Bool
  | .f32 _ => true
  | .f64 _ => true
  | .typedNull .f32 => true
  | .typedNull .f64 => true
  | _ => false

/-- `numeric_compare` (package.rs:487-512). The outer option of `compareI128F64` is a panic, which
`Props/C11_NumCmp.lean` excludes for all integers of the range of `i128`. -/
def numericCompare (a b : Scalar) : Option Ordering :=
  match isFloat a, isFloat b with
  | true, true =>
    match toF64 a, toF64 b with
    | some x, some y => fcmp x y
    | _, _ => none
  | false, false =>
    match toI128 a, toI128 b with
    | some x, some y => some (cmpInt x y)
    | _, _ => none
  | true, false =>
    match toF64 a, toI128 b with
    | some x, some y => ((compareI128F64 y x).getD none).map rev
    | _, _ => none
  | false, true =>
    match toI128 a, toF64 b with
    | some x, some y => (compareI128F64 x y).getD none
    | _, _ => none

/-- `compare_scalar_values` (package.rs:480-485). `pc` is `ScalarValue::partial_cmp` on values of one
type, which belongs to an external crate. -/
def compareScalars (pc : Scalar → Scalar → Option Ordering) (a b : Scalar) : Option Ordering :=
  if a.dtype = b.dtype then pc a b else numericCompare a b

/-- The table of `evaluate_cmp` (package.rs:363-370). -/
def CmpOp.holds : CmpOp → Ordering → Bool
  | .eq, o => decide (o = .eq)
  | .ne, o => decide (o ≠ .eq)
  | .lt, o => decide (o = .lt)
  | .le, o => decide (o ≠ .gt)
  | .gt, o => decide (o = .gt)
  | .ge, o => decide (o ≠ .lt)

/-- `evaluate_cmp` (package.rs:349-372). -/
def evalCmp (pc : Scalar → Scalar → Option Ordering) (schema : Schema) (col : String) (op : CmpOp)
    (v : Scalar) (row : Row) : Except EvalErr Tri :=
  match resolve schema col row with
  | .error e => .error e
  | .ok none => .ok .u
  | .ok (some lhs) =>
    if lhs.isNull || v.isNull then .ok .u
    else
      match compareScalars pc lhs v with
      | none => .ok .u
      | some o => .ok (.ofBool (op.holds o))

/-- `evaluate_between` (package.rs:374-387). -/
def evalBetween (pc : Scalar → Scalar → Option Ordering) (schema : Schema) (col : String)
    (lo hi : Scalar) (inclusive : Bool) (row : Row) : Except EvalErr Tri :=
  match evalCmp pc schema col (if inclusive then .ge else .gt) lo row with
  | .error e => .error e
  | .ok a =>
    match evalCmp pc schema col (if inclusive then .le else .lt) hi row with
    | .error e => .error e
    | .ok b => .ok (a.and b)

/-- The loop of `evaluate_in_list` (package.rs:401-419). -/
def inListLoop (pc : Scalar → Scalar → Option Ordering) (lhs : Scalar) : List Scalar → Bool → Tri
  | [], sawNull => if sawNull then .u else .f
  | v :: vs, sawNull =>
    if v.isNull then inListLoop pc lhs vs true
    else
      match compareScalars pc lhs v with
      | some .eq => .t
      | some _ => inListLoop pc lhs vs sawNull
      | none => inListLoop pc lhs vs true

/-- `evaluate_in_list` (package.rs:389-420). -/
def evalInList (pc : Scalar → Scalar → Option Ordering) (schema : Schema) (col : String)
    (vs : List Scalar) (row : Row) : Except EvalErr Tri :=
  match resolve schema col row with
  | .error e => .error e
  | .ok none => .ok .u
  | .ok (some lhs) => if lhs.isNull then .ok .u else .ok (inListLoop pc lhs vs false)

/-- `evaluate_starts_with` (package.rs:422-442). -/
def evalStartsWith (schema : Schema) (col : String) (pre : List Char) (row : Row) :
    Except EvalErr Tri :=
  match resolve schema col row with
  | .error e => .error e
  | .ok none => .ok .u
  | .ok (some lhs) =>
    if lhs.isNull then .ok .u
    else
      match lhs with
      | .str _ s => .ok (.ofBool (pre.isPrefixOf s))
      | _ => .error .unsupportedColumn

/-- `evaluate_is_null` (package.rs:444-457). -/
def evalIsNull (schema : Schema) (col : String) (negated : Bool) (row : Row) : Except EvalErr Tri :=
  match resolve schema col row with
  | .error e => .error e
  | .ok v =>
    let isNull := match v with
      | none => true
      | some s => s.isNull
    .ok (.ofBool (if negated then !isNull else isNull))

mutual

/-- `evaluate_expr` (package.rs:301-347). -/
def evalExpr (pc : Scalar → Scalar → Option Ordering) (schema : Schema) (row : Row) :
    Expr → Except EvalErr Tri
  | .tt => .ok .t
  | .ff => .ok .f
  | .cmp col op v => evalCmp pc schema col op v row
  | .between col lo hi incl => evalBetween pc schema col lo hi incl row
  | .inList col vs => evalInList pc schema col vs row
  | .bloomEq _ _ => .error .unsupportedPredicate
  | .bloomIn _ _ => .error .unsupportedPredicate
  | .startsWith col pre => evalStartsWith schema col pre row
  | .isNull col neg => evalIsNull schema col neg row
  | .and cs => evalAnd pc schema row cs .t
  | .or cs => evalOr pc schema row cs .f
  | .not e =>
    match evalExpr pc schema row e with
    | .error err => .error err
    | .ok x => .ok x.not
  | .other _ => .error .unexpected

/-- The loop for `And` (package.rs:319-330). -/
def evalAnd (pc : Scalar → Scalar → Option Ordering) (schema : Schema) (row : Row) :
    List Expr → Tri → Except EvalErr Tri
  | [], acc => .ok acc
  | c :: cs, acc =>
    match evalExpr pc schema row c with
    | .error err => .error err
    | .ok x => if acc.and x = .f then .ok .f else evalAnd pc schema row cs (acc.and x)

/-- The loop for `Or` (package.rs:331-342). -/
def evalOr (pc : Scalar → Scalar → Option Ordering) (schema : Schema) (row : Row) :
    List Expr → Tri → Except EvalErr Tri
  | [], acc => .ok acc
  | c :: cs, acc =>
    match evalExpr pc schema row c with
    | .error err => .error err
    | .ok x => if acc.or x = .t then .ok .t else evalOr pc schema row cs (acc.or x)

end

/-- `matches_owned` (package.rs:296-299). -/
def matchesOwned (pc : Scalar → Scalar → Option Ordering) (schema : Schema) (p : Expr) (row : Row) :
    Except EvalErr Bool :=
  match evalExpr pc schema row p with
  | .error e => .error e
  | .ok x => .ok (decide (x = .t))

/-! ## Splitting for the Parquet row filter -/

/-- `PredicateSplit` (sstable.rs:1307-1311). -/
structure Split where
  pushdown : Option Expr
  residual : Option Expr

/-- `column_type` (sstable.rs:1545-1551): the first column of that name. -/
def columnType (schema : Schema) (col : String) : Option DType :=
  (schema.find? (fun f => f.1 == col)).map (·.2)

/-- `scalar_matches_type` (sstable.rs:1553-1558). -/
def scalarMatchesType (v : Scalar) (t : DType) : Bool :=
  match v with
  | .null => false
  | v => decide (v.dtype = t)

/-- `scalar_matches_column` (sstable.rs:1560-1565). -/
def scalarMatchesColumn (schema : Schema) (col : String) (v : Scalar) : Bool :=
  match columnType schema col with
  | none => false
  | some t => scalarMatchesType v t

/-- `scalars_match_column` (sstable.rs:1567-1574). -/
def scalarsMatchColumn (schema : Schema) (col : String) (vs : List Scalar) : Bool :=
  match columnType schema col with
  | none => false
  | some t => vs.all (fun v => scalarMatchesType v t)

/-- `is_string_type` (sstable.rs:1582-1587), `is_string_key_type` (db/scan.rs:1345-1350),
`is_string_key` (query/scan.rs:608-613). -/
def isStringType : DType → Bool
  | .str _ => true
  | _ => false

/-- `is_string_column` (sstable.rs:1576-1580). -/
def isStringColumn (schema : Schema) (col : String) : Bool :=
  match columnType schema col with
  | none => false
  | some t => isStringType t

/-- `combine_and` (sstable.rs:1475-1481), `combine_and_parts` (db/scan.rs:1352-1358). -/
def combineAnd : List Expr → Option Expr
  | [] => none
  | [e] => some e
  | es => some (.and es)

/-- `combine_or` (sstable.rs:1483-1489). -/
def combineOr : List Expr → Option Expr
  | [] => none
  | [e] => some e
  | es => some (.or es)

/-- A leaf goes to one side whole (sstable.rs:1326-1404). -/
def Split.leaf (push : Bool) (e : Expr) : Split :=
  if push then ⟨some e, none⟩ else ⟨none, some e⟩

/-- Outcome of the loop over the children of an `Or` (sstable.rs:1431-1450). -/
inductive OrRes where
  | residual | noFilter | parts (ps : List Expr)

mutual

/-- `split_predicate_for_row_filter` (sstable.rs:1313-1473). -/
def splitRowFilter (schema : Schema) : Expr → Split
  | .tt => ⟨none, none⟩
  | .ff => ⟨some .ff, none⟩
  | .cmp col op v => .leaf (scalarMatchesColumn schema col v) (.cmp col op v)
  | .between col lo hi incl =>
    .leaf (scalarMatchesColumn schema col lo && scalarMatchesColumn schema col hi)
      (.between col lo hi incl)
  | .inList col vs => .leaf (scalarsMatchColumn schema col vs) (.inList col vs)
  | .startsWith col pre => .leaf (isStringColumn schema col) (.startsWith col pre)
  | .isNull col neg => .leaf (columnType schema col).isSome (.isNull col neg)
  | .bloomEq col v => .leaf false (.bloomEq col v)
  | .bloomIn col vs => .leaf false (.bloomIn col vs)
  | .and cs => ⟨combineAnd (splitAnd schema cs).1, combineAnd (splitAnd schema cs).2⟩
  | .or [] => ⟨some .ff, none⟩
  | .or (c :: cs) =>
    match splitOr schema (c :: cs) with
    | .residual => ⟨none, some (.or (c :: cs))⟩
    | .noFilter => ⟨none, none⟩
    | .parts ps => ⟨combineOr ps, none⟩
  | .not e =>
    let s := splitRowFilter schema e
    if s.residual.isSome then ⟨none, some (.not e)⟩
    else
      match s.pushdown with
      | none => ⟨some .ff, none⟩
      | some p => ⟨some (.not p), none⟩
  | .other n => .leaf false (.other n)

/-- The loop for `And` (sstable.rs:1407-1417): pushed parts and residual parts. -/
def splitAnd (schema : Schema) : List Expr → List Expr × List Expr
  | [] => ([], [])
  | c :: cs =>
    let s := splitRowFilter schema c
    let r := splitAnd schema cs
    (s.pushdown.toList ++ r.1, s.residual.toList ++ r.2)

/-- The loop for `Or` (sstable.rs:1431-1450). -/
def splitOr (schema : Schema) : List Expr → OrRes
  | [] => .parts []
  | c :: cs =>
    let s := splitRowFilter schema c
    if s.residual.isSome then .residual
    else
      match s.pushdown with
      | none => .noFilter
      | some p =>
        match splitOr schema cs with
        | .residual => .residual
        | .noFilter => .noFilter
        | .parts ps => .parts (p :: ps)

end

/-! ## Splitting for the in-memory sources -/

mutual

/-- `split_predicate_for_non_sst_inner` (db/scan.rs:1263-1343). -/
def splitNonSstInner (keyCol : String) (keyType : DType) : Expr → Split
  | .tt => ⟨none, none⟩
  | .ff => ⟨some .ff, none⟩
  | .cmp col op v => .leaf (decide (col = keyCol) && decide (op ≠ .ne)) (.cmp col op v)
  | .between col lo hi incl => .leaf (decide (col = keyCol)) (.between col lo hi incl)
  | .startsWith col pre =>
    .leaf (decide (col = keyCol) && !pre.isEmpty && isStringType keyType && (Str.nextPrefix pre).isSome)
      (.startsWith col pre)
  | .and cs =>
    ⟨combineAnd (splitNonSstAnd keyCol keyType cs).1, combineAnd (splitNonSstAnd keyCol keyType cs).2⟩
  | e => .leaf false e

/-- The loop for `And` (db/scan.rs:1321-1331). -/
def splitNonSstAnd (keyCol : String) (keyType : DType) : List Expr → List Expr × List Expr
  | [] => ([], [])
  | c :: cs =>
    let s := splitNonSstInner keyCol keyType c
    let r := splitNonSstAnd keyCol keyType cs
    (s.pushdown.toList ++ r.1, s.residual.toList ++ r.2)

end

/-- `split_predicate_for_non_sst` (db/scan.rs:1235-1261). -/
def splitNonSst (keySchema : Schema) (p : Expr) : Split :=
  match p, keySchema with
  | .tt, _ => ⟨none, none⟩
  | .ff, _ => ⟨some .ff, none⟩
  | p, [(col, ty)] => splitNonSstInner col ty p
  | p, _ => ⟨none, some p⟩

/-- `combine_predicates_with_and` (db/scan.rs:1360-1366); `Expr::and` (aisle) is taken to build the
`And` of the list. -/
def combineWithAnd : Option Expr → Option Expr → Option Expr
  | none, none => none
  | some a, none => some a
  | none, some b => some b
  | some a, some b => some (.and [a, b])

mutual

/-- `find_bloom_filter_column` (db/scan.rs:1216-1227). -/
def findBloom : Expr → Option String
  | .bloomEq col _ => some col
  | .bloomIn col _ => some col
  | .and cs => findBloomList cs
  | .or cs => findBloomList cs
  | .not e => findBloom e
  | _ => none

/-- `find_map` over the children (db/scan.rs:1221-1223). -/
def findBloomList : List Expr → Option String
  | [] => none
  | c :: cs =>
    match findBloom c with
    | some x => some x
    | none => findBloomList cs

end

end Tonbo.Model.Pred
