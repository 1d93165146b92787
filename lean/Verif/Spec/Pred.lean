import Verif.Spec.Num
import Verif.Spec.Key
import Verif.Model.Predicate

/-!
# What a predicate means

Three-valued logic over the values of columns. Nothing here refers to how predicates are evaluated,
split or turned into key ranges.
-/

namespace Tonbo.Spec
open Tonbo.Model.Keys Tonbo.Model.Pred

/-- Column values and literals, without their storage type. -/
inductive Val where
  | null
  | bool (b : Bool)
  | num (x : Real64)
  | text (s : List Char)
  | bytes (b : List Nat)

/-- The value in a cell. -/
def cellVal : Cell → Val
  | .str s => .text s
  | .bin b => .bytes b
  | .bool b => .bool b
  | .int _ v => .num (.fin v)
  | .f32 v => .num (valueOf v)
  | .f64 v => .num (valueOf v)

/-- The value of a literal. -/
def scalarVal : Scalar → Val
  | .null => .null
  | .typedNull _ => .null
  | .bool b => .bool b
  | .int _ v => .num (.fin v)
  | .f32 v => .num (valueOf v)
  | .f64 v => .num (valueOf v)
  | .str _ s => .text s
  | .bin _ b => .bytes b

/-- Comparing two numbers; a NaN compares with nothing. -/
def cmpReal : Real64 → Real64 → Option Ordering
  | .nan, _ => none
  | _, .nan => none
  | .inf a, .inf b => some (if a = b then .eq else if a then .lt else .gt)
  | .inf a, .fin _ => some (if a then .lt else .gt)
  | .fin _, .inf b => some (if b then .gt else .lt)
  | .fin p, .fin q => some (if p < q then .lt else if p = q then .eq else .gt)

/-- Comparing lists lexicographically. -/
def cmpList (l m : List Nat) : Ordering := if l < m then .lt else if l = m then .eq else .gt

/-- Comparing two values: numbers by value whatever their type, text by code points, binary by
bytes, `false` before `true`; anything else does not compare. -/
def cmpVal : Val → Val → Option Ordering
  | .bool a, .bool b => some (cmpList [if a then 1 else 0] [if b then 1 else 0])
  | .num a, .num b => cmpReal a b
  | .text a, .text b => some (cmpList (a.map Char.toNat) (b.map Char.toNat))
  | .bytes a, .bytes b => some (cmpList a b)
  | _, _ => none

/-- Whether an ordering satisfies a comparison operator. -/
def opHolds : CmpOp → Ordering → Prop
  | .eq, o => o = .eq
  | .ne, o => o ≠ .eq
  | .lt, o => o = .lt
  | .le, o => o = .lt ∨ o = .eq
  | .gt, o => o = .gt
  | .ge, o => o = .gt ∨ o = .eq

instance (op : CmpOp) (o : Ordering) : Decidable (opHolds op o) := by
  cases op <;> unfold opHolds <;> infer_instance

/-- `a op b`: unknown if the values do not compare. -/
def mCmp (op : CmpOp) (a b : Val) : Tri :=
  match cmpVal a b with
  | none => .u
  | some o => if opHolds op o then .t else .f

/-- Conjunction: false if some conjunct is false, true if all are true, else unknown. -/
def mAnd (xs : List Tri) : Tri :=
  if .f ∈ xs then .f else if ∀ x ∈ xs, x = .t then .t else .u

/-- Disjunction. -/
def mOr (xs : List Tri) : Tri :=
  if .t ∈ xs then .t else if ∀ x ∈ xs, x = .f then .f else .u

/-- Negation. -/
def mNot : Tri → Tri
  | .t => .f
  | .f => .t
  | .u => .u

/-- The meaning of a predicate without connectives, given the column values. -/
def leafMeaning (env : String → Val) : Expr → Tri
  | .cmp col op v => mCmp op (env col) (scalarVal v)
  | .between col lo hi incl =>
    mAnd [mCmp (if incl then .ge else .gt) (env col) (scalarVal lo),
      mCmp (if incl then .le else .lt) (env col) (scalarVal hi)]
  | .inList col vs =>
    match env col with
    | .null => .u
    | a => mOr (vs.map (fun v => mCmp .eq a (scalarVal v)))
  | .startsWith col pre =>
    match env col with
    | .text s => if pre <+: s then .t else .f
    | _ => .u
  | .isNull col neg =>
    match env col with
    | .null => if neg then .f else .t
    | _ => if neg then .t else .f
  | .bloomEq col v => mCmp .eq (env col) (scalarVal v)
  | .bloomIn col vs =>
    match env col with
    | .null => .u
    | a => mOr (vs.map (fun v => mCmp .eq a (scalarVal v)))
  | _ => .u

mutual

/-- The value of a predicate when its leaves have the values `leaf`. -/
def kleene (leaf : Expr → Tri) : Expr → Tri
  | .tt => .t
  | .ff => .f
  | .and cs => mAnd (kleeneList leaf cs)
  | .or cs => mOr (kleeneList leaf cs)
  | .not e => mNot (kleene leaf e)
  | e => leaf e

/-- The values of several predicates. -/
def kleeneList (leaf : Expr → Tri) : List Expr → List Tri
  | [] => []
  | c :: cs => kleene leaf c :: kleeneList leaf cs

end

/-- The meaning of a predicate on a row whose columns have the values `env`. -/
def meaning (env : String → Val) (p : Expr) : Tri := kleene (leafMeaning env) p

mutual

/-- The leaves of a predicate: everything that is not a constant or a connective. -/
def leaves : Expr → List Expr
  | .tt => []
  | .ff => []
  | .and cs => leavesList cs
  | .or cs => leavesList cs
  | .not e => leaves e
  | e => [e]

/-- The leaves of several predicates. -/
def leavesList : List Expr → List Expr
  | [] => []
  | c :: cs => leaves c ++ leavesList cs

end

/-- A test of a Bloom filter, of the given column. -/
def BloomLeaf (col : String) : Expr → Prop
  | .bloomEq c _ => c = col
  | .bloomIn c _ => c = col
  | _ => False

/-- The values of the columns of a row. -/
def envOf (schema : Schema) (row : Row) (col : String) : Val :=
  match columnIdx schema col with
  | none => .null
  | some i =>
    match row[i]? with
    | some (some c) => cellVal c
    | _ => .null

end Tonbo.Spec
