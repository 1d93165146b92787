import Verif.Model.Predicate
import Verif.Model.Memtable

/-!
# Key bounds derived from a predicate  (src/query/scan.rs:78-257, 472-639; src/query/mod.rs:56-80)

Keys are lists of cells compared by `rowCmp`. Bounds are derived for one-column keys only.
-/

namespace Tonbo.Model.Bounds
open Tonbo.Model.Pred Tonbo.Model.Keys

/-- A key. -/
abbrev Key := List Cell

/-- `KeyBound` (query/scan.rs:78-82). -/
structure Bound where
  key : Key
  inclusive : Bool
deriving DecidableEq, Repr

/-- `KeyBounds` (query/scan.rs:94-99). -/
structure KeyBounds where
  lower : Option Bound
  upper : Option Bound
  empty : Bool
deriving DecidableEq, Repr

/-- `KeyBounds::empty` (query/scan.rs:102-108). -/
def KeyBounds.none' : KeyBounds := ⟨none, none, true⟩

/-- `KeyBounds::with_lower` (query/scan.rs:110-116). -/
def withLower (k : Key) (inclusive : Bool) : KeyBounds := ⟨some ⟨k, inclusive⟩, none, false⟩

/-- `KeyBounds::with_upper` (query/scan.rs:118-124). -/
def withUpper (k : Key) (inclusive : Bool) : KeyBounds := ⟨none, some ⟨k, inclusive⟩, false⟩

/-- `normalize_empty` (query/scan.rs:146-160). -/
def normalize (b : KeyBounds) : KeyBounds :=
  match b.lower, b.upper with
  | some lo, some hi =>
    match rowCmp lo.key hi.key with
    | .gt => { b with empty := true }
    | .eq => if lo.inclusive && hi.inclusive then b else { b with empty := true }
    | .lt => b
  | _, _ => b

/-- `KeyBounds::with_range` (query/scan.rs:126-140). -/
def withRange (lo : Bound) (hi : Bound) : KeyBounds := normalize ⟨some lo, some hi, false⟩

/-- The tighter of two lower bounds (query/scan.rs:166-178). -/
def maxLower : Option Bound → Option Bound → Option Bound
  | some a, some b =>
    match rowCmp a.key b.key with
    | .gt => some a
    | .lt => some b
    | .eq => some ⟨a.key, a.inclusive && b.inclusive⟩
  | some a, none => some a
  | none, some b => some b
  | none, none => none

/-- The tighter of two upper bounds (query/scan.rs:179-191). -/
def minUpper : Option Bound → Option Bound → Option Bound
  | some a, some b =>
    match rowCmp a.key b.key with
    | .gt => some b
    | .lt => some a
    | .eq => some ⟨a.key, a.inclusive && b.inclusive⟩
  | some a, none => some a
  | none, some b => some b
  | none, none => none

/-- `KeyBounds::intersect` (query/scan.rs:162-199). -/
def intersect (a b : KeyBounds) : KeyBounds :=
  if a.empty || b.empty then .none'
  else normalize ⟨maxLower a.lower b.lower, minUpper a.upper b.upper, false⟩

/-- The looser of two lower bounds (query/scan.rs:208-218). -/
def minLower : Option Bound → Option Bound → Option Bound
  | some a, some b =>
    match rowCmp a.key b.key with
    | .gt => some b
    | .lt => some a
    | .eq => some ⟨a.key, a.inclusive || b.inclusive⟩
  | _, _ => none

/-- The looser of two upper bounds (query/scan.rs:219-229). -/
def maxUpper : Option Bound → Option Bound → Option Bound
  | some a, some b =>
    match rowCmp a.key b.key with
    | .gt => some a
    | .lt => some b
    | .eq => some ⟨a.key, a.inclusive || b.inclusive⟩
  | _, _ => none

/-- `KeyBounds::union_envelope` (query/scan.rs:201-235). -/
def unionEnvelope (a b : KeyBounds) : KeyBounds :=
  if a.empty then b
  else if b.empty then a
  else ⟨minLower a.lower b.lower, maxUpper a.upper b.upper, false⟩

/-- `KeyBounds::overlaps` (query/scan.rs:237-256). -/
def overlaps (b : KeyBounds) (minKey maxKey : Key) : Bool :=
  if b.empty then false
  else
    (match b.lower with
     | none => true
     | some lo =>
       match rowCmp maxKey lo.key with
       | .lt => false
       | .eq => lo.inclusive
       | .gt => true) &&
    (match b.upper with
     | none => true
     | some hi =>
       match rowCmp minKey hi.key with
       | .gt => false
       | .eq => hi.inclusive
       | .lt => true)

/-- `KeyOwned::from_scalar` (query/mod.rs:56-80), `scalar_to_key` (query/scan.rs:490-492). -/
def scalarToKey : Scalar → Option Key
  | .bool b => some [.bool b]
  | .int .i8 v => some [.int .i64 v]
  | .int .i16 v => some [.int .i64 v]
  | .int .i32 v => some [.int .i64 v]
  | .int .i64 v => some [.int .i64 v]
  | .int .u8 v => some [.int .u64 v]
  | .int .u16 v => some [.int .u64 v]
  | .int .u32 v => some [.int .u64 v]
  | .int .u64 v => some [.int .u64 v]
  | .f32 v => some [.f64 v]
  | .f64 v => some [.f64 v]
  | .str _ s => some [.str s]
  | .bin _ b => some [.bin b]
  | .null => none
  | .typedNull _ => none

/-- `Iterator::min` (std): the first of the least elements. -/
def minKey : List Key → Option Key
  | [] => none
  | k :: ks => some (ks.foldl (fun m x => if rowCmp x m = .lt then x else m) k)

/-- `Iterator::max` (std): the last of the greatest elements. -/
def maxKey : List Key → Option Key
  | [] => none
  | k :: ks => some (ks.foldl (fun m x => if rowCmp x m = .lt then m else x) k)

/-- The `Cmp` arm (query/scan.rs:498-510). -/
def cmpBounds (op : CmpOp) (v : Scalar) : Option KeyBounds :=
  match scalarToKey v with
  | none => none
  | some k =>
    match op with
    | .eq => some (withRange ⟨k, true⟩ ⟨k, true⟩)
    | .ne => none
    | .lt => some (withUpper k false)
    | .le => some (withUpper k true)
    | .gt => some (withLower k false)
    | .ge => some (withLower k true)

/-- The `Between` arm (query/scan.rs:511-523). -/
def betweenBounds (lo hi : Scalar) (inclusive : Bool) : Option KeyBounds :=
  match scalarToKey lo, scalarToKey hi with
  | some l, some h => some (withRange ⟨l, inclusive⟩ ⟨h, inclusive⟩)
  | _, _ => none

/-- The `StartsWith` arm (query/scan.rs:524-535). -/
def prefixBounds (keyType : DType) (pre : List Char) : Option KeyBounds :=
  if !isStringType keyType || pre.isEmpty then none
  else
    match Str.nextPrefix pre with
    | some nx => some (withRange ⟨[.str pre], true⟩ ⟨[.str nx], false⟩)
    | none => some (withLower [.str pre] true)

/-- The `InList` arm (query/scan.rs:536-548). -/
def inListBounds (vs : List Scalar) : Option KeyBounds :=
  if vs.isEmpty then some .none'
  else
    match vs.mapM scalarToKey with
    | none => none
    | some ks =>
      match minKey ks, maxKey ks with
      | some a, some b => some (withRange ⟨a, true⟩ ⟨b, true⟩)
      | _, _ => none

mutual

/-- `bounds_from_expr` (query/scan.rs:494-574). -/
def boundsFrom (keyCol : String) (keyType : DType) : Expr → Option KeyBounds
  | .ff => some .none'
  | .cmp col op v => if col = keyCol then cmpBounds op v else none
  | .between col lo hi incl => if col = keyCol then betweenBounds lo hi incl else none
  | .startsWith col pre => if col = keyCol then prefixBounds keyType pre else none
  | .inList col vs => if col = keyCol then inListBounds vs else none
  | .and cs => boundsAnd keyCol keyType cs none
  | .or cs => boundsOr keyCol keyType cs none
  | _ => none

/-- The loop for `And` (query/scan.rs:549-560). -/
def boundsAnd (keyCol : String) (keyType : DType) : List Expr → Option KeyBounds → Option KeyBounds
  | [], acc => acc
  | c :: cs, acc =>
    match boundsFrom keyCol keyType c with
    | none => boundsAnd keyCol keyType cs acc
    | some b =>
      match acc with
      | none => boundsAnd keyCol keyType cs (some b)
      | some prev => boundsAnd keyCol keyType cs (some (intersect prev b))

/-- The loop for `Or` (query/scan.rs:561-571). -/
def boundsOr (keyCol : String) (keyType : DType) : List Expr → Option KeyBounds → Option KeyBounds
  | [], acc => acc
  | c :: cs, acc =>
    match boundsFrom keyCol keyType c with
    | none => none
    | some b =>
      match acc with
      | none => boundsOr keyCol keyType cs (some b)
      | some prev => boundsOr keyCol keyType cs (some (unionEnvelope prev b))

end

/-- `key_bounds_for_predicate` (query/scan.rs:478-488). -/
def keyBoundsFor (keySchema : Schema) (p : Expr) : Option KeyBounds :=
  match keySchema with
  | [(col, ty)] => boundsFrom col ty p
  | _ => none

/-- `Bound::Included` / `Excluded` / `Unbounded` from an optional bound (query/scan.rs:586-604). -/
def toBnd : Option Bound → Mem.Bnd Key
  | none => .unb
  | some b => if b.inclusive then .incl b.key else .excl b.key

/-- `key_range_for_predicate` (query/scan.rs:576-606). -/
def keyRangeFor (keySchema : Schema) (p : Expr) : Option (Mem.Bnd Key × Mem.Bnd Key) :=
  match keyBoundsFor keySchema p with
  | none => none
  | some b => if b.empty then none else some (toBnd b.lower, toBnd b.upper)

end Tonbo.Model.Bounds
