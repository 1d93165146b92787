import Verif.Model.Str
import Verif.Model.NumCmp

/-!
# Key cells and key comparison  (src/key/row.rs, src/key/owned.rs)

A key is a list of cells, one per key column; `KeyRow::from_dyn` rejects null components
(src/key/row.rs:38-45). Owned keys compare through the same functions (src/key/owned.rs:105-134).
Struct, list, map and union cells are not modelled: `ensure_supported_type`
(src/extractor/extractors.rs:140-160) rejects all of them but unions as key columns. For unions see
`Model/KeySer.lean`.
-/

namespace Tonbo.Model.Keys
open Tonbo.Model.Num

/-- The integer types. -/
inductive IntTy where
  | i8 | i16 | i32 | i64 | u8 | u16 | u32 | u64
deriving DecidableEq, Repr

/-- `DynCell` / `DynCellRaw` (typed-arrow-dyn). An `f32` is represented by the `f64` of the same
value. -/
inductive Cell where
  | str (s : List Char)
  | bin (b : List Nat)
  | bool (b : Bool)
  | int (t : IntTy) (v : Int)
  | f32 (v : F64)
  | f64 (v : F64)
deriving DecidableEq, Repr

/-- Monotone integer code of a double that is not NaN: the magnitude bits with the sign. Both zeros
have code 0. -/
def ordKey (f : F64) : Int :=
  if f.signNeg then -((f.bits.toNat % 2 ^ 63 : Nat) : Int) else ((f.bits.toNat % 2 ^ 63 : Nat) : Int)

/-- `f64::partial_cmp` (std). -/
def fcmp (a b : F64) : Option Ordering :=
  if a.isNan || b.isNan then none else some (cmpInt (ordKey a) (ordKey b))

/-- `floats_cmp_f32` / `floats_cmp_f64` (src/key/row.rs:325-331). -/
def floatsCmp (a b : F64) : Ordering := (fcmp a b).getD .eq

/-- `floats_equal_f32` / `floats_equal_f64` (src/key/row.rs:317-323). -/
def floatsEqual (a b : F64) : Bool := (a.isNan && b.isNan) || decide (fcmp a b = some .eq)

/-- `Ord::cmp` on byte slices (std), used by `bytes_cmp` (src/key/row.rs:355-364). -/
def bytesCmp : List Nat → List Nat → Ordering
  | [], [] => .eq
  | [], _ :: _ => .lt
  | _ :: _, [] => .gt
  | a :: l, b :: m => if a < b then .lt else if b < a then .gt else bytesCmp l m

/-- `Ord::cmp` on `bool` (std). -/
def boolCmp : Bool → Bool → Ordering
  | false, true => .lt
  | true, false => .gt
  | _, _ => .eq

/-- `cell_tag` (src/key/row.rs:372-389). -/
def tag : Cell → Nat
  | .str _ => 0
  | .bin _ => 1
  | .int .u64 _ => 2
  | .int .u32 _ => 3
  | .int .i64 _ => 4
  | .int .i32 _ => 5
  | .f64 _ => 6
  | .f32 _ => 7
  | .bool _ => 8
  | .int .i8 _ => 5
  | .int .i16 _ => 5
  | .int .u8 _ => 3
  | .int .u16 _ => 3

/-- The integer types `dyn_cells_cmp` and `dyn_cells_equal` compare by value. -/
def IntTy.keyable : IntTy → Bool
  | .i32 | .i64 | .u32 | .u64 => true
  | _ => false

/-- `dyn_cells_cmp` (src/key/row.rs:237-272). -/
def cellCmp : Cell → Cell → Ordering
  | .bool a, .bool b => boolCmp a b
  | .int t a, .int u b =>
    if t = u ∧ t.keyable = true then cmpInt a b else cmpNat (tag (.int t a)) (tag (.int u b))
  | .f32 a, .f32 b => floatsCmp a b
  | .f64 a, .f64 b => floatsCmp a b
  | .str a, .str b => bytesCmp (Str.bytes a) (Str.bytes b)
  | .bin a, .bin b => bytesCmp a b
  | a, b => cmpNat (tag a) (tag b)

/-- `dyn_cells_equal` (src/key/row.rs:198-235). -/
def cellEq : Cell → Cell → Bool
  | .bool a, .bool b => a == b
  | .int t a, .int u b => decide (t = u) && t.keyable && decide (a = b)
  | .f32 a, .f32 b => floatsEqual a b
  | .f64 a, .f64 b => floatsEqual a b
  | .str a, .str b => decide (Str.bytes a = Str.bytes b)
  | .bin a, .bin b => decide (a = b)
  | _, _ => false

/-- What `dyn_cells_hash` feeds to the hasher (src/key/row.rs:274-297), as a list of numbers. -/
def hashInput : Cell → List Int
  | .bool b => [8, if b then 1 else 0]
  | .int t v => if t.keyable then [tag (.int t v), v] else [tag (.int t v)]
  | .f32 v => if v.isNan then [7, 255] else [7, v.bits.toNat]
  | .f64 v => if v.isNan then [6, 255] else [6, v.bits.toNat]
  | .str s => 0 :: ((Str.bytes s).length :: (Str.bytes s).map (↑))
  | .bin b => 1 :: (b.length :: b.map (↑))

/-- `dyn_rows_cmp` (src/key/row.rs:167-182) on keys, which have no null components. -/
def rowCmp : List Cell → List Cell → Ordering
  | [], [] => .eq
  | [], _ :: _ => .lt
  | _ :: _, [] => .gt
  | a :: l, b :: m =>
    match cellCmp a b with
    | .eq => rowCmp l m
    | o => o

/-- `dyn_rows_equal` (src/key/row.rs:154-165) on keys. -/
def rowEq : List Cell → List Cell → Bool
  | [], [] => true
  | a :: l, b :: m => cellEq a b && rowEq l m
  | _, _ => false

/-- `dyn_rows_hash` (src/key/row.rs:184-188). -/
def rowHash (k : List Cell) : List Int := k.flatMap hashInput

end Tonbo.Model.Keys
