import Verif.Model.Cell
import Verif.Model.KeyDecl

/-!
# Keys in the manifest, keys of every accepted type
(src/key/owned.rs:195-290, src/key/row.rs:154-297, 372-389)

Key cells of `Model/Cell.lean` together with the cells of union columns, the only further type that is
accepted for a key column (src/extractor/extractors.rs:140-160), and the cells of lists and maps, which only
`cell_data_type` looks at. Struct cells are left out: no key column yields them.
-/

namespace Tonbo.Model.KeySer
open Tonbo.Model.Keys Tonbo.Model.Num

/-- `DynCell`, `DynCellRaw`. -/
inductive XCell where
  | plain (c : Cell)
  | union (tag : Nat) (v : Cell)
  | list | fixedList | map
deriving DecidableEq, Repr

/-- `cell_tag` (row.rs:372-389). -/
def xtag : XCell → Nat
  | .plain c => tag c
  | _ => 255

/-- `dyn_cells_cmp` (row.rs:237-272). -/
def xcmp : XCell → XCell → Ordering
  | .plain a, .plain b => cellCmp a b
  | a, b => cmpNat (xtag a) (xtag b)

/-- `dyn_cells_equal` (row.rs:198-235). -/
def xeq : XCell → XCell → Bool
  | .plain a, .plain b => cellEq a b
  | _, _ => false

/-- `dyn_rows_cmp` (row.rs:167-182) on keys, which have no null components. -/
def xrowCmp : List XCell → List XCell → Ordering
  | [], [] => .eq
  | [], _ :: _ => .lt
  | _ :: _, [] => .gt
  | a :: l, b :: m =>
    match xcmp a b with
    | .eq => xrowCmp l m
    | o => o

/-- `dyn_rows_equal` (row.rs:154-165) on keys. -/
def xrowEq : List XCell → List XCell → Bool
  | [], [] => true
  | a :: l, b :: m => xeq a b && xrowEq l m
  | _, _ => false

/-- `cell_data_type` (owned.rs:244-268): the name of the type, or a refusal. -/
def cellDataType : XCell → Option String
  | .plain (.bool _) => some "Boolean"
  | .plain (.int .i8 _) => some "Int8"
  | .plain (.int .i16 _) => some "Int16"
  | .plain (.int .i32 _) => some "Int32"
  | .plain (.int .i64 _) => some "Int64"
  | .plain (.int .u8 _) => some "UInt8"
  | .plain (.int .u16 _) => some "UInt16"
  | .plain (.int .u32 _) => some "UInt32"
  | .plain (.int .u64 _) => some "UInt64"
  | .plain (.f32 _) => some "Float32"
  | .plain (.f64 _) => some "Float64"
  | .plain (.str _) => some "Utf8"
  | .plain (.bin _) => some "Binary"
  | .union _ _ => none
  | .list => none
  | .fixedList => none
  | .map => none

/-- A data format of serde: how a cell is written and read. The sequence around the cells is kept. -/
structure Format (J : Type) where
  enc : XCell → J
  dec : J → Option XCell

/-- `KeyOwned::serialize` (owned.rs:195-210); `none` as a cell is a null component. -/
def serialize {J : Type} (f : Format J) : List (Option XCell) → Option (List J)
  | [] => some []
  | none :: _ => none
  | some c :: cs =>
    match cellDataType c with
    | none => none
    | some _ => (serialize f cs).map (f.enc c :: ·)

/-- `DynCellSeqVisitor::visit_seq` (owned.rs:279-288). -/
def visitSeq {J : Type} (f : Format J) : List J → Option (List XCell)
  | [] => some []
  | j :: js =>
    match f.dec j with
    | none => none
    | some c => (visitSeq f js).map (c :: ·)

/-- The fields of a key that was read: `k0`, `k1`, ... with their types (owned.rs:219-225). -/
def fieldsFrom : Nat → List XCell → Option (List (String × String))
  | _, [] => some []
  | i, c :: cs =>
    match cellDataType c with
    | none => none
    | some t => (fieldsFrom (i + 1) cs).map (("k" ++ toString i, t) :: ·)

/-- `KeyOwned::deserialize` (owned.rs:212-231): the fields and the cells. -/
def deserialize {J : Type} (f : Format J) (js : List J) : Option (List (String × String) × List (Option XCell)) :=
  match visitSeq f js with
  | none => none
  | some cells =>
    match fieldsFrom 0 cells with
    | none => none
    | some fields => some (fields, cells.map some)

/-- The cells a key column of a type yields (`DynCellRaw` of typed-arrow-dyn); `F64` in an `f32` cell stands
for a value of that type. -/
def cellFits : KeyDecl.DataType → XCell → Bool
  | .boolean, .plain (.bool _) => true
  | .int32, .plain (.int .i32 _) => true
  | .int64, .plain (.int .i64 _) => true
  | .uint32, .plain (.int .u32 _) => true
  | .uint64, .plain (.int .u64 _) => true
  | .float32, .plain (.f32 _) => true
  | .float64, .plain (.f64 _) => true
  | .utf8, .plain (.str _) => true
  | .largeUtf8, .plain (.str _) => true
  | .binary, .plain (.bin _) => true
  | .largeBinary, .plain (.bin _) => true
  | .fixedSizeBinary, .plain (.bin _) => true
  | .union, .union _ _ => true
  | _, _ => false

/-! ## JSON -/

/-- What `serde_json` keeps of a cell: the name of the variant and its value; a float that is not finite is
written as `null`, which cannot be read as a float. The text of numbers is taken to be exact. -/
inductive JCell where
  | val (c : XCell)
  | nullFloat (wide : Bool)
deriving DecidableEq, Repr

/-- The derived `Serialize` and `Deserialize` of `DynCell` with `serde_json`, which is not part of the
repository: this is an assumption about it. -/
def json : Format JCell where
  enc
    | .plain (.f64 v) => if v.isNan || v.isInf then .nullFloat true else .val (.plain (.f64 v))
    | .plain (.f32 v) => if v.isNan || v.isInf then .nullFloat false else .val (.plain (.f32 v))
    | c => .val c
  dec
    | .val c => some c
    | .nullFloat _ => none

end Tonbo.Model.KeySer
