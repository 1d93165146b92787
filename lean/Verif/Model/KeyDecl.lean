import Verif.Model.WalStore
import Mathlib.Data.List.Sort

/-!
# Declaring the primary key of a table
(src/schema.rs, src/mode/dyn_config.rs, src/mode/mod.rs:34-109, src/extractor/extractors.rs:33-84, 140-160,
src/db/builder.rs:883-938)

A schema is reduced to what the declaration of a key looks at: names, types and the metadata entries
`tonbo.key` of a field and `tonbo.keys` of the schema. Strings are lists of Unicode scalar values.
-/

namespace Tonbo.Model.KeyDecl

/-- `arrow_schema::DataType`, as far as `ensure_supported_type` (extractors.rs:140-160) distinguishes. -/
inductive DataType where
  | boolean | int32 | int64 | uint32 | uint64 | float32 | float64
  | utf8 | largeUtf8 | binary | largeBinary | union | fixedSizeBinary
  | other
deriving Repr, DecidableEq

/-- A field: `mark` is its metadata entry `tonbo.key`. -/
structure Field where
  name : List Char
  type : DataType
  mark : Option (List Char)
deriving Repr, DecidableEq

/-- A schema: `keys` is its metadata entry `tonbo.keys`. -/
structure Schema where
  fields : List Field
  keys : Option (List Char)
deriving Repr, DecidableEq

/-- `KeyExtractError`. `panic` is the panic of `Schema::field` on a number that is too large. -/
inductive Err where
  | noSuchField (name : List Char)
  | columnOutOfBounds (col width : Nat)
  | unsupported (col : Nat)
  | noColumns
  | panic
deriving Repr, DecidableEq

/-- `DynModeConfig` (mode/mod.rs:25-32): the schema and the key columns of the extractor. -/
structure Config where
  schema : Schema
  cols : List Nat
deriving Repr, DecidableEq

/-! ## Key projections -/

/-- `ensure_supported_type` (extractors.rs:140-160). -/
def supported : DataType → Bool
  | .other => false
  | _ => true

/-- The loop of `DynKeyProjection::new` (extractors.rs:65-67). -/
def checkTypes (s : Schema) : List Nat → Except Err Unit
  | [] => .ok ()
  | col :: cols =>
    match s.fields[col]? with
    | none => .error .panic
    | some f => if supported f.type then checkTypes s cols else .error (.unsupported col)

/-- `projection_for_columns` and `DynKeyProjection::new` (extractors.rs:42-84), followed by
`DynModeConfig::new` (mode/mod.rs:36-47), whose check of the schema against itself succeeds. -/
def configFor (s : Schema) (cols : List Nat) : Except Err Config :=
  if cols = [] then .error .noColumns
  else
    match checkTypes s cols with
    | .error e => .error e
    | .ok () => .ok ⟨s, cols⟩

/-- `fields.iter().enumerate().find(|(_, f)| f.name() == name)`. -/
def findField (s : Schema) (name : List Char) : Option Nat := s.fields.findIdx? (fun f => decide (f.name = name))

/-- The loop that looks up the key columns (schema.rs:78-84, dyn_config.rs:100-106). -/
def lookupAll (s : Schema) : List (List Char) → Except Err (List Nat)
  | [] => .ok []
  | n :: ns =>
    match findField s n with
    | none => .error (.noSuchField n)
    | some i =>
      match lookupAll s ns with
      | .error e => .error e
      | .ok is => .ok (i :: is)

/-- `DynModeConfig::from_key_col` (dyn_config.rs:8-15). -/
def fromKeyCol (s : Schema) (col : Nat) : Except Err Config :=
  if s.fields.length ≤ col then .error (.columnOutOfBounds col s.fields.length) else configFor s [col]

/-- `DynModeConfig::from_key_name` (dyn_config.rs:18-30). -/
def fromKeyName (s : Schema) (name : List Char) : Except Err Config :=
  match findField s name with
  | none => .error (.noSuchField name)
  | some i => fromKeyCol s i

/-- `DbBuilder::from_schema_key_indices` (db/builder.rs:894-902). -/
def fromKeyIndices (s : Schema) (cols : List Nat) : Except Err Config := configFor s cols

/-! ## Strings -/

/-- `char::is_whitespace` (std; Unicode `White_Space`). -/
def isWs (c : Char) : Bool :=
  let n := c.toNat
  (9 ≤ n && n ≤ 13) || n == 0x20 || n == 0x85 || n == 0xA0 || n == 0x1680 || (0x2000 ≤ n && n ≤ 0x200A) ||
    n == 0x2028 || n == 0x2029 || n == 0x202F || n == 0x205F || n == 0x3000

/-- `str::trim_matches`. -/
def trimBy (p : Char → Bool) (s : List Char) : List Char := ((s.dropWhile p).reverse.dropWhile p).reverse

/-- `str::trim`. -/
def trim (s : List Char) : List Char := trimBy isWs s

/-- `trim_matches('"')`. -/
def trimQuotes (s : List Char) : List Char := trimBy (fun c => c == '"') s

/-- `str::parse::<u32>` (std): an optional plus sign, at least one digit, no overflow. -/
def parseU32 (s : List Char) : Option Nat :=
  if Wal.dropPlus s = [] then none
  else
    match Wal.digitsValue (Wal.dropPlus s) 0 with
    | none => none
    | some n => if n < 4294967296 then some n else none

/-- `is_truthy` (dyn_config.rs:36-38). -/
def isTruthy (s : List Char) : Bool :=
  s == "true".toList || s == "TRUE".toList || s == "True".toList || s == "yes".toList || s == "YES".toList ||
    s == "Yes".toList

/-- One element of the list in `parse_names_list` (dyn_config.rs:45). -/
def parsePart (p : List Char) : List Char := trimQuotes (trim p)

/-- The list between the brackets (dyn_config.rs:43-47). -/
def parseInner (inner : List Char) : List (List Char) :=
  ((inner.splitOn ',').map parsePart).filter (fun p => decide (p ≠ []))

/-- `parse_names_list` (dyn_config.rs:39-51). -/
def parseNamesList (s : List Char) : List (List Char) :=
  if (trim s).head? = some '[' ∧ (trim s).getLast? = some ']' then parseInner ((trim s).tail.dropLast)
  else [trimQuotes (trim s)]

/-- A hexadecimal digit as `serde_json` writes it. -/
def hexDigit (n : Nat) : Char := if n < 10 then Char.ofNat (48 + n) else Char.ofNat (87 + n)

/-- How `serde_json` writes a character of a string. -/
def jsonChar (c : Char) : List Char :=
  if c = '"' then ['\\', '"']
  else if c = '\\' then ['\\', '\\']
  else if c.toNat = 8 then ['\\', 'b']
  else if c.toNat = 12 then ['\\', 'f']
  else if c.toNat = 10 then ['\\', 'n']
  else if c.toNat = 13 then ['\\', 'r']
  else if c.toNat = 9 then ['\\', 't']
  else if c.toNat < 32 then ['\\', 'u', '0', '0', hexDigit (c.toNat / 16), hexDigit (c.toNat % 16)]
  else [c]

/-- How `serde_json` writes a string. -/
def jsonString (s : List Char) : List Char := '"' :: (s.flatMap jsonChar ++ ['"'])

/-- `json!(names).to_string()` for a list of strings (schema.rs:88). -/
def jsonNames (names : List (List Char)) : List Char :=
  '[' :: ([','].intercalate (names.map jsonString) ++ [']'])

/-! ## Reading the declaration -/

/-- What the loop over the fields (dyn_config.rs:57-67) takes from one field. -/
def markOf (f : Field) : Option (Option Nat) :=
  match f.mark with
  | none => none
  | some v =>
    match parseU32 (trim v) with
    | some n => some (some n)
    | none => if isTruthy (trim v) then some none else none

/-- The loop over the fields (dyn_config.rs:56-67), from field number `i` on. -/
def marksFrom : Nat → List Field → List (Option Nat × Nat)
  | _, [] => []
  | i, f :: fs =>
    match markOf f with
    | some m => (m, i) :: marksFrom (i + 1) fs
    | none => marksFrom (i + 1) fs

/-- `filter_map` (dyn_config.rs:78-81). -/
def numbered (marks : List (Option Nat × Nat)) : List (Nat × Nat) :=
  marks.filterMap (fun m => m.1.map (fun o => (o, m.2)))

/-- The branch of the field markers (dyn_config.rs:68-86). `sort_by_key` is a stable sort. -/
def fromMarks (s : Schema) (marks : List (Option Nat × Nat)) : Except Err Config :=
  match marks with
  | [m] => fromKeyCol s m.2
  | _ =>
    if marks.any (fun m => m.1.isNone) then
      .error (.noSuchField "multiple tonbo.key markers require numeric ordinals".toList)
    else configFor s (((numbered marks).insertionSort (fun a b => a.1 ≤ b.1)).map (·.2))

/-- The branch of the schema metadata (dyn_config.rs:88-109). -/
def fromNames (s : Schema) (names : List (List Char)) : Except Err Config :=
  match names with
  | [] => .error (.noSuchField "tonbo.keys[]".toList)
  | [n] => fromKeyName s n
  | ns =>
    match lookupAll s ns with
    | .error e => .error e
    | .ok is => configFor s is

/-- `DynModeConfig::from_metadata` (dyn_config.rs:33-114), which `DbBuilder::from_schema` calls. -/
def fromMetadata (s : Schema) : Except Err Config :=
  if marksFrom 0 s.fields ≠ [] then fromMarks s (marksFrom 0 s.fields)
  else
    match s.keys with
    | some v => fromNames s (parseNamesList v)
    | none => .error (.noSuchField "<tonbo.key|tonbo.keys>".toList)

/-! ## Writing the declaration -/

/-- `SchemaBuilder` (schema.rs:24-29). -/
structure Builder where
  schema : Schema
  parts : List (List Char)
  write : Bool
deriving Repr, DecidableEq

/-- `SchemaBuilder::from_schema` (schema.rs:33-39). -/
def Builder.new (s : Schema) : Builder := ⟨s, [], false⟩

/-- `primary_key` (schema.rs:42-45). -/
def Builder.primaryKey (b : Builder) (n : List Char) : Builder := { b with parts := [n] }

/-- `composite_key` (schema.rs:48-55). -/
def Builder.compositeKey (b : Builder) (ns : List (List Char)) : Builder := { b with parts := ns }

/-- `add_key_part` (schema.rs:58-61). -/
def Builder.addKeyPart (b : Builder) (n : List Char) : Builder := { b with parts := b.parts ++ [n] }

/-- `with_metadata` (schema.rs:64-67). -/
def Builder.withMetadata (b : Builder) : Builder := { b with write := true }

/-- The schema of the configuration (schema.rs:86-93). -/
def Builder.outSchema (b : Builder) : Schema :=
  if b.write then { b.schema with keys := some (jsonNames b.parts) } else b.schema

/-- `build` (schema.rs:70-98). -/
def Builder.build (b : Builder) : Except Err Config :=
  if b.parts = [] then .error (.noSuchField "schema builder requires at least one key field".toList)
  else
    match lookupAll b.schema b.parts with
    | .error e => .error e
    | .ok is => configFor b.outSchema is

/-- `primary_key_columns` of `table_definition` (mode/mod.rs:95-101). -/
def primaryKeyColumns (c : Config) : List (List Char) :=
  c.cols.filterMap (fun i => (c.schema.fields[i]?).map (·.name))

/-- `build_delete_schema` (mode/mod.rs:84-92): the names of the columns of delete batches. -/
def deleteColumns (c : Config) : List (List Char) := primaryKeyColumns c ++ ["_commit_ts".toList]

end Tonbo.Model.KeyDecl
