import Verif.Model.KeyDecl
import Verif.Model.Catalog
import Mathlib.Data.List.Lex
import Mathlib.Order.Basic

/-!
# The fingerprint of a schema  (src/mode/mod.rs:111-136)

The JSON value of a schema is what `serde_json::to_value` makes of it (arrow-schema, not modelled);
object members come in any order. Numbers of a schema are integers.
-/

namespace Tonbo.Model.Fingerprint
open Tonbo.Model.KeyDecl (jsonString)
open Tonbo.Model.Wal (digitChar)

/-- `serde_json::Value`, with integers as the only numbers. -/
inductive Json where
  | null
  | bool (b : Bool)
  | num (n : Int)
  | str (s : List Char)
  | arr (items : List Json)
  | obj (members : List (List Char × Json))
deriving Repr

/-- `entries.sort_by(|a, b| a.0.cmp(&b.0))` (mode/mod.rs:126). Strings are compared by their UTF-8 bytes,
which is the order of their scalar values. -/
def sortMembers (l : List (List Char × Json)) : List (List Char × Json) := l.insertionSort (fun a b => a.1 ≤ b.1)

mutual
/-- `canonicalize_json` (mode/mod.rs:122-136). -/
def canon : Json → Json
  | .obj l => .obj (sortMembers (canonMembers l))
  | .arr l => .arr (canonItems l)
  | .null => .null
  | .bool b => .bool b
  | .num n => .num n
  | .str s => .str s
/-- `items.into_iter().map(canonicalize_json)` (mode/mod.rs:133). -/
def canonItems : List Json → List Json
  | [] => []
  | j :: js => canon j :: canonItems js
/-- `map(|(key, value)| (key, canonicalize_json(value)))` (mode/mod.rs:127-130). Sorting by the key before
or after is the same. -/
def canonMembers : List (List Char × Json) → List (List Char × Json)
  | [] => []
  | (k, j) :: r => (k, canon j) :: canonMembers r
end

/-- The decimal digits of a number; `fuel` bounds their number. -/
def natTextF : Nat → Nat → List Char
  | 0, _ => []
  | fuel + 1, n => if n < 10 then [digitChar n] else natTextF fuel (n / 10) ++ [digitChar (n % 10)]

/-- A natural number as `itoa` writes it. -/
def natText (n : Nat) : List Char := natTextF (n + 1) n

/-- An integer as `itoa` writes it. -/
def intText : Int → List Char
  | .ofNat n => natText n
  | .negSucc n => '-' :: natText (n + 1)

mutual
/-- `serde_json::to_vec` (compact form), as text. -/
def print : Json → List Char
  | .null => "null".toList
  | .bool true => "true".toList
  | .bool false => "false".toList
  | .num n => intText n
  | .str s => jsonString s
  | .arr l => '[' :: (printItems l ++ [']'])
  | .obj l => '{' :: (printMembers l ++ ['}'])
/-- The items of an array, with commas between them. -/
def printItems : List Json → List Char
  | [] => []
  | j :: js => print j ++ printMoreItems js
/-- Further items, each after a comma. -/
def printMoreItems : List Json → List Char
  | [] => []
  | j :: js => ',' :: (print j ++ printMoreItems js)
/-- The members of an object, with commas between them. -/
def printMembers : List (List Char × Json) → List Char
  | [] => []
  | (k, j) :: r => jsonString k ++ ':' :: (print j ++ printMoreMembers r)
/-- Further members, each after a comma. -/
def printMoreMembers : List (List Char × Json) → List Char
  | [] => []
  | (k, j) :: r => ',' :: (jsonString k ++ ':' :: (print j ++ printMoreMembers r))
end

/-- `fingerprint_schema` (mode/mod.rs:111-120); `sha` stands for SHA-256 in hexadecimal. -/
def fingerprint (sha : List Char → String) (schema : Json) : String := sha (print (canon schema))

/-- `table_definition` (mode/mod.rs:95-109); `keys` are the names of the key columns in key order. -/
def tableDefinition (sha : List Char → String) (name : String) (schema : Json) (keys : List String) : Catalog.Def :=
  { name := name, fingerprint := fingerprint sha schema, pk := keys, retention := none, version := 0 }

/-- `pruner_for_schema` (db/scan.rs:96-111) on the cache of one handle: fingerprints with the pruner made for
them. `make` stands for `aisle::Pruner::try_new`, which may refuse. -/
def prunerFor {P : Type} (sha : List Char → String) (make : Json → Option P) (cache : List (String × P)) (schema : Json) :
    List (String × P) × Option P :=
  match (cache.find? (fun p => decide (p.1 = fingerprint sha schema))).map (·.2) with
  | some p => (cache, some p)
  | none =>
    match make schema with
    | none => (cache, none)
    | some p => ((fingerprint sha schema, p) :: cache, some p)

end Tonbo.Model.Fingerprint
