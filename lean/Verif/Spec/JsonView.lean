import Verif.Model.Fingerprint

/-!
# When two JSON values are the same

Looking into a value along a path of member names and positions. Two values are the same if looking
along any path finds the same in both: the order of the members of an object is not observable.
-/

namespace Tonbo.Spec.JsonView
open Tonbo.Model.Fingerprint (Json)

/-- One step into a value. -/
inductive Step where
  | member (key : List Char)
  | item (i : Nat)
deriving Repr, DecidableEq

/-- What is seen at the end of a path. -/
inductive Seen where
  | null
  | bool (b : Bool)
  | num (n : Int)
  | str (s : List Char)
  | array (length : Nat)
  | object
deriving Repr, DecidableEq

/-- One step. -/
def into : Json → Step → Option Json
  | .obj l, .member k => (l.find? (fun m => decide (m.1 = k))).map (·.2)
  | .arr l, .item i => l[i]?
  | _, _ => none

/-- What kind of value this is. -/
def seen : Json → Seen
  | .null => .null
  | .bool b => .bool b
  | .num n => .num n
  | .str s => .str s
  | .arr l => .array l.length
  | .obj _ => .object

/-- Looking along a path. -/
def look (j : Json) : List Step → Option Seen
  | [] => some (seen j)
  | s :: p => (into j s).bind (fun j' => look j' p)

/-- The same value. -/
def Same (a b : Json) : Prop := ∀ p, look a p = look b p

mutual
/-- No object has two members with one name. -/
def Proper : Json → Prop
  | .obj l => (l.map (·.1)).Nodup ∧ ProperMembers l
  | .arr l => ProperItems l
  | _ => True
/-- `Proper` for all items. -/
def ProperItems : List Json → Prop
  | [] => True
  | j :: js => Proper j ∧ ProperItems js
/-- `Proper` for all members. -/
def ProperMembers : List (List Char × Json) → Prop
  | [] => True
  | (_, j) :: r => Proper j ∧ ProperMembers r
end

end Tonbo.Spec.JsonView
