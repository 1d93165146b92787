import Verif.Spec.KeyDeclView

/-!
# What a marker of a field says
-/

namespace Tonbo.Spec.KeyDecl

/-- The characters with the Unicode property `White_Space`. -/
def WhiteSpace (c : Char) : Prop :=
  c.toNat ∈ [0x09, 0x0A, 0x0B, 0x0C, 0x0D, 0x20, 0x85, 0xA0, 0x1680, 0x2000, 0x2001, 0x2002, 0x2003, 0x2004, 0x2005, 0x2006,
    0x2007, 0x2008, 0x2009, 0x200A, 0x2028, 0x2029, 0x202F, 0x205F, 0x3000]

/-- The digits `0` to `9`. -/
def digits : List Char := ['0', '1', '2', '3', '4', '5', '6', '7', '8', '9']

/-- The text is a decimal numeral, perhaps with a plus sign. -/
def Numeral (text : List Char) (n : Nat) : Prop :=
  ∃ ds : List (Fin 10), ds ≠ [] ∧
    (text = ds.map (fun d => digits[d]) ∨ text = '+' :: ds.map (fun d => digits[d])) ∧
    n = ds.foldl (fun a d => 10 * a + d.val) 0

/-- The text is a marker, with an ordinal or without. -/
def MarkText (text : List Char) : Option Nat → Prop
  | some n => Numeral text n ∧ n < 2 ^ 32
  | none => text ∈ ["true", "TRUE", "True", "yes", "YES", "Yes"].map String.toList

end Tonbo.Spec.KeyDecl
