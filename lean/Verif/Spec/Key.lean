import Verif.Spec.Num
import Verif.Model.Cell

/-!
# What the order of keys should be

Components compare by the value they stand for and keys compare lexicographically.
-/

namespace Tonbo.Spec
open Tonbo.Model.Keys Tonbo.Model.Num

/-- Strictly less, on the values doubles stand for; a NaN is not comparable. -/
def Real64.Lt : Real64 → Real64 → Prop
  | .fin p, .fin q => p < q
  | .inf true, .fin _ => True
  | .fin _, .inf false => True
  | .inf true, .inf false => True
  | _, _ => False

/-- The value of a double. -/
def valueOf (f : F64) : Real64 := ieee f.signNeg f.expBits f.frac

/-- `a` is a strictly smaller value than `b`, both of one column type. -/
inductive CellLt : Cell → Cell → Prop
  /-- Strings by code points. -/
  | str {s t : List Char} : s.map Char.toNat < t.map Char.toNat → CellLt (.str s) (.str t)
  /-- Binary by bytes. -/
  | bin {s t : List Nat} : s < t → CellLt (.bin s) (.bin t)
  | bool : CellLt (.bool false) (.bool true)
  | int {t : IntTy} {a b : Int} : a < b → CellLt (.int t a) (.int t b)
  | f32 {a b : F64} : Real64.Lt (valueOf a) (valueOf b) → CellLt (.f32 a) (.f32 b)
  | f64 {a b : F64} : Real64.Lt (valueOf a) (valueOf b) → CellLt (.f64 a) (.f64 b)

/-- The same value: the same cell, except that the two zeros are the same value. -/
inductive CellSame : Cell → Cell → Prop
  | refl (c : Cell) : CellSame c c
  | f32 {a b : F64} : valueOf a = valueOf b → CellSame (.f32 a) (.f32 b)
  | f64 {a b : F64} : valueOf a = valueOf b → CellSame (.f64 a) (.f64 b)

/-- Lexicographic order of keys: at the first component that differs in value, the smaller one. -/
inductive KeyLt : List Cell → List Cell → Prop
  | head {a b : Cell} {k l : List Cell} : CellLt a b → KeyLt (a :: k) (b :: l)
  | tail {a b : Cell} {k l : List Cell} : CellSame a b → KeyLt k l → KeyLt (a :: k) (b :: l)

/-- The same key. -/
def KeySame (k l : List Cell) : Prop := List.Forall₂ CellSame k l

/-- Two cells of one column type. -/
def SameType : Cell → Cell → Prop
  | .str _, .str _ => True
  | .bin _, .bin _ => True
  | .bool _, .bool _ => True
  | .int t _, .int u _ => t = u
  | .f32 _, .f32 _ => True
  | .f64 _, .f64 _ => True
  | _, _ => False

end Tonbo.Spec
