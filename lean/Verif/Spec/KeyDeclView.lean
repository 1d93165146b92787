import Verif.Model.KeyDecl

/-!
# What a declaration of a primary key means
-/

namespace Tonbo.Spec.KeyDecl
open Tonbo.Model.KeyDecl

/-- The first field with a name. -/
def IsFirst (s : Schema) (name : List Char) (i : Nat) : Prop :=
  (∃ f, s.fields[i]? = some f ∧ f.name = name) ∧ ∀ j < i, ∀ f, s.fields[j]? = some f → f.name ≠ name

/-- `cols` are the columns with the given names, in that order. -/
def NamedColumns (s : Schema) (names : List (List Char)) (cols : List Nat) : Prop :=
  List.Forall₂ (IsFirst s) names cols

/-- Every column of a key has a type a key may have. -/
def Usable (s : Schema) (cols : List Nat) : Prop :=
  ∀ i ∈ cols, ∃ f, s.fields[i]? = some f ∧ f.type ≠ .other

/-- A name with no character that JSON escapes, no comma, and not empty. -/
def Plain (name : List Char) : Prop :=
  name ≠ [] ∧ ∀ c ∈ name, c ≠ ',' ∧ c ≠ '"' ∧ c ≠ '\\' ∧ 32 ≤ c.toNat

/-- No field carries a marker that is read as one. -/
def Unmarked (s : Schema) : Prop := ∀ f ∈ s.fields, markOf f = none

/-- Field `i` is marked, with the ordinal `o` if it has one. -/
def Marked (s : Schema) (i : Nat) (o : Option Nat) : Prop :=
  ∃ f, s.fields[i]? = some f ∧ markOf f = some o

end Tonbo.Spec.KeyDecl
