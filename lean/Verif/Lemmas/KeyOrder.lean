import Verif.Lemmas.Float
import Mathlib.Data.List.Forall2

namespace Tonbo.Lemmas.KeyOrder
open Tonbo.Spec Tonbo.Model.Num Tonbo.Model.Keys Tonbo.Lemmas.Keys Tonbo.Lemmas.Float Tonbo.Lemmas.Str
open Tonbo.Model

theorem sameType_tag {a b : Cell} (h : SameType a b) : tag a = tag b := by
  cases a <;> cases b <;> simp only [SameType] at h <;> try rfl
  subst h
  exact int_tag _ _ _

theorem cellLt_iff {a b : Cell} (ha : Good a) (hb : Good b) (h : SameType a b) :
    rank a < rank b ↔ CellLt a b := by
  cases same_of_tag ha hb (sameType_tag h) with
  | str x y =>
    simp only [rank, rank_lt, lt_irrefl, true_and, false_or, bytes_lt_iff]
    exact ⟨.str, fun h => by cases h; assumption⟩
  | bin x y =>
    simp only [rank, rank_lt, lt_irrefl, true_and, false_or]
    exact ⟨.bin, fun h => by cases h; assumption⟩
  | bool x y =>
    cases x <;> cases y <;> simp only [rank, rank_lt] <;> simp
    · intro h; cases h
    · exact .bool
    · intro h; cases h
    · intro h; cases h
  | int t x y ht =>
    simp only [rank, rank_lt, int_tag t x y, lt_irrefl, true_and, false_or, and_false, or_false]
    exact ⟨.int, fun h => by cases h; assumption⟩
  | f32 x y hx hy =>
    simp only [rank, rank_lt, lt_irrefl, true_and, false_or, and_false, or_false, ordKey_lt_iff hx hy]
    exact ⟨.f32, fun h => by cases h; assumption⟩
  | f64 x y hx hy =>
    simp only [rank, rank_lt, lt_irrefl, true_and, false_or, and_false, or_false, ordKey_lt_iff hx hy]
    exact ⟨.f64, fun h => by cases h; assumption⟩

theorem cellSame_iff {a b : Cell} (ha : Good a) (hb : Good b) (h : SameType a b) :
    rank a = rank b ↔ CellSame a b := by
  cases same_of_tag ha hb (sameType_tag h) with
  | str x y =>
    simp only [rank, rank_eq, true_and]
    exact ⟨fun h => by rw [bytes_inj h]; exact .refl _, fun h => by cases h; rfl⟩
  | bin x y =>
    simp only [rank, rank_eq, true_and]
    exact ⟨fun h => by rw [h]; exact .refl _, fun h => by cases h; rfl⟩
  | bool x y =>
    cases x <;> cases y <;> simp only [rank, rank_eq] <;> simp
    · exact .refl _
    · intro h; cases h
    · intro h; cases h
    · exact .refl _
  | int t x y ht =>
    simp only [rank, rank_eq, int_tag t x y, true_and, and_true]
    exact ⟨fun h => by rw [h]; exact .refl _, fun h => by cases h; rfl⟩
  | f32 x y hx hy =>
    simp only [rank, rank_eq, true_and, and_true, ordKey_eq_iff hx hy]
    refine ⟨.f32, fun h => ?_⟩
    cases h with
    | refl => rfl
    | f32 h => exact h
  | f64 x y hx hy =>
    simp only [rank, rank_eq, true_and, and_true, ordKey_eq_iff hx hy]
    refine ⟨.f64, fun h => ?_⟩
    cases h with
    | refl => rfl
    | f64 h => exact h

theorem keyLt_iff : ∀ {k l : List Cell}, GoodKey k → GoodKey l → List.Forall₂ SameType k l →
    (k.map rank < l.map rank ↔ KeyLt k l)
  | [], [], _, _, _ => by
    simp only [List.map_nil, List.not_lt_nil, false_iff]
    intro h; cases h
  | [], b :: m, _, _, h => by cases h
  | a :: l, [], _, _, h => by cases h
  | a :: l, b :: m, hk, hl, h => by
    cases h with
    | cons h1 h2 =>
      have ha := hk a List.mem_cons_self
      have hb := hl b List.mem_cons_self
      have ih := keyLt_iff (fun c hc => hk c (List.mem_cons_of_mem _ hc))
        (fun c hc => hl c (List.mem_cons_of_mem _ hc)) h2
      simp only [List.map_cons, List.cons_lt_cons_iff, cellLt_iff ha hb h1, cellSame_iff ha hb h1, ih]
      constructor
      · rintro (h | ⟨h, g⟩)
        · exact .head h
        · exact .tail h g
      · intro h
        cases h with
        | head h => exact Or.inl h
        | tail h g => exact Or.inr ⟨h, g⟩

theorem keySame_iff : ∀ {k l : List Cell}, GoodKey k → GoodKey l → List.Forall₂ SameType k l →
    (k.map rank = l.map rank ↔ KeySame k l)
  | [], [], _, _, _ => by simp [KeySame]
  | [], b :: m, _, _, h => by cases h
  | a :: l, [], _, _, h => by cases h
  | a :: l, b :: m, hk, hl, h => by
    cases h with
    | cons h1 h2 =>
      have ha := hk a List.mem_cons_self
      have hb := hl b List.mem_cons_self
      have ih := keySame_iff (fun c hc => hk c (List.mem_cons_of_mem _ hc))
        (fun c hc => hl c (List.mem_cons_of_mem _ hc)) h2
      simp only [List.map_cons, List.cons.injEq, cellSame_iff ha hb h1, ih]
      unfold KeySame
      rw [List.forall₂_cons]

theorem sameType_symm {a b : Cell} (h : SameType a b) : SameType b a := by
  cases a <;> cases b <;> simp_all [SameType]

theorem sameTypes_symm {k l : List Cell} (h : List.Forall₂ SameType k l) :
    List.Forall₂ SameType l k := by
  induction h with
  | nil => exact .nil
  | cons h _ ih => exact .cons (sameType_symm h) ih

end Tonbo.Lemmas.KeyOrder
