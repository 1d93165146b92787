import Verif.Lemmas.KeyOrder

/-!
# C45  Key comparison is a total order consistent with equality and hashing

`rowCmp`, `rowEq` and `rowHash` model `dyn_rows_cmp`, `dyn_rows_equal` and `dyn_rows_hash`, which back
`Ord`, `Eq` and `Hash` of keys. Two cases break the property in the code and are excluded by name
from the positive theorems: a NaN component (excluded by `Good`) and the negative zero (excluded only
for hashing). `nan_breaks_the_order` and `zeros_hash_apart` exhibit the two failures.
-/

namespace Tonbo.Props.C45
open Tonbo.Model.Keys Tonbo.Model.Num Tonbo.Spec Tonbo.Lemmas.Keys Tonbo.Lemmas.KeyOrder

/-- On keys of one schema without NaN, the comparison is the lexicographic order of the values the
components stand for: strings by code point, doubles by their exact value, and so on. -/
theorem key_order_is_value_order_partial (k l : List Cell) (hk : GoodKey k) (hl : GoodKey l)
    (ht : List.Forall₂ SameType k l) :
    (rowCmp k l = .lt ↔ KeyLt k l) ∧ (rowCmp k l = .eq ↔ KeySame k l) ∧
      (rowCmp k l = .gt ↔ KeyLt l k) := by
  refine ⟨?_, ?_, ?_⟩
  · rw [rowCmp_lt hk hl, keyLt_iff hk hl ht]
  · rw [rowCmp_eq hk hl, keySame_iff hk hl ht]
  · rw [rowCmp_gt hk hl, keyLt_iff hl hk (sameTypes_symm ht)]

/-- The comparison is a total order on all keys without NaN, of any schema: reversing the arguments
reverses the result, it is transitive, and keys that compare equal are interchangeable. -/
theorem key_total_order_partial (j k l : List Cell) (hj : GoodKey j) (hk : GoodKey k) (hl : GoodKey l) :
    rowCmp k j = rev (rowCmp j k) ∧
    (rowCmp j k = .lt → rowCmp k l = .lt → rowCmp j l = .lt) ∧
    (rowCmp j k = .eq → rowCmp j l = rowCmp k l ∧ rowCmp l j = rowCmp l k) := by
  refine ⟨?_, ?_, ?_⟩
  · cases h : rowCmp j k with
    | lt => exact (rowCmp_gt hk hj).2 ((rowCmp_lt hj hk).1 h)
    | eq => exact (rowCmp_eq hk hj).2 ((rowCmp_eq hj hk).1 h).symm
    | gt => exact (rowCmp_lt hk hj).2 ((rowCmp_gt hj hk).1 h)
  · rw [rowCmp_lt hj hk, rowCmp_lt hk hl, rowCmp_lt hj hl]
    exact lt_trans
  · intro h
    have h := (rowCmp_eq hj hk).1 h
    constructor
    · cases g : rowCmp k l with
      | lt => rw [rowCmp_lt hk hl] at g; rw [rowCmp_lt hj hl, h]; exact g
      | eq => rw [rowCmp_eq hk hl] at g; rw [rowCmp_eq hj hl, h]; exact g
      | gt => rw [rowCmp_gt hk hl] at g; rw [rowCmp_gt hj hl, h]; exact g
    · cases g : rowCmp l k with
      | lt => rw [rowCmp_lt hl hk] at g; rw [rowCmp_lt hl hj, h]; exact g
      | eq => rw [rowCmp_eq hl hk] at g; rw [rowCmp_eq hl hj, h]; exact g
      | gt => rw [rowCmp_gt hl hk] at g; rw [rowCmp_gt hl hj, h]; exact g

/-- Comparing equal is the same as being equal. -/
theorem equal_iff_compares_equal_partial (k l : List Cell) (hk : GoodKey k) (hl : GoodKey l) :
    rowEq k l = true ↔ rowCmp k l = .eq := by
  rw [rowEq_iff hk hl, rowCmp_eq hk hl]

/-- Equal keys feed the same bytes to the hasher, unless a component is a negative zero. -/
theorem equal_keys_hash_equally_partial (k l : List Cell) (hk : GoodKey k) (hl : GoodKey l)
    (nk : ∀ c ∈ k, NotNegZero c) (nl : ∀ c ∈ l, NotNegZero c) (h : rowEq k l = true) :
    rowHash k = rowHash l := by
  rw [map_rank_inj hk hl nk nl ((rowEq_iff hk hl).1 h)]

/-- A NaN component. -/
def isNanCell : Cell → Bool
  | .f32 v => v.isNan
  | .f64 v => v.isNan
  | _ => false

/-- A component of a type keys may have, NaN or not. -/
def KeyType (c : Cell) : Prop := ∀ t v, c = .int t v → t.keyable = true

private theorem good_of {c : Cell} (h : KeyType c) (hn : isNanCell c = false) : Good c := by
  cases c with
  | int t v => exact h t v rfl
  | f32 v => exact hn
  | f64 v => exact hn
  | _ => trivial

private theorem cellEq_nan {a b : Cell} (ha : isNanCell a = true) :
    cellEq a b = true ↔ isNanCell b = true ∧ tag a = tag b := by
  cases a with
  | f32 x =>
    have hx : x.isNan = true := ha
    cases b with
    | f32 y => simp [cellEq, isNanCell, floatsEqual, fcmp, hx, tag]
    | _ => simp [cellEq, isNanCell, tag]
  | f64 x =>
    have hx : x.isNan = true := ha
    cases b with
    | f64 y => simp [cellEq, isNanCell, floatsEqual, fcmp, hx, tag]
    | _ => simp [cellEq, isNanCell, tag]
  | _ => simp [isNanCell] at ha

private theorem cellEq_symm (a b : Cell) : cellEq a b = cellEq b a := by
  have hf : ∀ x y : F64, floatsEqual x y = floatsEqual y x := by
    intro x y
    unfold floatsEqual fcmp
    rw [Bool.and_comm, Bool.or_comm x.isNan]
    congr 1
    split
    · rfl
    · simp only [Option.some.injEq, cmpInt_eq]
      exact decide_eq_decide.2 eq_comm
  have hi : ∀ (t u : IntTy) (x y : Int), (decide (t = u) && t.keyable && decide (x = y)) =
      (decide (u = t) && u.keyable && decide (y = x)) := by
    intro t u x y
    by_cases h : t = u
    · subst h
      rw [decide_eq_decide.2 (eq_comm (a := x))]
    · rw [decide_eq_false h, decide_eq_false (Ne.symm h)]
      rfl
  cases a <;> cases b <;> simp only [cellEq] <;>
    first | exact hf _ _ | exact hi _ _ _ _ | exact decide_eq_decide.2 eq_comm

private theorem cellEq_cls {a b : Cell} (ha : KeyType a) (hb : KeyType b) :
    cellEq a b = true ↔ isNanCell a = isNanCell b ∧
      if isNanCell a then tag a = tag b else rank a = rank b := by
  cases h : isNanCell a with
  | true => rw [cellEq_nan h, if_pos rfl, eq_comm (a := true)]
  | false =>
    cases h' : isNanCell b with
    | true => rw [cellEq_symm, cellEq_nan h', h]; simp
    | false => rw [cellEq_iff (good_of ha h) (good_of hb h')]; simp

private theorem cellEq_refl {a : Cell} (ha : KeyType a) : cellEq a a = true := by
  rw [cellEq_cls ha ha]
  exact ⟨rfl, by split <;> rfl⟩

private theorem cellEq_trans {a b c : Cell} (ha : KeyType a) (hb : KeyType b) (hc : KeyType c)
    (h1 : cellEq a b = true) (h2 : cellEq b c = true) : cellEq a c = true := by
  rw [cellEq_cls ha hb] at h1
  rw [cellEq_cls hb hc] at h2
  rw [cellEq_cls ha hc]
  refine ⟨h1.1.trans h2.1, ?_⟩
  rw [← h1.1] at h2
  cases h : isNanCell a <;> simp only [h, if_true, Bool.false_eq_true, if_false] at h1 h2 ⊢ <;>
    exact h1.2.trans h2.2

/-- Equality of keys is an equivalence, also on keys with NaN components. -/
theorem equality_is_an_equivalence (j k l : List Cell) (hj : ∀ c ∈ j, KeyType c) (hk : ∀ c ∈ k, KeyType c)
    (hl : ∀ c ∈ l, KeyType c) :
    rowEq k k = true ∧ rowEq j k = rowEq k j ∧ (rowEq j k = true → rowEq k l = true → rowEq j l = true) := by
  refine ⟨?_, ?_, ?_⟩
  · clear hj hl
    induction k with
    | nil => rfl
    | cons a k ih =>
      simp only [rowEq, Bool.and_eq_true]
      exact ⟨cellEq_refl (hk a List.mem_cons_self), ih (fun c hc => hk c (List.mem_cons_of_mem _ hc))⟩
  · clear hj hk hl
    induction j generalizing k with
    | nil => cases k <;> rfl
    | cons a j ih =>
      cases k with
      | nil => rfl
      | cons b k => simp only [rowEq]; rw [cellEq_symm, ih k]
  · induction j generalizing k l with
    | nil =>
      cases k <;> cases l <;> simp [rowEq]
    | cons a j ih =>
      cases k with
      | nil => simp [rowEq]
      | cons b k =>
        cases l with
        | nil => simp [rowEq]
        | cons c l =>
          simp only [rowEq, Bool.and_eq_true]
          intro h1 h2
          exact ⟨cellEq_trans (hj a List.mem_cons_self) (hk b List.mem_cons_self) (hl c List.mem_cons_self) h1.1 h2.1,
            ih k l (fun c hc => hj c (List.mem_cons_of_mem _ hc)) (fun c hc => hk c (List.mem_cons_of_mem _ hc))
              (fun c hc => hl c (List.mem_cons_of_mem _ hc)) h1.2 h2.2⟩

/-- All NaNs of one type are one value, and none of the numbers: every NaN equals every NaN, they hash equally, and no
NaN equals a number. -/
theorem nans_are_one_value (x y : F64) (hx : x.isNan = true) :
    (rowEq [.f64 x] [.f64 y] = true ↔ y.isNan = true) ∧ (rowEq [.f32 x] [.f32 y] = true ↔ y.isNan = true) ∧
    (y.isNan = true → rowHash [.f64 x] = rowHash [.f64 y] ∧ rowHash [.f32 x] = rowHash [.f32 y]) := by
  refine ⟨?_, ?_, fun hy => ?_⟩
  · simp [rowEq, cellEq, floatsEqual, fcmp, hx]
  · simp [rowEq, cellEq, floatsEqual, fcmp, hx]
  · simp [rowHash, hashInput, hx, hy]

/-- Keys without NaN and negative zero. -/
abbrev CanonKey := {k : List Cell // GoodKey k ∧ ∀ c ∈ k, NotNegZero c}

/-- The keys on which every theorem stated for an arbitrary linearly ordered key type applies. -/
instance keyLinearOrder : LinearOrder CanonKey :=
  LinearOrder.lift' (fun k => k.1.map rank)
    (fun k l h => Subtype.ext (map_rank_inj k.2.1 l.2.1 k.2.2 l.2.2 h))

/-- That order is the one the code computes. -/
theorem keyLinearOrder_spec (k l : CanonKey) :
    (rowCmp k.1 l.1 = .lt ↔ k < l) ∧ (rowCmp k.1 l.1 = .eq ↔ k = l) ∧
      (rowCmp k.1 l.1 = .gt ↔ l < k) := by
  refine ⟨rowCmp_lt k.2.1 l.2.1, ?_, rowCmp_gt k.2.1 l.2.1⟩
  rw [rowCmp_eq k.2.1 l.2.1]
  exact ⟨fun h => Subtype.ext (map_rank_inj k.2.1 l.2.1 k.2.2 l.2.2 h), fun h => by rw [h]⟩

/-- 1.0, 2.0, a NaN and the two zeros. -/
def one : F64 := ⟨0x3FF0000000000000#64⟩
def two : F64 := ⟨0x4000000000000000#64⟩
def nan : F64 := ⟨0x7FF8000000000000#64⟩
def posZero : F64 := ⟨0#64⟩
def negZero : F64 := ⟨0x8000000000000000#64⟩

/-- The failure with NaN: it compares equal to 1.0 and to 2.0, which differ, and it is not equal to
either. So the comparison is neither transitive nor consistent with equality. -/
theorem nan_breaks_the_order :
    rowCmp [.f64 one] [.f64 nan] = .eq ∧ rowCmp [.f64 nan] [.f64 two] = .eq ∧
    rowCmp [.f64 one] [.f64 two] = .lt ∧ rowEq [.f64 one] [.f64 nan] = false := by decide

/-- The failure with zeros: two equal keys that hash differently. -/
theorem zeros_hash_apart :
    rowEq [.f64 posZero] [.f64 negZero] = true ∧ rowHash [.f64 posZero] ≠ rowHash [.f64 negZero] := by
  decide

/-- Another failure the cell tags allow: cells of the integer types that are compared by tag only are
all one to the comparison and none equals itself. Such columns are rejected as key columns. -/
theorem small_ints_are_not_compared :
    rowCmp [.int .i8 1] [.int .i8 2] = .eq ∧ rowEq [.int .i8 1] [.int .i8 1] = false := by decide

example : GoodKey [.str "ab".toList, .int .i64 (-5), .f64 one] ∧
    rowCmp [.str "ab".toList, .int .i64 (-5), .f64 one]
      [.str "ab".toList, .int .i64 (-5), .f64 two] = .lt ∧
    rowCmp [.str "é".toList] [.str "z".toList] = .gt ∧
    rowCmp [.str "a".toList] [.str "a".toList, .bool true] = .lt := by
  refine ⟨?_, by decide, by decide, by decide⟩
  intro c hc
  simp only [List.mem_cons, List.not_mem_nil, or_false] at hc
  rcases hc with rfl | rfl | rfl <;> decide

example : KeyType (.f64 nan) ∧ rowEq [.f64 nan] [.f64 nan] = true ∧ nan.isNan = true := by
  refine ⟨?_, by decide, by decide⟩
  intro t v h
  cases h

end Tonbo.Props.C45
