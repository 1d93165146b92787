import Verif.Model.Cell
import Verif.Lemmas.Str
import Mathlib.Data.Prod.Lex
import Mathlib.Data.Int.Order.Basic

namespace Tonbo.Lemmas.Keys
open Tonbo.Model.Keys Tonbo.Model.Num Tonbo.Model

theorem cmpInt_lt {a b : Int} : cmpInt a b = .lt ↔ a < b := by
  unfold cmpInt; split
  · simp_all
  · split <;> simp_all
theorem cmpInt_eq {a b : Int} : cmpInt a b = .eq ↔ a = b := by
  unfold cmpInt; split
  · simp; omega
  · split <;> simp_all
theorem cmpNat_lt {a b : Nat} : cmpNat a b = .lt ↔ a < b := by
  unfold cmpNat; split
  · simp_all
  · split <;> simp_all
theorem cmpNat_eq {a b : Nat} : cmpNat a b = .eq ↔ a = b := by
  unfold cmpNat; split
  · simp; omega
  · split <;> simp_all

theorem bytesCmp_lt : ∀ {l m : List Nat}, bytesCmp l m = .lt ↔ l < m
  | [], [] => by simp [bytesCmp]
  | [], b :: m => by simp [bytesCmp]
  | a :: l, [] => by simp [bytesCmp]
  | a :: l, b :: m => by
    simp only [bytesCmp, List.cons_lt_cons_iff]
    split
    · simp_all
    · split
      · simp; omega
      · rw [bytesCmp_lt]
        have : a = b := by omega
        simp [this]

theorem bytesCmp_eq : ∀ {l m : List Nat}, bytesCmp l m = .eq ↔ l = m
  | [], [] => by simp [bytesCmp]
  | [], b :: m => by simp [bytesCmp]
  | a :: l, [] => by simp [bytesCmp]
  | a :: l, b :: m => by
    simp only [bytesCmp]
    split
    · simp; omega
    · split
      · simp; omega
      · rw [bytesCmp_eq]
        have : a = b := by omega
        simp [this]

/-- Where the cells of supported types lie in one linear order. -/
abbrev V := Nat ×ₗ Int ×ₗ List Nat

def rank : Cell → V
  | .str s => toLex (0, toLex (0, Str.bytes s))
  | .bin b => toLex (1, toLex (0, b))
  | .int t v => toLex (tag (.int t v), toLex (v, []))
  | .f64 v => toLex (6, toLex (ordKey v, []))
  | .f32 v => toLex (7, toLex (ordKey v, []))
  | .bool b => toLex (8, toLex (if b then 1 else 0, []))

/-- Cells that are compared by value: supported type and not NaN. -/
def Good : Cell → Prop
  | .int t _ => t.keyable = true
  | .f32 v => v.isNan = false
  | .f64 v => v.isNan = false
  | _ => True

instance : DecidablePred Good := fun c => by cases c <;> unfold Good <;> infer_instance

theorem rank_lt {a b : Nat} {x y : Int} {l m : List Nat} :
    (toLex (a, toLex (x, l)) : V) < toLex (b, toLex (y, m)) ↔
      a < b ∨ (a = b ∧ (x < y ∨ (x = y ∧ l < m))) := by
  simp only [Prod.Lex.lt_iff, ofLex_toLex]

theorem rank_eq {a b : Nat} {x y : Int} {l m : List Nat} :
    (toLex (a, toLex (x, l)) : V) = toLex (b, toLex (y, m)) ↔ a = b ∧ x = y ∧ l = m := by
  constructor
  · intro h
    have := congrArg ofLex h
    simp only [ofLex_toLex, Prod.mk.injEq] at this
    refine ⟨this.1, ?_⟩
    have := congrArg ofLex this.2
    simpa only [ofLex_toLex, Prod.mk.injEq] using this
  · rintro ⟨rfl, rfl, rfl⟩; rfl

theorem tag_int_inj {t u : IntTy} {a b : Int} (ht : t.keyable = true) (hu : u.keyable = true)
    (h : tag (.int t a) = tag (.int u b)) : t = u := by
  cases t <;> cases u <;> simp_all [tag, IntTy.keyable]

theorem floatsCmp_lt {a b : F64} (ha : a.isNan = false) (hb : b.isNan = false) :
    floatsCmp a b = .lt ↔ ordKey a < ordKey b := by
  simp [floatsCmp, fcmp, ha, hb, cmpInt_lt]

theorem floatsCmp_eq {a b : F64} (ha : a.isNan = false) (hb : b.isNan = false) :
    floatsCmp a b = .eq ↔ ordKey a = ordKey b := by
  simp [floatsCmp, fcmp, ha, hb, cmpInt_eq]

theorem cmpInt_gt {a b : Int} : cmpInt a b = .gt ↔ b < a := by
  unfold cmpInt; split
  · simp; omega
  · split
    · simp; omega
    · simp; omega

theorem cellCmp_tag {a b : Cell} (h : tag a ≠ tag b) : cellCmp a b = cmpNat (tag a) (tag b) := by
  cases a <;> cases b <;> simp only [cellCmp] <;> try (exact absurd rfl h)
  split
  · rename_i h'
    obtain ⟨rfl, h'⟩ := h'
    rename_i t x y
    exact absurd (by cases t <;> rfl) h
  · rfl

/-- Good cells of one tag have one type. -/
inductive Same : Cell → Cell → Prop
  | str (a b) : Same (.str a) (.str b)
  | bin (a b) : Same (.bin a) (.bin b)
  | bool (a b) : Same (.bool a) (.bool b)
  | int (t a b) (h : t.keyable = true) : Same (.int t a) (.int t b)
  | f32 (a b) (ha : a.isNan = false) (hb : b.isNan = false) : Same (.f32 a) (.f32 b)
  | f64 (a b) (ha : a.isNan = false) (hb : b.isNan = false) : Same (.f64 a) (.f64 b)

theorem same_of_tag {a b : Cell} (ha : Good a) (hb : Good b) (h : tag a = tag b) : Same a b := by
  cases a with
  | str s => cases b with
    | str => exact .str _ _
    | int u y => cases u <;> cases h
    | _ => cases h
  | bin s => cases b with
    | bin => exact .bin _ _
    | int u y => cases u <;> cases h
    | _ => cases h
  | bool s => cases b with
    | bool => exact .bool _ _
    | int u y => cases u <;> cases h
    | _ => cases h
  | f32 s => cases b with
    | f32 => exact .f32 _ _ ha hb
    | int u y => cases u <;> cases h
    | _ => cases h
  | f64 s => cases b with
    | f64 => exact .f64 _ _ ha hb
    | int u y => cases u <;> cases h
    | _ => cases h
  | int t x => cases b with
    | int u y =>
      obtain rfl := tag_int_inj ha hb h
      exact .int _ _ _ ha
    | _ => cases t <;> cases h

theorem rank_tag (c : Cell) : ∃ x l, rank c = toLex (tag c, toLex (x, l)) := by
  cases c <;> exact ⟨_, _, rfl⟩

theorem int_tag (t : IntTy) (a b : Int) : tag (.int t a) = tag (.int t b) := by cases t <;> rfl

theorem cellCmp_lt {a b : Cell} (ha : Good a) (hb : Good b) :
    cellCmp a b = .lt ↔ rank a < rank b := by
  by_cases h : tag a = tag b
  · cases same_of_tag ha hb h with
    | str x y => simp [cellCmp, rank, rank_lt, bytesCmp_lt]
    | bin x y => simp [cellCmp, rank, rank_lt, bytesCmp_lt]
    | bool x y => cases x <;> cases y <;> simp [cellCmp, boolCmp, rank, rank_lt]
    | int t x y ht => simp [cellCmp, ht, rank, rank_lt, cmpInt_lt, int_tag t x y]
    | f32 x y hx hy => simp [cellCmp, rank, rank_lt, floatsCmp_lt hx hy]
    | f64 x y hx hy => simp [cellCmp, rank, rank_lt, floatsCmp_lt hx hy]
  · rw [cellCmp_tag h, cmpNat_lt]
    obtain ⟨x, l, hx⟩ := rank_tag a
    obtain ⟨y, m, hy⟩ := rank_tag b
    rw [hx, hy, rank_lt]
    simp [h]

theorem cellCmp_eq {a b : Cell} (ha : Good a) (hb : Good b) :
    cellCmp a b = .eq ↔ rank a = rank b := by
  by_cases h : tag a = tag b
  · cases same_of_tag ha hb h with
    | str x y => simp [cellCmp, rank, bytesCmp_eq]
    | bin x y => simp [cellCmp, rank, bytesCmp_eq]
    | bool x y => cases x <;> cases y <;> simp [cellCmp, boolCmp, rank]
    | int t x y ht => simp [cellCmp, ht, rank, cmpInt_eq, int_tag t x y]
    | f32 x y hx hy => simp [cellCmp, rank, floatsCmp_eq hx hy]
    | f64 x y hx hy => simp [cellCmp, rank, floatsCmp_eq hx hy]
  · rw [cellCmp_tag h, cmpNat_eq]
    obtain ⟨x, l, hx⟩ := rank_tag a
    obtain ⟨y, m, hy⟩ := rank_tag b
    rw [hx, hy, rank_eq]
    simp [h]

theorem cellCmp_gt {a b : Cell} (ha : Good a) (hb : Good b) :
    cellCmp a b = .gt ↔ rank b < rank a := by
  cases h : cellCmp a b with
  | lt => simp [((cellCmp_lt ha hb).1 h).le]
  | eq => simp [(cellCmp_eq ha hb).1 h]
  | gt =>
    simp only [true_iff]
    rcases lt_trichotomy (rank a) (rank b) with h1 | h1 | h1
    · rw [(cellCmp_lt ha hb).2 h1] at h; cases h
    · rw [(cellCmp_eq ha hb).2 h1] at h; cases h
    · exact h1

/-- All components compared by value. -/
def GoodKey (k : List Cell) : Prop := ∀ c ∈ k, Good c

theorem rowCmp_lt : ∀ {k l : List Cell}, GoodKey k → GoodKey l →
    (rowCmp k l = .lt ↔ k.map rank < l.map rank)
  | [], [], _, _ => by simp [rowCmp]
  | [], b :: m, _, _ => by simp [rowCmp]
  | a :: l, [], _, _ => by simp [rowCmp]
  | a :: l, b :: m, hk, hl => by
    have ha := hk a List.mem_cons_self
    have hb := hl b List.mem_cons_self
    have ih := rowCmp_lt (fun c hc => hk c (List.mem_cons_of_mem _ hc))
      (fun c hc => hl c (List.mem_cons_of_mem _ hc))
    simp only [rowCmp, List.map_cons, List.cons_lt_cons_iff]
    cases h : cellCmp a b with
    | lt => simp [(cellCmp_lt ha hb).1 h]
    | eq =>
      have := (cellCmp_eq ha hb).1 h
      simp [this, ih]
    | gt =>
      have := (cellCmp_gt ha hb).1 h
      simp [not_lt.2 this.le, this.ne']

theorem rowCmp_eq : ∀ {k l : List Cell}, GoodKey k → GoodKey l →
    (rowCmp k l = .eq ↔ k.map rank = l.map rank)
  | [], [], _, _ => by simp [rowCmp]
  | [], b :: m, _, _ => by simp [rowCmp]
  | a :: l, [], _, _ => by simp [rowCmp]
  | a :: l, b :: m, hk, hl => by
    have ha := hk a List.mem_cons_self
    have hb := hl b List.mem_cons_self
    have ih := rowCmp_eq (fun c hc => hk c (List.mem_cons_of_mem _ hc))
      (fun c hc => hl c (List.mem_cons_of_mem _ hc))
    simp only [rowCmp, List.map_cons, List.cons.injEq]
    cases h : cellCmp a b with
    | lt => simp [((cellCmp_lt ha hb).1 h).ne]
    | eq =>
      have := (cellCmp_eq ha hb).1 h
      simp [this, ih]
    | gt => simp [((cellCmp_gt ha hb).1 h).ne']

theorem rowCmp_gt {k l : List Cell} (hk : GoodKey k) (hl : GoodKey l) :
    rowCmp k l = .gt ↔ l.map rank < k.map rank := by
  cases h : rowCmp k l with
  | lt => simp [((rowCmp_lt hk hl).1 h).le]
  | eq => simp [(rowCmp_eq hk hl).1 h]
  | gt =>
    simp only [true_iff]
    rcases lt_trichotomy (k.map rank) (l.map rank) with h1 | h1 | h1
    · rw [(rowCmp_lt hk hl).2 h1] at h; cases h
    · rw [(rowCmp_eq hk hl).2 h1] at h; cases h
    · exact h1

theorem cellEq_iff {a b : Cell} (ha : Good a) (hb : Good b) :
    cellEq a b = true ↔ rank a = rank b := by
  by_cases h : tag a = tag b
  · cases same_of_tag ha hb h with
    | str x y => simp [cellEq, rank]
    | bin x y => simp [cellEq, rank]
    | bool x y => cases x <;> cases y <;> simp [cellEq, rank]
    | int t x y ht => simp [cellEq, ht, rank, int_tag t x y]
    | f32 x y hx hy => simp [cellEq, rank, floatsEqual, fcmp, hx, hy, cmpInt_eq]
    | f64 x y hx hy => simp [cellEq, rank, floatsEqual, fcmp, hx, hy, cmpInt_eq]
  · have hne : rank a ≠ rank b := by
      obtain ⟨x, l, hx⟩ := rank_tag a
      obtain ⟨y, m, hy⟩ := rank_tag b
      rw [hx, hy, ne_eq, rank_eq]
      simp [h]
    simp only [hne, iff_false]
    cases a <;> cases b <;> simp [cellEq] <;> try (exact absurd rfl h)
    rename_i t x u y
    rintro rfl _ rfl
    exact h rfl

theorem rowEq_iff : ∀ {k l : List Cell}, GoodKey k → GoodKey l →
    (rowEq k l = true ↔ k.map rank = l.map rank)
  | [], [], _, _ => by simp [rowEq]
  | [], b :: m, _, _ => by simp [rowEq]
  | a :: l, [], _, _ => by simp [rowEq]
  | a :: l, b :: m, hk, hl => by
    have ha := hk a List.mem_cons_self
    have hb := hl b List.mem_cons_self
    have ih := rowEq_iff (fun c hc => hk c (List.mem_cons_of_mem _ hc))
      (fun c hc => hl c (List.mem_cons_of_mem _ hc))
    simp [rowEq, cellEq_iff ha hb, ih]

/-- Not negative zero. -/
def NotNegZero : Cell → Prop
  | .f32 v => ¬ (v.isZero = true ∧ v.signNeg = true)
  | .f64 v => ¬ (v.isZero = true ∧ v.signNeg = true)
  | _ => True

theorem code_inj {x y : Nat} (h1 : x < 2 ^ 64) (h2 : y < 2 ^ 64)
    (ha : ¬ ((x / 2 ^ 52 % 2 ^ 11 = 0 ∧ x % 2 ^ 52 = 0) ∧ 2 ^ 63 ≤ x))
    (hb : ¬ ((y / 2 ^ 52 % 2 ^ 11 = 0 ∧ y % 2 ^ 52 = 0) ∧ 2 ^ 63 ≤ y))
    (h : (if 2 ^ 63 ≤ x then -((x % 2 ^ 63 : Nat) : Int) else ((x % 2 ^ 63 : Nat) : Int))
      = (if 2 ^ 63 ≤ y then -((y % 2 ^ 63 : Nat) : Int) else ((y % 2 ^ 63 : Nat) : Int))) : x = y := by
  split at h <;> split at h
  · omega
  · exfalso
    have e1 : x % 2 ^ 63 = 0 := by omega
    apply ha; omega
  · exfalso
    have e1 : y % 2 ^ 63 = 0 := by omega
    apply hb; omega
  · omega

theorem ordKey_inj {a b : F64} (ha : ¬ (a.isZero = true ∧ a.signNeg = true))
    (hb : ¬ (b.isZero = true ∧ b.signNeg = true)) (h : ordKey a = ordKey b) : a = b := by
  obtain ⟨a⟩ := a
  obtain ⟨b⟩ := b
  congr 1
  apply BitVec.eq_of_toNat_eq
  simp only [ordKey, F64.signNeg, F64.isZero, F64.expBits, F64.frac, decide_eq_true_eq] at ha hb h
  exact code_inj a.isLt b.isLt (fun x => ha ⟨decide_eq_true x.1, x.2⟩)
    (fun x => hb ⟨decide_eq_true x.1, x.2⟩) h

theorem rank_inj {a b : Cell} (ha : Good a) (hb : Good b) (ha' : NotNegZero a) (hb' : NotNegZero b)
    (h : rank a = rank b) : a = b := by
  have ht : tag a = tag b := by
    obtain ⟨x, l, hx⟩ := rank_tag a
    obtain ⟨y, m, hy⟩ := rank_tag b
    rw [hx, hy, rank_eq] at h
    exact h.1
  cases same_of_tag ha hb ht with
  | str x y =>
    simp only [rank, rank_eq, true_and] at h
    rw [Tonbo.Lemmas.Str.bytes_inj h]
  | bin x y => simp only [rank, rank_eq, true_and] at h; rw [h]
  | bool x y => cases x <;> cases y <;> simp [rank] at h ⊢
  | int t x y hk => simp only [rank, rank_eq] at h; rw [h.2.1]
  | f32 x y hx hy =>
    simp only [rank, rank_eq, true_and, and_true] at h
    rw [ordKey_inj ha' hb' h]
  | f64 x y hx hy =>
    simp only [rank, rank_eq, true_and, and_true] at h
    rw [ordKey_inj ha' hb' h]

theorem map_rank_inj : ∀ {k l : List Cell}, GoodKey k → GoodKey l →
    (∀ c ∈ k, NotNegZero c) → (∀ c ∈ l, NotNegZero c) → k.map rank = l.map rank → k = l
  | [], [], _, _, _, _, _ => rfl
  | [], b :: m, _, _, _, _, h => by simp at h
  | a :: l, [], _, _, _, _, h => by simp at h
  | a :: l, b :: m, hk, hl, nk, nl, h => by
    simp only [List.map_cons, List.cons.injEq] at h
    rw [rank_inj (hk a List.mem_cons_self) (hl b List.mem_cons_self) (nk a List.mem_cons_self)
      (nl b List.mem_cons_self) h.1,
      map_rank_inj (fun c hc => hk c (List.mem_cons_of_mem _ hc))
        (fun c hc => hl c (List.mem_cons_of_mem _ hc)) (fun c hc => nk c (List.mem_cons_of_mem _ hc))
        (fun c hc => nl c (List.mem_cons_of_mem _ hc)) h.2]

end Tonbo.Lemmas.Keys
