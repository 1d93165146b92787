import Verif.Lemmas.BoundsFrom

/-!
# C09: the key range derived from a predicate

`meaning env p` (`Spec/Pred.lean`) is the value of the predicate on a row whose columns have the values
`env`; `InsideOpt` (`Spec/Bounds.lean`) says a key satisfies the derived bounds, if any.
-/

namespace Tonbo.Props.C09
open Tonbo.Spec Tonbo.Model.Pred Tonbo.Model.Keys Tonbo.Model.Bounds Tonbo.Lemmas.Pred
open Tonbo.Lemmas.PredEval Tonbo.Lemmas.Keys Tonbo.Lemmas.Bounds Tonbo.Model

/-- What is required of the predicate, for a row with key `key`: a non-null literal compared with the
key column converts to a key cell of the type of the column (see `literal_types`), and the cells of a
string column are strings. Nothing is required of the other columns, or when the key has several
columns. The requirement cannot be dropped: `narrow_key_column_drops_rows`. -/
def Fits (keySchema : Schema) (key : List Cell) (p : Expr) : Prop :=
  ∀ kc kt, keySchema = [(kc, kt)] → ∃ c, key = [c] ∧ ∀ e ∈ leaves p, LeafKeyed kc kt c e

/-- The key of the row: the values of the key columns. -/
def IsKey (keySchema : Schema) (env : String → Val) (key : List Cell) : Prop :=
  List.Forall₂ (fun f c => env f.1 = cellVal c ∧ Good c) keySchema key

/-- **C09.** If a row satisfies the predicate, its key lies in the bounds derived from it. -/
theorem key_range_sound_partial (keySchema : Schema) (env : String → Val) (key : List Cell) (p : Expr)
    (hkey : IsKey keySchema env key) (hfit : Fits keySchema key p) (hp : meaning env p = .t) :
    InsideOpt (keyBoundsFor keySchema p) key := by
  intro b hb
  unfold keyBoundsFor at hb
  split at hb
  · rename_i kc kt
    obtain ⟨c, rfl, hl⟩ := hfit kc kt rfl
    cases hkey with
    | cons h _ =>
      obtain ⟨g, s⟩ := boundsFrom_sound h.2 h.1 p hl b hb
      exact (inside_iff g (goodKey_one h.2)).2 (s hp)
  · cases hb

/-- **C09.** If the derived range is empty, no row satisfies the predicate. -/
theorem empty_range_matches_nothing_partial (keySchema : Schema) (env : String → Val)
    (key : List Cell) (p : Expr) (hkey : IsKey keySchema env key) (hfit : Fits keySchema key p)
    {b : KeyBounds} (hb : keyBoundsFor keySchema p = some b) (he : b.empty = true) :
    meaning env p ≠ .t := by
  intro hp
  have := (key_range_sound_partial keySchema env key p hkey hfit hp b hb).1
  rw [he] at this; cases this

/-- **C09.** A source whose least and greatest key enclose the key of a matching row is not skipped. -/
theorem source_not_skipped_partial (keySchema : Schema) (env : String → Val) (key : List Cell)
    (p : Expr) (hkey : IsKey keySchema env key) (hfit : Fits keySchema key p)
    (hp : meaning env p = .t) {b : KeyBounds} (hb : keyBoundsFor keySchema p = some b)
    {mn mx : List Cell} (gmn : GoodKey mn) (gmx : GoodKey mx)
    (hlo : rowCmp mn key ≠ .gt) (hhi : rowCmp key mx ≠ .gt) : overlaps b mn mx = true := by
  have hgk : GoodKey key := by
    clear hlo hhi hfit hb
    induction hkey with
    | nil => intro c hc; cases hc
    | cons h _ ih =>
      intro c hc
      rcases List.mem_cons.1 hc with rfl | hc
      · exact h.2
      · exact ih c hc
  have hi := key_range_sound_partial keySchema env key p hkey hfit hp b hb
  unfold keyBoundsFor at hb
  split at hb
  · rename_i kc kt
    obtain ⟨c, rfl, hl⟩ := hfit kc kt rfl
    cases hkey with
    | cons h _ =>
      obtain ⟨g, _⟩ := boundsFrom_sound h.2 h.1 p hl b hb
      exact overlaps_sound g gmn gmx (not_lt.1 fun h => hlo ((rowCmp_gt gmn hgk).2 h))
        (not_lt.1 fun h => hhi ((rowCmp_gt hgk gmx).2 h)) ((inside_iff g hgk).1 hi)
  · cases hb

/-- As `Fits`, and no literal on the key column is null. -/
def FitsExactly (keySchema : Schema) (key : List Cell) (p : Expr) : Prop :=
  ∀ kc kt, keySchema = [(kc, kt)] → ∃ c, key = [c] ∧ ∀ e ∈ leaves p, LeafExact kc kt c e

/-- **C09.** For the memtables the range replaces part of the predicate: a row satisfies the predicate
if and only if its key is in the range and it satisfies the part left over. The predicate `FALSE` on a
table with a composite key is excluded: `false_matches_composite_keys`. -/
theorem memory_range_exact_partial (keySchema : Schema) (env : String → Val) (key : List Cell)
    (p : Expr) (hkey : IsKey keySchema env key) (hfit : FitsExactly keySchema key p)
    (hff : keySchema.length ≠ 1 → p ≠ .ff) :
    meaning env p = .t ↔ InsideOpt (keyBoundsFor keySchema p) key ∧
      ∀ q, (splitNonSst keySchema p).residual = some q → meaning env q = .t := by
  have hfit' : Fits keySchema key p := fun kc kt h => by
    obtain ⟨c, h1, h2⟩ := hfit kc kt h
    exact ⟨c, h1, fun e he => (h2 e he).1⟩
  have hs := splitNonSst_ok (leafMeaning env) keySchema p
  unfold SplitOk at hs
  have hand : ∀ a b : Tri, a.and b = .t ↔ a = .t ∧ b = .t := by
    intro a b; cases a <;> cases b <;> decide
  constructor
  · intro hp
    refine ⟨key_range_sound_partial keySchema env key p hkey hfit' hp, fun q hq => ?_⟩
    rw [show kleene (leafMeaning env) p = .t from hp, hand] at hs
    rw [hq] at hs
    exact hs.2
  · rintro ⟨hin, hres⟩
    rw [meaning, ← hs, hand]
    constructor
    · cases hpd : (splitNonSst keySchema p).pushdown with
      | none => rfl
      | some q =>
        unfold splitNonSst at hpd
        split at hpd
        · cases hpd
        · exfalso
          by_cases hl : keySchema.length = 1
          · obtain ⟨⟨kc, kt⟩, rfl⟩ := List.length_eq_one_iff.1 hl
            have hb : keyBoundsFor [(kc, kt)] .ff = some .none' := by
              simp only [keyBoundsFor]; rw [boundsFrom]
            have := (hin _ hb).1
            cases this
          · exact hff hl rfl
        · rename_i kc kt _ _
          obtain ⟨c, rfl, hl⟩ := hfit kc kt rfl
          cases hkey with
          | cons h _ =>
            obtain ⟨b, hb, himp⟩ := memory_pushdown h.2 h.1 p hl q hpd
            have g := (boundsFrom_sound h.2 h.1 p (fun e he => (hl e he).1) b hb).1
            exact himp ((inside_iff g (goodKey_one h.2)).1 (hin b hb))
        · cases hpd
    · cases hr : (splitNonSst keySchema p).residual with
      | none => rfl
      | some q => exact hres q hr

/-- **C09.** The range handed to the memtables is never inverted: the lower key is below the upper
one, or they are equal and both included. (`BTreeMap::range` panics on an inverted range.) -/
theorem range_never_inverted (keySchema : Schema) (p : Expr)
    (hgood : ∀ f ∈ keySchema, ∀ e ∈ leaves p, LeafGood f.1 e) {lo hi : Mem.Bnd Key}
    (h : keyRangeFor keySchema p = some (lo, hi)) :
    NotInverted lo hi := by
  unfold keyRangeFor at h
  cases hb : keyBoundsFor keySchema p with
  | none => rw [hb] at h; cases h
  | some b =>
    rw [hb] at h
    simp only at h
    unfold keyBoundsFor at hb
    split at hb
    · rename_i kc kt
      obtain ⟨g, hc⟩ := boundsFrom_consistent p (hgood (kc, kt) (by simp)) b hb
      cases he : b.empty with
      | true => simp [he] at h
      | false =>
        simp only [he, Bool.false_eq_true, if_false, Option.some.injEq, Prod.mk.injEq] at h
        obtain ⟨rfl, rfl⟩ := h
        have hc := hc he
        cases hl : b.lower with
        | none => cases hu : b.upper <;> simp [toBnd, NotInverted]
        | some l =>
          cases hu : b.upper with
          | none => cases hi : l.inclusive <;> simp [toBnd, hi, NotInverted]
          | some u =>
            have hc := hc l u hl hu
            have g1 := g.1 l hl
            have g2 := g.2 u hu
            have e1 := rowCmp_lt g1 g2
            have e2 := rowCmp_eq g1 g2
            unfold pos at hc
            rw [← e1, ← e2] at hc
            cases h1 : l.inclusive <;> cases h2 : u.inclusive <;> simp only [toBnd, h1, h2] <;>
              simp_all [NotInverted]
    · cases hb

/-! ## The hypotheses are met -/

/-- The literals a key column accepts: any signed integer literal for an `Int64` column, any unsigned
one for `UInt64`, both kinds of float (not NaN) for `Float64`, every string kind for string columns,
every binary kind for binary columns. -/
theorem literal_types (x y : Int) (a b : List Char) (l m : List Nat) (k : StrKind) (j : BinKind)
    (u v : Bool) (f g : Model.Num.F64) (hg : g.isNan = false) :
    KeyLit (.int .i64 x) (.int .i8 y) ∧ KeyLit (.int .i64 x) (.int .i16 y) ∧
    KeyLit (.int .i64 x) (.int .i32 y) ∧ KeyLit (.int .i64 x) (.int .i64 y) ∧
    KeyLit (.int .u64 x) (.int .u8 y) ∧ KeyLit (.int .u64 x) (.int .u16 y) ∧
    KeyLit (.int .u64 x) (.int .u32 y) ∧ KeyLit (.int .u64 x) (.int .u64 y) ∧
    KeyLit (.str a) (.str k b) ∧ KeyLit (.bin l) (.bin j m) ∧ KeyLit (.bool u) (.bool v) ∧
    KeyLit (.f64 f) (.f64 g) ∧ KeyLit (.f64 f) (.f32 g) :=
  ⟨⟨_, rfl, rfl, rfl⟩, ⟨_, rfl, rfl, rfl⟩, ⟨_, rfl, rfl, rfl⟩, ⟨_, rfl, rfl, rfl⟩,
   ⟨_, rfl, rfl, rfl⟩, ⟨_, rfl, rfl, rfl⟩, ⟨_, rfl, rfl, rfl⟩, ⟨_, rfl, rfl, rfl⟩,
   ⟨_, rfl, trivial, trivial⟩, ⟨_, rfl, trivial, trivial⟩, ⟨_, rfl, trivial, trivial⟩,
   ⟨_, rfl, hg, trivial⟩, ⟨_, rfl, hg, trivial⟩⟩

/-- `(id BETWEEN 3 AND 9 OR id IN (12, 20)) AND id > 4 AND x = 1`, on an `Int64` key `id`. -/
def demo : Expr :=
  .and [.or [.between "id" (.int .i64 3) (.int .i64 9) true, .inList "id" [.int .i32 20, .int .i64 12]],
    .cmp "id" .gt (.int .i64 4), .cmp "x" .eq (.int .i64 1)]

/-- The derived range is `4 < id <= 20`; nothing is dropped, and the disjunction and `x = 1` are left to
be checked. -/
example : keyRangeFor [("id", .int .i64)] demo =
    some (.excl [.int .i64 4], .incl [.int .i64 20]) := by
  simp only [keyRangeFor, keyBoundsFor, demo]
  simp [boundsFrom, boundsAnd, boundsOr, betweenBounds, inListBounds, cmpBounds, scalarToKey, minKey,
    maxKey, withRange, withLower, normalize, intersect, unionEnvelope, minLower, maxLower, maxUpper,
    minUpper, rowCmp, cellCmp, IntTy.keyable, Model.Num.cmpInt, toBnd]

theorem demo_leaves : leaves demo = [.between "id" (.int .i64 3) (.int .i64 9) true,
    .inList "id" [.int .i32 20, .int .i64 12], .cmp "id" .gt (.int .i64 4),
    .cmp "x" .eq (.int .i64 1)] := by
  simp [demo, leaves, leavesList]

/-- The hypotheses hold for every `Int64` key. -/
theorem demo_fits (x : Int) : FitsExactly [("id", .int .i64)] [.int .i64 x] demo := by
  intro kc kt h
  cases h
  refine ⟨_, rfl, fun e he => ?_⟩
  rw [demo_leaves] at he
  have hint : ∀ t v, t = IntTy.i64 ∨ t = IntTy.i32 → KeyLit (.int .i64 x) (.int t v) := by
    rintro t v (rfl | rfl) <;> exact ⟨_, rfl, rfl, rfl⟩
  simp only [List.mem_cons, List.not_mem_nil, or_false] at he
  rcases he with rfl | rfl | rfl | rfl
  all_goals refine ⟨fun _ => ⟨fun v hv _ => ?_, ?_⟩, fun _ v hv => ?_⟩
  all_goals try (rintro ⟨_, h⟩; cases h)
  all_goals simp only [literals, List.mem_cons, List.not_mem_nil, or_false] at hv
  all_goals (rcases hv with rfl | rfl <;> first | rfl | exact hint _ _ (by simp))

example (x : Int) (env : String → Val) (h : env "id" = .num (.fin x)) :
    IsKey [("id", .int .i64)] env [.int .i64 x] := .cons ⟨h, rfl⟩ .nil

/-- A row with `id = 12` and `x = 1` matches; a file with the keys 10 to 15 encloses it. -/
example (env : String → Val) (h : env "id" = .num (.fin 12)) (hx : env "x" = .num (.fin 1)) :
    meaning env demo = .t ∧ rowCmp [.int .i64 10] [.int .i64 12] ≠ .gt ∧ rowCmp [.int .i64 12] [.int .i64 15] ≠ .gt ∧
    GoodKey [.int .i64 10] ∧ Fits [("id", .int .i64)] [.int .i64 12] demo := by
  refine ⟨?_, by decide, by decide, goodKey_one rfl, fun kc kt hk => ?_⟩
  · simp [demo, meaning, kleene, kleeneList, leafMeaning, h, hx, scalarVal, mCmp, cmpVal, cmpReal, opHolds, mAnd, mOr]
    rw [if_neg (by decide), if_pos (by decide)]
  · obtain ⟨c, h1, h2⟩ := demo_fits 12 kc kt hk
    exact ⟨c, h1, fun e he => (h2 e he).1⟩

/-- `id > 5 AND id < 3` has the empty range. -/
example : (keyBoundsFor [("id", .int .i64)] (.and [.cmp "id" .gt (.int .i64 5), .cmp "id" .lt (.int .i64 3)])).map (·.empty) =
    some true := by rfl

/-- The range of the example is not inverted, by the theorem. -/
example : ∀ f ∈ [("id", DType.int .i64)], ∀ e ∈ leaves demo, LeafGood f.1 e := by
  intro f hf e he
  rw [List.mem_singleton.1 hf]
  intro hcol v hv k hk
  obtain ⟨c, hc, hl⟩ := demo_fits 0 "id" (.int .i64) rfl
  cases hc
  obtain ⟨d, h1, h2, _⟩ := ((hl e he).1 hcol).1 v hv (scalarToKey_notNull hk)
  rw [h1] at hk; cases hk
  exact goodKey_one h2

/-! ## Where the code departs from the property -/

/-- On an `Int32` key column (a supported key type) literals become `Int64` key cells, and cells of
different types compare by type, not by value. So for **every** value `x`, the row with key `x` satisfies
`id = x` but is outside the derived range, and is dropped; the same for `id <= x`. -/
theorem narrow_key_column_drops_rows (x : Int) (env : String → Val) (h : env "id" = .num (.fin x)) :
    IsKey [("id", .int .i32)] env [.int .i32 x] ∧
    meaning env (.cmp "id" .eq (.int .i32 x)) = .t ∧
    ¬ InsideOpt (keyBoundsFor [("id", .int .i32)] (.cmp "id" .eq (.int .i32 x))) [.int .i32 x] ∧
    meaning env (.cmp "id" .le (.int .i32 x)) = .t ∧
    ¬ InsideOpt (keyBoundsFor [("id", .int .i32)] (.cmp "id" .le (.int .i32 x))) [.int .i32 x] := by
  have hm : ∀ op, opHolds op .eq → meaning env (.cmp "id" op (.int .i32 x)) = .t := by
    intro op ho
    rw [meaning_leaf rfl]
    simp [leafMeaning, h, scalarVal, mCmp, cmpVal, cmpReal, ho]
  refine ⟨.cons ⟨h, rfl⟩ .nil, hm _ rfl, ?_, hm _ (.inr rfl), ?_⟩
  · intro hi
    have hb : keyBoundsFor [("id", .int .i32)] (.cmp "id" .eq (.int .i32 x)) =
        some (withRange ⟨[.int .i64 x], true⟩ ⟨[.int .i64 x], true⟩) := by
      simp only [keyBoundsFor]; rw [boundsFrom]; simp [cmpBounds, scalarToKey]
    have := (hi _ hb).2.2
    rw [withRange, normalize_upper] at this
    rcases this _ rfl with h' | ⟨_, h'⟩ <;>
      simp [rowCmp, cellCmp, tag, Model.Num.cmpNat] at h'
  · intro hi
    have hb : keyBoundsFor [("id", .int .i32)] (.cmp "id" .le (.int .i32 x)) =
        some (withUpper [.int .i64 x] true) := by
      simp only [keyBoundsFor]; rw [boundsFrom]; simp [cmpBounds, scalarToKey]
    rcases (hi _ hb).2.2 _ rfl with h' | ⟨_, h'⟩ <;>
      simp [rowCmp, cellCmp, tag, Model.Num.cmpNat] at h'

/-- And `id > y` lets through every row, whatever its key, with nothing left to check it. -/
theorem narrow_key_column_keeps_wrong_rows (x y : Int) (env : String → Val)
    (h : env "id" = .num (.fin x)) (hxy : x ≤ y) :
    meaning env (.cmp "id" .gt (.int .i32 y)) = .f ∧
    InsideOpt (keyBoundsFor [("id", .int .i32)] (.cmp "id" .gt (.int .i32 y))) [.int .i32 x] ∧
    (splitNonSst [("id", .int .i32)] (.cmp "id" .gt (.int .i32 y))).residual = none := by
  refine ⟨?_, ?_, ?_⟩
  · rw [meaning_leaf rfl]
    rcases lt_or_eq_of_le hxy with hlt | rfl
    · simp [leafMeaning, h, scalarVal, mCmp, cmpVal, cmpReal, hlt, opHolds]
    · simp [leafMeaning, h, scalarVal, mCmp, cmpVal, cmpReal, opHolds]
  · intro b hb
    simp only [keyBoundsFor] at hb
    rw [boundsFrom] at hb
    simp [cmpBounds, scalarToKey, withLower] at hb
    subst hb
    refine ⟨rfl, ?_, (fun _ h => by cases h)⟩
    intro lo hlo
    cases hlo
    exact .inl (by simp [rowCmp, cellCmp, tag, Model.Num.cmpNat])
  · simp only [splitNonSst]; rw [splitNonSstInner]; simp [Split.leaf]

/-- A comparison of the key with a null literal is unknown for every row, but it yields no range and
is taken as checked by the range, so every row in memory is returned. -/
theorem null_literal_keeps_all_rows (t : DType) (op : CmpOp) (hop : op ≠ .ne) (c : Cell)
    (env : String → Val) :
    meaning env (.cmp "id" op (.typedNull t)) = .u ∧
    InsideOpt (keyBoundsFor [("id", t)] (.cmp "id" op (.typedNull t))) [c] ∧
    (splitNonSst [("id", t)] (.cmp "id" op (.typedNull t))).residual = none := by
  refine ⟨?_, ?_, ?_⟩
  · rw [meaning_leaf rfl]
    simp [leafMeaning, scalarVal, mCmp, cmpVal_null_right]
  · intro b hb
    simp only [keyBoundsFor] at hb
    rw [boundsFrom] at hb
    simp [cmpBounds, scalarToKey] at hb
  · simp only [splitNonSst]; rw [splitNonSstInner]; simp [Split.leaf, hop]

/-- On a table with a composite key, the predicate `FALSE` yields no range and leaves nothing to be
checked, so every row in memory is returned. -/
theorem false_matches_composite_keys (f g : String × DType) (rest : Schema) (key : List Cell)
    (env : String → Val) :
    meaning env .ff = .f ∧ InsideOpt (keyBoundsFor (f :: g :: rest) .ff) key ∧
    (splitNonSst (f :: g :: rest) .ff).residual = none ∧
    ∀ schema, (splitRowFilter schema .ff).residual = none := by
  refine ⟨?_, (fun b hb => by cases hb), rfl, fun schema => ?_⟩
  · rw [meaning, kleene]
  · rw [splitRowFilter]

end Tonbo.Props.C09
