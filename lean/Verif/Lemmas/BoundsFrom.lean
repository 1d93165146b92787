import Verif.Lemmas.Bounds

set_option linter.unusedSectionVars false

/-!
# Bounds derived from predicates
-/

namespace Tonbo.Lemmas.Bounds
open Tonbo.Spec Tonbo.Model.Pred Tonbo.Model.Keys Tonbo.Model.Bounds Tonbo.Lemmas.Pred
open Tonbo.Lemmas.PredEval Tonbo.Lemmas.Keys Tonbo.Lemmas.Str

theorem cmpList_bytes (s t : List Char) :
    cmpList (s.map Char.toNat) (t.map Char.toNat) = bytesCmp (Model.Str.bytes s) (Model.Str.bytes t) := by
  unfold cmpList
  split
  · rename_i h; exact (bytesCmp_lt.2 ((bytes_lt_iff s t).2 h)).symm
  · rename_i h
    split
    · rename_i h'
      have : s = t := List.map_injective_iff.2 (fun a b hab => Char.toNat_inj.mp hab) h'
      rw [this]; exact (bytesCmp_eq.2 rfl).symm
    · rename_i h'
      cases hc : bytesCmp (Model.Str.bytes s) (Model.Str.bytes t) with
      | lt => exact absurd ((bytes_lt_iff s t).1 (bytesCmp_lt.1 hc)) h
      | eq => exact absurd (by rw [bytes_inj (bytesCmp_eq.1 hc)]) h'
      | gt => rfl

theorem cmpList_bin (s t : List Nat) : cmpList s t = bytesCmp s t := by
  unfold cmpList
  split
  · rename_i h; exact (bytesCmp_lt.2 h).symm
  · rename_i h
    split
    · rename_i h'; exact (bytesCmp_eq.2 h').symm
    · rename_i h'
      cases hc : bytesCmp s t with
      | lt => exact absurd (bytesCmp_lt.1 hc) h
      | eq => exact absurd (bytesCmp_eq.1 hc) h'
      | gt => rfl

/-- Cells of one type compare by value. -/
theorem cmpVal_cells {c d : Cell} (hc : Good c) (hd : Good d) (h : SameType c d) :
    cmpVal (cellVal c) (cellVal d) = some (cellCmp c d) := by
  cases same_of_tag hc hd (Lemmas.KeyOrder.sameType_tag h) with
  | str x y => simp [cellVal, cmpVal, cellCmp, cmpList_bytes]
  | bin x y => simp [cellVal, cmpVal, cellCmp, cmpList_bin]
  | bool x y => cases x <;> cases y <;> simp [cellVal, cmpVal, cellCmp, boolCmp] <;> decide
  | int t x y => simp [cellVal, cmpVal, cellCmp, show t.keyable = true from hc, ← cmpInt_val]
  | f32 x y =>
    have h1 : x.isNan = false := hc
    have h2 : y.isNan = false := hd
    simp only [cellVal, cmpVal, cellCmp, floatsCmp]
    rw [← fcmp_val]
    simp [fcmp, h1, h2]
  | f64 x y =>
    have h1 : x.isNan = false := hc
    have h2 : y.isNan = false := hd
    simp only [cellVal, cmpVal, cellCmp, floatsCmp]
    rw [← fcmp_val]
    simp [fcmp, h1, h2]

theorem mCmp_iff {c d : Cell} (hc : Good c) (hd : Good d) (h : SameType c d) (op : CmpOp) :
    mCmp op (cellVal c) (cellVal d) = .t ↔ opHolds op (cellCmp c d) := by
  unfold mCmp
  rw [cmpVal_cells hc hd h]
  simp only
  split <;> simp_all

/-- The literal converts to a key cell of the type of the cell `c`. -/
def KeyLit (c : Cell) (v : Scalar) : Prop :=
  ∃ d, scalarToKey v = some [d] ∧ Good d ∧ SameType c d

theorem scalarToKey_val {v : Scalar} {d : Cell} (h : scalarToKey v = some [d]) :
    scalarVal v = cellVal d := by
  cases v with
  | null => cases h
  | typedNull t => cases h
  | bool b => cases h; rfl
  | int t x => cases t <;> (cases h; rfl)
  | f32 x => cases h; rfl
  | f64 x => cases h; rfl
  | str k s => cases h; rfl
  | bin k s => cases h; rfl

theorem scalarToKey_notNull {v : Scalar} {k : Key} (h : scalarToKey v = some k) : v.isNull = false := by
  cases v <;> first | rfl | cases h

theorem scalarToKey_null {v : Scalar} (h : v.isNull = true) : scalarToKey v = none := by
  cases v <;> first | rfl | cases h

theorem pos_lt {c d : Cell} : pos [c] < pos [d] ↔ rank c < rank d := by
  simp [pos, List.cons_lt_cons_iff]
theorem pos_eq {c d : Cell} : pos [c] = pos [d] ↔ rank c = rank d := by simp [pos]

theorem goodKey_one {c : Cell} (h : Good c) : GoodKey [c] := by
  intro x hx; rw [List.mem_singleton.1 hx]; exact h

theorem opHolds_pos {c d : Cell} (hc : Good c) (hd : Good d) (op : CmpOp) :
    opHolds op (cellCmp c d) ↔
      match op with
      | .eq => pos [c] = pos [d]
      | .ne => pos [c] ≠ pos [d]
      | .lt => pos [c] < pos [d]
      | .le => pos [c] < pos [d] ∨ pos [c] = pos [d]
      | .gt => pos [d] < pos [c]
      | .ge => pos [d] < pos [c] ∨ pos [c] = pos [d] := by
  cases op <;> simp only [opHolds, pos_lt, pos_eq, cellCmp_lt hc hd, cellCmp_eq hc hd,
    cellCmp_gt hc hd, ne_eq]

/-! ## Least and greatest of a list of keys -/

theorem min_fold (ks : List Key) : ∀ (m : Key), GoodKey m → (∀ k ∈ ks, GoodKey k) →
    let r := ks.foldl (fun m x => if rowCmp x m = .lt then x else m) m
    (r = m ∨ r ∈ ks) ∧ pos r ≤ pos m ∧ ∀ k ∈ ks, pos r ≤ pos k := by
  induction ks with
  | nil => intro m _ _; simp
  | cons x ks ih =>
    intro m hm hks
    have hx := hks x List.mem_cons_self
    have hks' := fun k hk => hks k (List.mem_cons_of_mem _ hk)
    simp only [List.foldl_cons]
    split
    · rename_i hlt
      have hlt : pos x < pos m := (rowCmp_lt hx hm).1 hlt
      obtain ⟨h1, h2, h3⟩ := ih x hx hks'
      refine ⟨?_, h2.trans hlt.le, ?_⟩
      · rcases h1 with h1 | h1
        · right; rw [h1]; exact List.mem_cons_self
        · right; exact List.mem_cons_of_mem _ h1
      · intro k hk
        rcases List.mem_cons.1 hk with rfl | hk
        · exact h2
        · exact h3 k hk
    · rename_i hlt
      have hle : pos m ≤ pos x := not_lt.1 (fun h => hlt ((rowCmp_lt hx hm).2 h))
      obtain ⟨h1, h2, h3⟩ := ih m hm hks'
      refine ⟨h1.imp id (List.mem_cons_of_mem _), h2, ?_⟩
      intro k hk
      rcases List.mem_cons.1 hk with rfl | hk
      · exact h2.trans hle
      · exact h3 k hk

theorem max_fold (ks : List Key) : ∀ (m : Key), GoodKey m → (∀ k ∈ ks, GoodKey k) →
    let r := ks.foldl (fun m x => if rowCmp x m = .lt then m else x) m
    (r = m ∨ r ∈ ks) ∧ pos m ≤ pos r ∧ ∀ k ∈ ks, pos k ≤ pos r := by
  induction ks with
  | nil => intro m _ _; simp
  | cons x ks ih =>
    intro m hm hks
    have hx := hks x List.mem_cons_self
    have hks' := fun k hk => hks k (List.mem_cons_of_mem _ hk)
    simp only [List.foldl_cons]
    split
    · rename_i hlt
      have hlt : pos x < pos m := (rowCmp_lt hx hm).1 hlt
      obtain ⟨h1, h2, h3⟩ := ih m hm hks'
      refine ⟨h1.imp id (List.mem_cons_of_mem _), h2, ?_⟩
      intro k hk
      rcases List.mem_cons.1 hk with rfl | hk
      · exact hlt.le.trans h2
      · exact h3 k hk
    · rename_i hlt
      have hle : pos m ≤ pos x := not_lt.1 (fun h => hlt ((rowCmp_lt hx hm).2 h))
      obtain ⟨h1, h2, h3⟩ := ih x hx hks'
      refine ⟨?_, hle.trans h2, ?_⟩
      · rcases h1 with h1 | h1
        · right; rw [h1]; exact List.mem_cons_self
        · right; exact List.mem_cons_of_mem _ h1
      · intro k hk
        rcases List.mem_cons.1 hk with rfl | hk
        · exact h2
        · exact h3 k hk

theorem minKey_spec {ks : List Key} {m : Key} (h : minKey ks = some m) (hg : ∀ k ∈ ks, GoodKey k) :
    m ∈ ks ∧ ∀ k ∈ ks, pos m ≤ pos k := by
  cases ks with
  | nil => cases h
  | cons x ks =>
    cases h
    obtain ⟨h1, h2, h3⟩ := min_fold ks x (hg x List.mem_cons_self)
      (fun k hk => hg k (List.mem_cons_of_mem _ hk))
    refine ⟨?_, ?_⟩
    · rcases h1 with h1 | h1
      · rw [h1]; exact List.mem_cons_self
      · exact List.mem_cons_of_mem _ h1
    · intro k hk
      rcases List.mem_cons.1 hk with rfl | hk
      · exact h2
      · exact h3 k hk

theorem maxKey_spec {ks : List Key} {m : Key} (h : maxKey ks = some m) (hg : ∀ k ∈ ks, GoodKey k) :
    m ∈ ks ∧ ∀ k ∈ ks, pos k ≤ pos m := by
  cases ks with
  | nil => cases h
  | cons x ks =>
    cases h
    obtain ⟨h1, h2, h3⟩ := max_fold ks x (hg x List.mem_cons_self)
      (fun k hk => hg k (List.mem_cons_of_mem _ hk))
    refine ⟨?_, ?_⟩
    · rcases h1 with h1 | h1
      · rw [h1]; exact List.mem_cons_self
      · exact List.mem_cons_of_mem _ h1
    · intro k hk
      rcases List.mem_cons.1 hk with rfl | hk
      · exact h2
      · exact h3 k hk

theorem mapM_mem {vs : List Scalar} {ks : List Key} (h : vs.mapM scalarToKey = some ks) :
    (∀ v ∈ vs, ∃ k ∈ ks, scalarToKey v = some k) ∧ ∀ k ∈ ks, ∃ v ∈ vs, scalarToKey v = some k := by
  induction vs generalizing ks with
  | nil => simp at h; subst h; simp
  | cons v vs ih =>
    rw [List.mapM_cons] at h
    cases hv : scalarToKey v with
    | none => simp [hv] at h
    | some k =>
      cases hvs : vs.mapM scalarToKey with
      | none => simp [hv, hvs] at h
      | some ks' =>
        simp [hv, hvs] at h
        subst h
        obtain ⟨h1, h2⟩ := ih hvs
        constructor
        · intro w hw
          rcases List.mem_cons.1 hw with rfl | hw
          · exact ⟨k, List.mem_cons_self, hv⟩
          · obtain ⟨k', hk', he⟩ := h1 w hw
            exact ⟨k', List.mem_cons_of_mem _ hk', he⟩
        · intro w hw
          rcases List.mem_cons.1 hw with rfl | hw
          · exact ⟨v, List.mem_cons_self, hv⟩
          · obtain ⟨k', hk', he⟩ := h2 w hw
            exact ⟨k', List.mem_cons_of_mem _ hk', he⟩

/-! ## Leaves -/

/-- What is required of a leaf on the key column, for a row with key cell `c`. -/
def LeafKeyed (keyCol : String) (keyType : DType) (c : Cell) (e : Expr) : Prop :=
  leafCol e = keyCol →
    (∀ v ∈ literals e, v.isNull = false → KeyLit c v) ∧
    ((∃ pre, e = .startsWith keyCol pre) → isStringType keyType = true → ∃ s, c = .str s)

/-- Bounds are fine for a predicate. -/
def Sound (c : Cell) (env : String → Val) (b : KeyBounds) (p : Expr) : Prop :=
  GoodBounds b ∧ (meaning env p = .t → In b (pos [c]))

theorem meaning_leaf {env : String → Val} {e : Expr} (h : isLeaf e = true) :
    meaning env e = leafMeaning env e := by rw [meaning, kleene_leaf h]

variable {keyCol : String} {keyType : DType} {c : Cell} {env : String → Val}

/-- Exact bounds of a comparison. -/
theorem cmp_bounds (hc : Good c) (henv : env keyCol = cellVal c) {op : CmpOp} {v : Scalar}
    (hv : v.isNull = false → KeyLit c v) {b : KeyBounds} (h : cmpBounds op v = some b) :
    GoodBounds b ∧ (mCmp op (env keyCol) (scalarVal v) = .t ↔ In b (pos [c])) := by
  unfold cmpBounds at h
  cases hk : scalarToKey v with
  | none => rw [hk] at h; cases h
  | some k =>
    obtain ⟨d, h1, h2, h3⟩ := hv (scalarToKey_notNull hk)
    rw [h1] at hk
    cases hk
    rw [h1] at h
    have gd := goodKey_one h2
    rw [henv, scalarToKey_val h1, mCmp_iff hc h2 h3, opHolds_pos hc h2]
    cases op <;> cases h
    · refine ⟨good_withRange gd gd, ?_⟩
      rw [in_withRange gd gd]
      simp only [Above, Below, true_and]
      constructor
      · intro h; exact ⟨.inr h.symm, .inr h⟩
      · rintro ⟨h | h, h' | h'⟩
        · exact absurd (h.trans h') (lt_irrefl _)
        · exact h'
        · exact h.symm
        · exact h'
    · refine ⟨good_withUpper gd, ?_⟩
      rw [in_withUpper]; simp
    · refine ⟨good_withUpper gd, ?_⟩
      rw [in_withUpper]; simp
    · refine ⟨good_withLower gd, ?_⟩
      rw [in_withLower]; simp
    · refine ⟨good_withLower gd, ?_⟩
      rw [in_withLower]; simp [eq_comm]

theorem between_bounds (hc : Good c) (henv : env keyCol = cellVal c) {lo hi : Scalar} {incl : Bool}
    (h1 : lo.isNull = false → KeyLit c lo) (h2 : hi.isNull = false → KeyLit c hi) {b : KeyBounds}
    (h : betweenBounds lo hi incl = some b) :
    GoodBounds b ∧ (leafMeaning env (.between keyCol lo hi incl) = .t ↔ In b (pos [c])) := by
  unfold betweenBounds at h
  cases hl : scalarToKey lo with
  | none => rw [hl] at h; cases h
  | some l =>
    cases hh : scalarToKey hi with
    | none => rw [hl, hh] at h; cases h
    | some u =>
      obtain ⟨d, a1, a2, a3⟩ := h1 (scalarToKey_notNull hl)
      obtain ⟨e, b1, b2, b3⟩ := h2 (scalarToKey_notNull hh)
      rw [a1] at hl; rw [b1] at hh
      cases hl; cases hh
      rw [a1, b1] at h
      cases h
      have gd := goodKey_one a2
      have ge := goodKey_one b2
      refine ⟨good_withRange gd ge, ?_⟩
      rw [in_withRange gd ge]
      simp only [leafMeaning]
      rw [mAnd_true]
      simp only [List.mem_cons, List.not_mem_nil, or_false, forall_eq_or_imp, forall_eq]
      rw [henv, scalarToKey_val a1, scalarToKey_val b1, mCmp_iff hc a2 a3, mCmp_iff hc b2 b3,
        opHolds_pos hc a2, opHolds_pos hc b2]
      cases incl
      · simp [Above, Below]
      · simp [Above, Below, eq_comm]

theorem prefix_bounds (henv : env keyCol = cellVal c) {pre : List Char}
    (hs : isStringType keyType = true → ∃ s, c = .str s) {b : KeyBounds}
    (h : prefixBounds keyType pre = some b) :
    GoodBounds b ∧ (leafMeaning env (.startsWith keyCol pre) = .t ↔ In b (pos [c])) := by
  unfold prefixBounds at h
  split at h
  · cases h
  · rename_i hp
    simp only [Bool.or_eq_true, Bool.not_eq_true', not_or, Bool.not_eq_false] at hp
    obtain ⟨s, rfl⟩ := hs hp.1
    have hgood : ∀ x : List Char, GoodKey [.str x] := fun x => goodKey_one trivial
    have hm : leafMeaning env (.startsWith keyCol pre) = .t ↔ pre <+: s := by
      simp only [leafMeaning, henv, cellVal]
      split <;> simp_all
    have hlt : ∀ x y : List Char, pos [.str x] < pos [.str y] ↔
        Model.Str.bytes x < Model.Str.bytes y := by
      intro x y; rw [pos_lt]; simp [rank, rank_lt]
    have heq : ∀ x y : List Char, pos [.str x] = pos [.str y] ↔
        Model.Str.bytes x = Model.Str.bytes y := by
      intro x y; rw [pos_eq]; simp [rank]
    have hle : ∀ x y : List Char, (Model.Str.bytes x < Model.Str.bytes y ∨
        Model.Str.bytes x = Model.Str.bytes y) ↔ Model.Str.bytes x ≤ Model.Str.bytes y :=
      fun x y => le_iff_lt_or_eq.symm
    rw [hm]
    split at h
    · rename_i nx hnx
      cases h
      refine ⟨good_withRange (hgood _) (hgood _), ?_⟩
      rw [in_withRange (hgood _) (hgood _)]
      simp only [Above, Below, true_and, Bool.false_eq_true, false_and, or_false]
      rw [hlt, heq, hlt, hle, Props.C10.prefix_range pre nx s hnx, bytes_prefix]
    · rename_i hnx
      cases h
      refine ⟨good_withLower (hgood _), ?_⟩
      rw [in_withLower]
      simp only [true_and]
      rw [hlt, heq, hle, Props.C10.prefix_range_unbounded pre s hnx, bytes_prefix]

theorem inList_bounds (hc : Good c) (henv : env keyCol = cellVal c) {vs : List Scalar}
    (hv : ∀ v ∈ vs, v.isNull = false → KeyLit c v) {b : KeyBounds} (h : inListBounds vs = some b) :
    GoodBounds b ∧ (leafMeaning env (.inList keyCol vs) = .t → In b (pos [c])) := by
  unfold inListBounds at h
  have hm : leafMeaning env (.inList keyCol vs) =
      mOr (vs.map (fun v => mCmp .eq (cellVal c) (scalarVal v))) := by
    simp only [leafMeaning, henv]
    cases c <;> rfl
  rw [hm, mOr_true]
  split at h
  · rename_i he
    cases h
    refine ⟨good_none', fun hx => ?_⟩
    rw [List.isEmpty_iff.1 he] at hx
    simp at hx
  · split at h
    · cases h
    · rename_i ks hks
      obtain ⟨m1, m2⟩ := mapM_mem hks
      have hg : ∀ k ∈ ks, GoodKey k := by
        intro k hk
        obtain ⟨v, hvm, hvk⟩ := m2 k hk
        obtain ⟨d, h1, h2, _⟩ := hv v hvm (scalarToKey_notNull hvk)
        rw [h1] at hvk; cases hvk
        exact goodKey_one h2
      split at h
      · rename_i a z ha hz
        cases h
        obtain ⟨a1, a2⟩ := minKey_spec ha hg
        obtain ⟨z1, z2⟩ := maxKey_spec hz hg
        refine ⟨good_withRange (hg a a1) (hg z z1), fun hx => ?_⟩
        obtain ⟨v, hvm, hvt⟩ := List.mem_map.1 hx
        obtain ⟨k, hk, hvk⟩ := m1 v hvm
        obtain ⟨d, h1, h2, h3⟩ := hv v hvm (scalarToKey_notNull hvk)
        rw [h1] at hvk; cases hvk
        rw [scalarToKey_val h1, mCmp_iff hc h2 h3, opHolds_pos hc h2] at hvt
        rw [in_withRange (hg a a1) (hg z z1)]
        simp only at hvt
        rw [hvt]
        exact ⟨(lt_or_eq_of_le (a2 _ hk)).imp id (fun h => ⟨rfl, h⟩),
          (lt_or_eq_of_le (z2 _ hk)).imp id (fun h => ⟨rfl, h⟩)⟩
      · cases h

/-! ## Connectives -/

theorem boundsAnd_sound : ∀ (cs : List Expr) (acc : Option KeyBounds) (P : Prop),
    (∀ a, acc = some a → GoodBounds a ∧ (P → In a (pos [c]))) →
    (∀ x ∈ cs, ∀ b, boundsFrom keyCol keyType x = some b → Sound c env b x) →
    ∀ b, boundsAnd keyCol keyType cs acc = some b →
      GoodBounds b ∧ ((P ∧ ∀ x ∈ cs, meaning env x = .t) → In b (pos [c]))
  | [], acc, P, ha, _, b, h => by
    rw [boundsAnd] at h
    exact ⟨(ha b h).1, fun hp => (ha b h).2 hp.1⟩
  | x :: cs, acc, P, ha, hs, b, h => by
    rw [boundsAnd] at h
    have hs' := fun y hy => hs y (List.mem_cons_of_mem _ hy)
    cases hb : boundsFrom keyCol keyType x with
    | none =>
      rw [hb] at h
      obtain ⟨h1, h2⟩ := boundsAnd_sound cs acc P ha hs' b h
      exact ⟨h1, fun hp => h2 ⟨hp.1, fun y hy => hp.2 y (List.mem_cons_of_mem _ hy)⟩⟩
    | some bx =>
      rw [hb] at h
      obtain ⟨s1, s2⟩ := hs x List.mem_cons_self bx hb
      cases acc with
      | none =>
        obtain ⟨h1, h2⟩ := boundsAnd_sound cs (some bx) (meaning env x = .t)
          (fun a e => by cases e; exact ⟨s1, s2⟩) hs' b h
        exact ⟨h1, fun hp => h2 ⟨hp.2 x List.mem_cons_self,
          fun y hy => hp.2 y (List.mem_cons_of_mem _ hy)⟩⟩
      | some prev =>
        obtain ⟨p1, p2⟩ := ha prev rfl
        obtain ⟨h1, h2⟩ := boundsAnd_sound cs (some (intersect prev bx)) (P ∧ meaning env x = .t)
          (fun a e => by
            cases e
            exact ⟨good_intersect p1 s1, fun hp => (in_intersect p1 s1 _).2 ⟨p2 hp.1, s2 hp.2⟩⟩)
          hs' b h
        exact ⟨h1, fun hp => h2 ⟨⟨hp.1, hp.2 x List.mem_cons_self⟩,
          fun y hy => hp.2 y (List.mem_cons_of_mem _ hy)⟩⟩

theorem boundsOr_sound : ∀ (cs : List Expr) (acc : Option KeyBounds) (P : Prop),
    (acc = none → ¬ P) →
    (∀ a, acc = some a → GoodBounds a ∧ (P → In a (pos [c]))) →
    (∀ x ∈ cs, ∀ b, boundsFrom keyCol keyType x = some b → Sound c env b x) →
    ∀ b, boundsOr keyCol keyType cs acc = some b →
      GoodBounds b ∧ ((P ∨ ∃ x ∈ cs, meaning env x = .t) → In b (pos [c]))
  | [], acc, P, _, ha, _, b, h => by
    rw [boundsOr] at h
    exact ⟨(ha b h).1, fun hp => (ha b h).2 (by simpa using hp)⟩
  | x :: cs, acc, P, hn, ha, hs, b, h => by
    rw [boundsOr] at h
    have hs' := fun y hy => hs y (List.mem_cons_of_mem _ hy)
    cases hb : boundsFrom keyCol keyType x with
    | none => rw [hb] at h; cases h
    | some bx =>
      rw [hb] at h
      obtain ⟨s1, s2⟩ := hs x List.mem_cons_self bx hb
      cases acc with
      | none =>
        obtain ⟨h1, h2⟩ := boundsOr_sound cs (some bx) (meaning env x = .t) (fun e => by cases e)
          (fun a e => by cases e; exact ⟨s1, s2⟩) hs' b h
        refine ⟨h1, fun hp => h2 ?_⟩
        rcases hp with hp | ⟨y, hy, hp⟩
        · exact absurd hp (hn rfl)
        · rcases List.mem_cons.1 hy with rfl | hy
          · exact .inl hp
          · exact .inr ⟨y, hy, hp⟩
      | some prev =>
        obtain ⟨p1, p2⟩ := ha prev rfl
        obtain ⟨h1, h2⟩ := boundsOr_sound cs (some (unionEnvelope prev bx)) (P ∨ meaning env x = .t)
          (fun e => by cases e)
          (fun a e => by
            cases e
            exact ⟨good_union p1 s1, fun hp => in_union p1 s1 _ (hp.imp p2 s2)⟩)
          hs' b h
        refine ⟨h1, fun hp => h2 ?_⟩
        rcases hp with hp | ⟨y, hy, hp⟩
        · exact .inl (.inl hp)
        · rcases List.mem_cons.1 hy with rfl | hy
          · exact .inl (.inr hp)
          · exact .inr ⟨y, hy, hp⟩

/-- The bounds of a predicate are sound. -/
theorem boundsFrom_sound (hc : Good c) (henv : env keyCol = cellVal c) (p : Expr)
    (h : ∀ e ∈ leaves p, LeafKeyed keyCol keyType c e) :
    ∀ b, boundsFrom keyCol keyType p = some b → Sound c env b p := by
  induction p using Expr.ind with
  | hleaf e he =>
    intro b hb
    have hk := h e (by rw [leaves_leaf he]; simp)
    unfold Sound
    rw [meaning_leaf he]
    cases e with
    | cmp col op v =>
      rw [boundsFrom] at hb
      split at hb
      · rename_i hcol
        subst hcol
        obtain ⟨h1, h2⟩ := cmp_bounds hc henv ((hk rfl).1 v (by simp [literals])) hb
        exact ⟨h1, h2.1⟩
      · cases hb
    | between col lo hi i =>
      rw [boundsFrom] at hb
      split at hb
      · rename_i hcol
        subst hcol
        obtain ⟨h1, h2⟩ := between_bounds hc henv ((hk rfl).1 lo (by simp [literals]))
          ((hk rfl).1 hi (by simp [literals])) hb
        exact ⟨h1, h2.1⟩
      · cases hb
    | inList col vs =>
      rw [boundsFrom] at hb
      split at hb
      · rename_i hcol
        subst hcol
        exact inList_bounds hc henv (fun v hv => (hk rfl).1 v hv) hb
      · cases hb
    | startsWith col pre =>
      rw [boundsFrom] at hb
      split at hb
      · rename_i hcol
        subst hcol
        obtain ⟨h1, h2⟩ := prefix_bounds henv ((hk rfl).2 ⟨pre, rfl⟩) hb
        exact ⟨h1, h2.1⟩
      · cases hb
    | _ => first | (simp [isLeaf] at he; done) | (simp [boundsFrom] at hb)
  | htt => intro b hb; (simp [boundsFrom] at hb)
  | hff =>
    intro b hb
    rw [boundsFrom] at hb; cases hb
    refine ⟨good_none', fun hm => ?_⟩
    rw [meaning, kleene] at hm; cases hm
  | hand cs ih =>
    intro b hb
    rw [boundsFrom] at hb
    obtain ⟨h1, h2⟩ := boundsAnd_sound (c := c) (env := env) cs none True (fun a e => by cases e)
      (fun x hx b' hb' => ih x hx (fun e he => h e (by
        rw [leaves, leavesList_eq]; exact List.mem_flatMap.2 ⟨x, hx, he⟩)) b' hb') b hb
    refine ⟨h1, fun hm => h2 ⟨trivial, fun x hx => ?_⟩⟩
    rw [meaning, kleene, kleeneList_eq, mAnd_true] at hm
    exact hm _ (List.mem_map.2 ⟨x, hx, rfl⟩)
  | hor cs ih =>
    intro b hb
    rw [boundsFrom] at hb
    obtain ⟨h1, h2⟩ := boundsOr_sound (c := c) (env := env) cs none False (fun _ h => h)
      (fun a e => by cases e)
      (fun x hx b' hb' => ih x hx (fun e he => h e (by
        rw [leaves, leavesList_eq]; exact List.mem_flatMap.2 ⟨x, hx, he⟩)) b' hb') b hb
    refine ⟨h1, fun hm => h2 (.inr ?_)⟩
    rw [meaning, kleene, kleeneList_eq, mOr_true] at hm
    obtain ⟨x, hx, he⟩ := List.mem_map.1 hm
    exact ⟨x, hx, he⟩
  | hnot e ih => intro b hb; (simp [boundsFrom] at hb)

/-! ## The memtable split -/

/-- As `LeafKeyed`, and no literal is null. -/
def LeafExact (keyCol : String) (keyType : DType) (c : Cell) (e : Expr) : Prop :=
  LeafKeyed keyCol keyType c e ∧ (leafCol e = keyCol → ∀ v ∈ literals e, v.isNull = false)

theorem boundsAnd_in : ∀ (cs : List Expr) (acc : Option KeyBounds),
    (∀ a, acc = some a → GoodBounds a) →
    (∀ x ∈ cs, ∀ b, boundsFrom keyCol keyType x = some b → GoodBounds b) →
    (acc.isSome = true ∨ (∃ x ∈ cs, (boundsFrom keyCol keyType x).isSome = true) →
      (boundsAnd keyCol keyType cs acc).isSome = true) ∧
    ∀ b, boundsAnd keyCol keyType cs acc = some b → ∀ k, In b k →
      (∀ a, acc = some a → In a k) ∧
      ∀ x ∈ cs, ∀ bx, boundsFrom keyCol keyType x = some bx → In bx k
  | [], acc, _, _ => by
    rw [boundsAnd]
    refine ⟨fun h => by simpa using h, fun b hb k hk => ⟨fun a ha => ?_, by simp⟩⟩
    rw [hb] at ha; cases ha; exact hk
  | x :: cs, acc, ha, hs => by
    rw [boundsAnd]
    have hs' := fun y hy => hs y (List.mem_cons_of_mem _ hy)
    cases hb : boundsFrom keyCol keyType x with
    | none =>
      obtain ⟨h1, h2⟩ := boundsAnd_in cs acc ha hs'
      refine ⟨fun h => h1 (h.imp id ?_), fun b hb' k hk => ?_⟩
      · rintro ⟨y, hy, hh⟩
        rcases List.mem_cons.1 hy with rfl | hy
        · rw [hb] at hh; cases hh
        · exact ⟨y, hy, hh⟩
      · obtain ⟨g1, g2⟩ := h2 b hb' k hk
        refine ⟨g1, fun y hy bx hbx => ?_⟩
        rcases List.mem_cons.1 hy with rfl | hy
        · rw [hb] at hbx; cases hbx
        · exact g2 y hy bx hbx
    | some bx =>
      have gx := hs x List.mem_cons_self bx hb
      cases acc with
      | none =>
        obtain ⟨h1, h2⟩ := boundsAnd_in cs (some bx) (fun a e => by cases e; exact gx) hs'
        refine ⟨fun _ => h1 (.inl rfl), fun b hb' k hk => ?_⟩
        obtain ⟨g1, g2⟩ := h2 b hb' k hk
        refine ⟨(fun a e => by cases e), fun y hy by' hby => ?_⟩
        rcases List.mem_cons.1 hy with rfl | hy
        · rw [hb] at hby; cases hby; exact g1 bx rfl
        · exact g2 y hy by' hby
      | some prev =>
        have gp := ha prev rfl
        obtain ⟨h1, h2⟩ := boundsAnd_in cs (some (intersect prev bx))
          (fun a e => by cases e; exact good_intersect gp gx) hs'
        refine ⟨fun _ => h1 (.inl rfl), fun b hb' k hk => ?_⟩
        obtain ⟨g1, g2⟩ := h2 b hb' k hk
        have gi := (in_intersect gp gx k).1 (g1 _ rfl)
        refine ⟨(fun a e => by cases e; exact gi.1), fun y hy by' hby => ?_⟩
        rcases List.mem_cons.1 hy with rfl | hy
        · rw [hb] at hby; cases hby; exact gi.2
        · exact g2 y hy by' hby

theorem splitNonSstAnd_mem : ∀ (cs : List Expr) (q : Expr), q ∈ (splitNonSstAnd keyCol keyType cs).1 →
    ∃ x ∈ cs, (splitNonSstInner keyCol keyType x).pushdown = some q
  | [], q, h => by rw [splitNonSstAnd] at h; simp at h
  | x :: cs, q, h => by
    rw [splitNonSstAnd] at h
    simp only [List.mem_append, Option.mem_toList] at h
    rcases h with h | h
    · exact ⟨x, List.mem_cons_self, h⟩
    · obtain ⟨y, hy, he⟩ := splitNonSstAnd_mem cs q h
      exact ⟨y, List.mem_cons_of_mem _ hy, he⟩

/-- A key inside the bounds satisfies everything the memtable split takes out of the predicate. -/
theorem memory_pushdown (hc : Good c) (henv : env keyCol = cellVal c) (p : Expr)
    (h : ∀ e ∈ leaves p, LeafExact keyCol keyType c e) :
    ∀ q, (splitNonSstInner keyCol keyType p).pushdown = some q →
      ∃ b, boundsFrom keyCol keyType p = some b ∧ (In b (pos [c]) → meaning env q = .t) := by
  induction p using Expr.ind with
  | hleaf e he =>
    intro q hq
    have hk := h e (by rw [leaves_leaf he]; simp)
    cases e with
    | cmp col op v =>
      rw [splitNonSstInner] at hq
      simp only [Split.leaf] at hq
      split at hq
      · rename_i hb
        simp only [Bool.and_eq_true, decide_eq_true_eq] at hb
        obtain ⟨rfl, hop⟩ := hb
        cases hq
        have hv := hk.2 rfl v (by simp [literals])
        have hl := (hk.1 rfl).1 v (by simp [literals])
        rw [meaning_leaf he, boundsFrom, if_pos rfl]
        obtain ⟨d, hd, _⟩ := hl hv
        have hsome : ∃ b, cmpBounds op v = some b := by
          unfold cmpBounds
          rw [hd]
          cases op <;> simp at hop ⊢
        obtain ⟨b, hb⟩ := hsome
        exact ⟨b, hb, (cmp_bounds hc henv hl hb).2.2⟩
      · cases hq
    | between col lo hi i =>
      rw [splitNonSstInner] at hq
      simp only [Split.leaf] at hq
      split at hq
      · rename_i hb
        simp only [decide_eq_true_eq] at hb
        subst hb
        cases hq
        have hl := fun v hv => (hk.1 rfl).1 v hv (hk.2 rfl v hv)
        obtain ⟨d, hd, _⟩ := hl lo (by simp [literals])
        obtain ⟨d', hd', _⟩ := hl hi (by simp [literals])
        rw [meaning_leaf he, boundsFrom, if_pos rfl]
        refine ⟨_, by rw [betweenBounds, hd, hd'], ?_⟩
        exact (between_bounds hc henv (fun _ => hl lo (by simp [literals]))
          (fun _ => hl hi (by simp [literals])) (by rw [betweenBounds, hd, hd'])).2.2
      · cases hq
    | startsWith col pre =>
      rw [splitNonSstInner] at hq
      simp only [Split.leaf] at hq
      split at hq
      · rename_i hb
        simp only [Bool.and_eq_true, decide_eq_true_eq, Bool.not_eq_true'] at hb
        obtain ⟨⟨⟨rfl, hne⟩, hst⟩, hnx⟩ := hb
        cases hq
        rw [meaning_leaf he, boundsFrom, if_pos rfl]
        obtain ⟨nx, hnx⟩ := Option.isSome_iff_exists.1 hnx
        have hp : ∃ b, prefixBounds keyType pre = some b := by
          simp [prefixBounds, hst, hne, hnx]
        obtain ⟨b, hb⟩ := hp
        exact ⟨b, hb, (prefix_bounds henv ((hk.1 rfl).2 ⟨pre, rfl⟩) hb).2.2⟩
      · cases hq
    | _ => first
        | (simp [isLeaf] at he; done)
        | (simp [splitNonSstInner, Split.leaf] at hq)
  | htt => intro q hq; rw [splitNonSstInner] at hq; cases hq
  | hff =>
    intro q hq
    rw [boundsFrom]
    exact ⟨_, rfl, fun hb => absurd hb (in_none' _)⟩
  | hand cs ih =>
    intro q hq
    have hl : ∀ x ∈ cs, ∀ e ∈ leaves x, LeafExact keyCol keyType c e := fun x hx e he =>
      h e (by rw [leaves, leavesList_eq]; exact List.mem_flatMap.2 ⟨x, hx, he⟩)
    rw [splitNonSstInner] at hq
    simp only at hq
    rw [boundsFrom]
    have hg : ∀ x ∈ cs, ∀ b, boundsFrom keyCol keyType x = some b → GoodBounds b :=
      fun x hx b hb => (boundsFrom_sound hc henv x (fun e he => (hl x hx e he).1) b hb).1
    obtain ⟨h1, h2⟩ := boundsAnd_in cs none (fun a e => by cases e) hg
    have hq2 : meaning env q = mAnd ((splitNonSstAnd keyCol keyType cs).1.map (meaning env)) := by
      have := combineAnd_val (leafMeaning env) (splitNonSstAnd keyCol keyType cs).1
      rw [hq] at this
      exact this
    have hne : ∃ q', q' ∈ (splitNonSstAnd keyCol keyType cs).1 := by
      cases hl : (splitNonSstAnd keyCol keyType cs).1 with
      | nil => rw [hl] at hq; cases hq
      | cons a l => exact ⟨a, List.mem_cons_self⟩
    obtain ⟨q', hq'⟩ := hne
    obtain ⟨x, hx, hxq⟩ := splitNonSstAnd_mem cs q' hq'
    obtain ⟨bx, hbx, _⟩ := ih x hx (hl x hx) q' hxq
    obtain ⟨b, hb⟩ := Option.isSome_iff_exists.1 (h1 (.inr ⟨x, hx, by rw [hbx]; rfl⟩))
    refine ⟨b, hb, fun hin => ?_⟩
    rw [hq2, mAnd_true]
    intro r hr
    obtain ⟨q'', hq'', rfl⟩ := List.mem_map.1 hr
    obtain ⟨y, hy, hyq⟩ := splitNonSstAnd_mem cs q'' hq''
    obtain ⟨b', hby, hh⟩ := ih y hy (hl y hy) q'' hyq
    exact hh ((h2 b hb _ hin).2 y hy b' hby)
  | hor cs ih => intro q hq; simp [splitNonSstInner, Split.leaf] at hq
  | hnot e ih => intro q hq; simp [splitNonSstInner, Split.leaf] at hq

/-- Derived bounds are never inverted unless marked empty. -/
def Consistent (b : KeyBounds) : Prop :=
  b.empty = false → ∀ lo hi, b.lower = some lo → b.upper = some hi →
    pos lo.key < pos hi.key ∨ (pos lo.key = pos hi.key ∧ lo.inclusive = true ∧ hi.inclusive = true)

theorem consistent_normalize {b : KeyBounds} (hb : GoodBounds b) : Consistent (normalize b) := by
  intro he lo hi h1 h2
  rw [normalize_lower] at h1; rw [normalize_upper] at h2
  exact normalize_consistent hb he h1 h2

theorem consistent_none' : Consistent .none' := fun h => by cases h
theorem consistent_withLower {k : Key} {i : Bool} : Consistent (withLower k i) :=
  fun _ _ _ _ h => by cases h
theorem consistent_withUpper {k : Key} {i : Bool} : Consistent (withUpper k i) :=
  fun _ _ _ h => by cases h
theorem consistent_withRange {lo hi : Bound} (h1 : GoodKey lo.key) (h2 : GoodKey hi.key) :
    Consistent (withRange lo hi) :=
  consistent_normalize ⟨(fun _ e => by cases e; exact h1), (fun _ e => by cases e; exact h2)⟩

theorem consistent_intersect {a b : KeyBounds} (ha : GoodBounds a) (hb : GoodBounds b) :
    Consistent (intersect a b) := by
  unfold intersect
  split
  · exact consistent_none'
  · exact consistent_normalize ⟨maxLower_good ha.1 hb.1, minUpper_good ha.2 hb.2⟩

theorem minLower_le {a b x : Bound} (ga : GoodKey a.key) (gb : GoodKey b.key)
    (h : minLower (some a) (some b) = some x) :
    pos x.key ≤ pos a.key ∧ (pos x.key = pos a.key → a.inclusive = true → x.inclusive = true) := by
  simp only [minLower] at h
  cases hc : rowCmp a.key b.key with
  | gt =>
    have hc' : pos b.key < pos a.key := (rowCmp_gt ga gb).1 hc
    rw [hc] at h; cases h
    exact ⟨hc'.le, fun he => absurd he hc'.ne⟩
  | lt => rw [hc] at h; cases h; exact ⟨le_refl _, fun _ h => h⟩
  | eq => rw [hc] at h; cases h; exact ⟨le_refl _, fun _ h => by simp [h]⟩

theorem le_maxUpper {a b x : Bound} (ga : GoodKey a.key) (gb : GoodKey b.key)
    (h : maxUpper (some a) (some b) = some x) :
    pos a.key ≤ pos x.key ∧ (pos x.key = pos a.key → a.inclusive = true → x.inclusive = true) := by
  simp only [maxUpper] at h
  cases hc : rowCmp a.key b.key with
  | gt => rw [hc] at h; cases h; exact ⟨le_refl _, fun _ h => h⟩
  | lt =>
    have hc' : pos a.key < pos b.key := (rowCmp_lt ga gb).1 hc
    rw [hc] at h; cases h
    exact ⟨hc'.le, fun he => absurd he hc'.ne'⟩
  | eq => rw [hc] at h; cases h; exact ⟨le_refl _, fun _ h => by simp [h]⟩

theorem consistent_union {a b : KeyBounds} (ha : GoodBounds a) (hb : GoodBounds b)
    (ca : Consistent a) (cb : Consistent b) : Consistent (unionEnvelope a b) := by
  unfold unionEnvelope
  split
  · exact cb
  · rename_i hea
    split
    · exact ca
    · intro _ lo hi h1 h2
      cases al : a.lower with
      | none => rw [al] at h1; cases h1
      | some l =>
        cases bl : b.lower with
        | none => rw [al, bl] at h1; cases h1
        | some l' =>
          cases au : a.upper with
          | none => rw [au] at h2; cases h2
          | some u =>
            cases bu : b.upper with
            | none => rw [au, bu] at h2; cases h2
            | some u' =>
              simp only at h1 h2
              rw [al, bl] at h1
              rw [au, bu] at h2
              obtain ⟨x1, x2⟩ := minLower_le (ha.1 l al) (hb.1 l' bl) h1
              obtain ⟨y1, y2⟩ := le_maxUpper (ha.2 u au) (hb.2 u' bu) h2
              rcases ca (by cases h : a.empty <;> simp_all) l u al au with h | ⟨h, i1, i2⟩
              · exact .inl (x1.trans_lt (h.trans_le y1))
              · rcases lt_or_eq_of_le x1 with hx | hx
                · exact .inl (hx.trans_le (h.le.trans y1))
                · rcases lt_or_eq_of_le y1 with hy | hy
                  · exact .inl (x1.trans_lt (h.le.trans_lt hy))
                  · exact .inr ⟨hx.trans (h.trans hy), x2 hx i1, y2 hy.symm i2⟩

/-- Every non-null literal of a leaf on the key column becomes a well-behaved key. -/
def LeafGood (keyCol : String) (e : Expr) : Prop :=
  leafCol e = keyCol → ∀ v ∈ literals e, ∀ k, scalarToKey v = some k → GoodKey k

theorem boundsAnd_consistent : ∀ (cs : List Expr) (acc : Option KeyBounds),
    (∀ a, acc = some a → GoodBounds a ∧ Consistent a) →
    (∀ x ∈ cs, ∀ b, boundsFrom keyCol keyType x = some b → GoodBounds b ∧ Consistent b) →
    ∀ b, boundsAnd keyCol keyType cs acc = some b → GoodBounds b ∧ Consistent b
  | [], acc, ha, _, b, h => by rw [boundsAnd] at h; exact ha b h
  | x :: cs, acc, ha, hs, b, h => by
    rw [boundsAnd] at h
    have hs' := fun y hy => hs y (List.mem_cons_of_mem _ hy)
    cases hb : boundsFrom keyCol keyType x with
    | none => rw [hb] at h; exact boundsAnd_consistent cs acc ha hs' b h
    | some bx =>
      rw [hb] at h
      have gx := hs x List.mem_cons_self bx hb
      cases acc with
      | none => exact boundsAnd_consistent cs _ (fun a e => by cases e; exact gx) hs' b h
      | some prev =>
        have gp := ha prev rfl
        exact boundsAnd_consistent cs _ (fun a e => by
          cases e; exact ⟨good_intersect gp.1 gx.1, consistent_intersect gp.1 gx.1⟩) hs' b h

theorem boundsOr_consistent : ∀ (cs : List Expr) (acc : Option KeyBounds),
    (∀ a, acc = some a → GoodBounds a ∧ Consistent a) →
    (∀ x ∈ cs, ∀ b, boundsFrom keyCol keyType x = some b → GoodBounds b ∧ Consistent b) →
    ∀ b, boundsOr keyCol keyType cs acc = some b → GoodBounds b ∧ Consistent b
  | [], acc, ha, _, b, h => by rw [boundsOr] at h; exact ha b h
  | x :: cs, acc, ha, hs, b, h => by
    rw [boundsOr] at h
    have hs' := fun y hy => hs y (List.mem_cons_of_mem _ hy)
    cases hb : boundsFrom keyCol keyType x with
    | none => rw [hb] at h; cases h
    | some bx =>
      rw [hb] at h
      have gx := hs x List.mem_cons_self bx hb
      cases acc with
      | none => exact boundsOr_consistent cs _ (fun a e => by cases e; exact gx) hs' b h
      | some prev =>
        have gp := ha prev rfl
        exact boundsOr_consistent cs _ (fun a e => by
          cases e; exact ⟨good_union gp.1 gx.1, consistent_union gp.1 gx.1 gp.2 gx.2⟩) hs' b h

theorem boundsFrom_consistent (p : Expr) (h : ∀ e ∈ leaves p, LeafGood keyCol e) :
    ∀ b, boundsFrom keyCol keyType p = some b → GoodBounds b ∧ Consistent b := by
  induction p using Expr.ind with
  | hleaf e he =>
    intro b hb
    have hk := h e (by rw [leaves_leaf he]; simp)
    cases e with
    | cmp col op v =>
      rw [boundsFrom] at hb
      split at hb
      · rename_i hcol
        subst hcol
        unfold cmpBounds at hb
        cases hv : scalarToKey v with
        | none => rw [hv] at hb; cases hb
        | some k =>
          have g := hk rfl v (by simp [literals]) k hv
          rw [hv] at hb
          cases op <;> cases hb
          · exact ⟨good_withRange g g, consistent_withRange g g⟩
          · exact ⟨good_withUpper g, consistent_withUpper⟩
          · exact ⟨good_withUpper g, consistent_withUpper⟩
          · exact ⟨good_withLower g, consistent_withLower⟩
          · exact ⟨good_withLower g, consistent_withLower⟩
      · cases hb
    | between col lo hi i =>
      rw [boundsFrom] at hb
      split at hb
      · rename_i hcol
        subst hcol
        unfold betweenBounds at hb
        split at hb
        · rename_i l u hl hu
          cases hb
          have g1 := hk rfl lo (by simp [literals]) l hl
          have g2 := hk rfl hi (by simp [literals]) u hu
          exact ⟨good_withRange g1 g2, consistent_withRange g1 g2⟩
        · cases hb
      · cases hb
    | inList col vs =>
      rw [boundsFrom] at hb
      split at hb
      · rename_i hcol
        subst hcol
        unfold inListBounds at hb
        split at hb
        · cases hb; exact ⟨good_none', consistent_none'⟩
        · split at hb
          · cases hb
          · rename_i ks hks
            have hg : ∀ k ∈ ks, GoodKey k := by
              intro k hkk
              obtain ⟨v, hv, hvk⟩ := (mapM_mem hks).2 k hkk
              exact hk rfl v hv k hvk
            split at hb
            · rename_i a z ha hz
              cases hb
              have g1 := hg _ (minKey_spec ha hg).1
              have g2 := hg _ (maxKey_spec hz hg).1
              exact ⟨good_withRange g1 g2, consistent_withRange g1 g2⟩
            · cases hb
      · cases hb
    | startsWith col pre =>
      rw [boundsFrom] at hb
      split at hb
      · unfold prefixBounds at hb
        have hgood : ∀ x : List Char, GoodKey [.str x] := fun x => goodKey_one trivial
        split at hb
        · cases hb
        · split at hb <;> cases hb
          · exact ⟨good_withRange (hgood _) (hgood _), consistent_withRange (hgood _) (hgood _)⟩
          · exact ⟨good_withLower (hgood _), consistent_withLower⟩
      · cases hb
    | _ => first | (simp [isLeaf] at he; done) | (simp [boundsFrom] at hb)
  | htt => intro b hb; (simp [boundsFrom] at hb)
  | hff => intro b hb; rw [boundsFrom] at hb; cases hb; exact ⟨good_none', consistent_none'⟩
  | hand cs ih =>
    intro b hb
    rw [boundsFrom] at hb
    exact boundsAnd_consistent cs none (fun a e => by cases e)
      (fun x hx => ih x hx (fun e he => h e (by
        rw [leaves, leavesList_eq]; exact List.mem_flatMap.2 ⟨x, hx, he⟩))) b hb
  | hor cs ih =>
    intro b hb
    rw [boundsFrom] at hb
    exact boundsOr_consistent cs none (fun a e => by cases e)
      (fun x hx => ih x hx (fun e he => h e (by
        rw [leaves, leavesList_eq]; exact List.mem_flatMap.2 ⟨x, hx, he⟩))) b hb
  | hnot e ih => intro b hb; (simp [boundsFrom] at hb)

end Tonbo.Lemmas.Bounds
