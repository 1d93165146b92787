import Verif.Spec.Pred

namespace Tonbo.Lemmas.Pred
open Tonbo.Spec Tonbo.Model.Pred Tonbo.Model.Keys

/-- Neither a constant nor a connective. -/
def isLeaf : Expr → Bool
  | .tt => false
  | .ff => false
  | .and _ => false
  | .or _ => false
  | .not _ => false
  | _ => true

/-- Induction over predicates. -/
theorem Expr.ind {P : Expr → Prop} (hleaf : ∀ e, isLeaf e = true → P e) (htt : P .tt) (hff : P .ff)
    (hand : ∀ cs, (∀ c ∈ cs, P c) → P (.and cs)) (hor : ∀ cs, (∀ c ∈ cs, P c) → P (.or cs))
    (hnot : ∀ e, P e → P (.not e)) : ∀ e, P e := by
  intro e
  refine Expr.rec (motive_1 := P) (motive_2 := fun cs => ∀ c ∈ cs, P c) htt hff ?_ ?_ ?_ ?_ ?_ ?_ ?_
    ?_ hand hor hnot ?_ ?_ e
  · intros; exact hleaf _ rfl
  · intros; exact hleaf _ rfl
  · intros; exact hleaf _ rfl
  · intros; exact hleaf _ rfl
  · intros; exact hleaf _ rfl
  · intros; exact hleaf _ rfl
  · intros; exact hleaf _ rfl
  · intros; exact hleaf _ rfl
  · intro c hc; cases hc
  · intro c cs h1 h2 x hx
    rcases List.mem_cons.1 hx with rfl | hx
    · exact h1
    · exact h2 x hx

theorem kleeneList_eq (leaf : Expr → Tri) (cs : List Expr) :
    kleeneList leaf cs = cs.map (kleene leaf) := by
  induction cs with
  | nil => rw [kleeneList]; rfl
  | cons c cs ih => rw [kleeneList, ih]; rfl

theorem leavesList_eq (cs : List Expr) : leavesList cs = cs.flatMap leaves := by
  induction cs with
  | nil => rw [leavesList]; rfl
  | cons c cs ih => rw [leavesList, ih]; rfl

theorem kleene_leaf {leaf : Expr → Tri} {e : Expr} (h : isLeaf e = true) : kleene leaf e = leaf e := by
  cases e <;> first | (simp [isLeaf] at h; done) | simp [kleene]

theorem leaves_leaf {e : Expr} (h : isLeaf e = true) : leaves e = [e] := by
  cases e <;> first | (simp [isLeaf] at h; done) | simp [leaves]

theorem mAnd_true {xs : List Tri} : mAnd xs = .t ↔ ∀ x ∈ xs, x = .t := by
  unfold mAnd
  split
  · rename_i h
    simp only [reduceCtorEq, false_iff, not_forall]
    exact ⟨_, h, by decide⟩
  · split
    · rename_i h; exact ⟨fun _ => h, fun _ => rfl⟩
    · rename_i h; exact ⟨fun h' => (by cases h'), fun h' => absurd h' h⟩

theorem mAnd_false {xs : List Tri} : mAnd xs = .f ↔ .f ∈ xs := by
  unfold mAnd
  split
  · simp_all
  · split <;> simp_all

theorem mOr_true {xs : List Tri} : mOr xs = .t ↔ .t ∈ xs := by
  unfold mOr
  split
  · simp_all
  · split <;> simp_all

theorem mOr_false {xs : List Tri} : mOr xs = .f ↔ ∀ x ∈ xs, x = .f := by
  unfold mOr
  split
  · rename_i h
    simp only [reduceCtorEq, false_iff, not_forall]
    exact ⟨_, h, by decide⟩
  · split
    · rename_i h; exact ⟨fun _ => h, fun _ => rfl⟩
    · rename_i h; exact ⟨fun h' => (by cases h'), fun h' => absurd h' h⟩

theorem tri_ext {a b : Tri} (h1 : a = .t ↔ b = .t) (h2 : a = .f ↔ b = .f) : a = b := by
  cases a <;> cases b <;> simp_all

/-- A value `mAnd` gives for a cons, by the table of the code. -/
theorem mAnd_cons (x : Tri) (xs : List Tri) : mAnd (x :: xs) = x.and (mAnd xs) := by
  apply tri_ext
  · rw [mAnd_true]
    simp only [List.mem_cons, forall_eq_or_imp, ← mAnd_true]
    cases x <;> cases mAnd xs <;> simp [Tri.and]
  · rw [mAnd_false]
    simp only [List.mem_cons, ← mAnd_false]
    cases x <;> cases mAnd xs <;> simp [Tri.and]

theorem mOr_cons (x : Tri) (xs : List Tri) : mOr (x :: xs) = x.or (mOr xs) := by
  apply tri_ext
  · rw [mOr_true]
    simp only [List.mem_cons, ← mOr_true]
    cases x <;> cases mOr xs <;> simp [Tri.or]
  · rw [mOr_false]
    simp only [List.mem_cons, forall_eq_or_imp, ← mOr_false]
    cases x <;> cases mOr xs <;> simp [Tri.or]

theorem mNot_eq (x : Tri) : mNot x = x.not := by cases x <;> rfl

theorem mAnd_one (x : Tri) : mAnd [x] = x := by cases x <;> decide
theorem mOr_one (x : Tri) : mOr [x] = x := by cases x <;> decide

theorem tri_and_assoc (a b c : Tri) : (a.and b).and c = a.and (b.and c) := by
  cases a <;> cases b <;> cases c <;> rfl
theorem tri_or_assoc (a b c : Tri) : (a.or b).or c = a.or (b.or c) := by
  cases a <;> cases b <;> cases c <;> rfl
theorem tri_and_t (a : Tri) : Tri.t.and a = a := by cases a <;> rfl
theorem tri_t_and (a : Tri) : a.and .t = a := by cases a <;> rfl
theorem tri_or_f (a : Tri) : Tri.f.or a = a := by cases a <;> rfl
theorem tri_f_or (a : Tri) : a.or .f = a := by cases a <;> rfl
theorem tri_f_and (a : Tri) : Tri.f.and a = .f := by cases a <;> rfl
theorem tri_t_or (a : Tri) : Tri.t.or a = .t := by cases a <;> rfl

/-! ## The evaluator -/

section
variable (pc : Scalar → Scalar → Option Ordering) (schema : Schema) (row : Row)

theorem evalAnd_spec (leaf : Expr → Tri) : ∀ (cs : List Expr) (acc : Tri),
    (∀ c ∈ cs, evalExpr pc schema row c = .ok (kleene leaf c)) →
    evalAnd pc schema row cs acc = .ok (acc.and (mAnd (cs.map (kleene leaf))))
  | [], acc, _ => by
    rw [evalAnd]
    have : mAnd [] = .t := by decide
    simp [this, tri_t_and]
  | c :: cs, acc, h => by
    rw [evalAnd, h c List.mem_cons_self]
    simp only [List.map_cons, mAnd_cons, ← tri_and_assoc]
    split
    · rename_i hf; rw [hf, tri_f_and]
    · exact evalAnd_spec leaf cs _ (fun x hx => h x (List.mem_cons_of_mem _ hx))

theorem evalOr_spec (leaf : Expr → Tri) : ∀ (cs : List Expr) (acc : Tri),
    (∀ c ∈ cs, evalExpr pc schema row c = .ok (kleene leaf c)) →
    evalOr pc schema row cs acc = .ok (acc.or (mOr (cs.map (kleene leaf))))
  | [], acc, _ => by
    rw [evalOr]
    have : mOr [] = .f := by decide
    simp [this, tri_f_or]
  | c :: cs, acc, h => by
    rw [evalOr, h c List.mem_cons_self]
    simp only [List.map_cons, mOr_cons, ← tri_or_assoc]
    split
    · rename_i hf; rw [hf, tri_t_or]
    · exact evalOr_spec leaf cs _ (fun x hx => h x (List.mem_cons_of_mem _ hx))

/-- If every leaf evaluates without error, the whole predicate evaluates to its three-valued
meaning. -/
theorem eval_kleene (leaf : Expr → Tri) : ∀ p : Expr,
    (∀ e ∈ leaves p, evalExpr pc schema row e = .ok (leaf e)) →
    evalExpr pc schema row p = .ok (kleene leaf p) := by
  intro p
  induction p using Expr.ind with
  | hleaf e he =>
    intro h
    rw [kleene_leaf he]
    exact h e (by rw [leaves_leaf he]; simp)
  | htt => intro _; rw [evalExpr, kleene]
  | hff => intro _; rw [evalExpr, kleene]
  | hand cs ih =>
    intro h
    rw [leaves, leavesList_eq] at h
    rw [evalExpr, kleene, kleeneList_eq,
      evalAnd_spec pc schema row leaf cs .t (fun c hc => ih c hc
        (fun e he => h e (List.mem_flatMap.2 ⟨c, hc, he⟩))), tri_and_t]
  | hor cs ih =>
    intro h
    rw [leaves, leavesList_eq] at h
    rw [evalExpr, kleene, kleeneList_eq,
      evalOr_spec pc schema row leaf cs .f (fun c hc => ih c hc
        (fun e he => h e (List.mem_flatMap.2 ⟨c, hc, he⟩))), tri_or_f]
  | hnot e ih =>
    intro h
    rw [leaves] at h
    rw [evalExpr, kleene, ih h, mNot_eq]

end

/-! ## Splitting -/

/-- The value of an optional predicate; absent means no condition. -/
def optVal (leaf : Expr → Tri) : Option Expr → Tri
  | none => .t
  | some e => kleene leaf e

theorem combineAnd_val (leaf : Expr → Tri) (es : List Expr) :
    optVal leaf (combineAnd es) = mAnd (es.map (kleene leaf)) := by
  match es with
  | [] => simp only [combineAnd, optVal, List.map_nil]; decide
  | [e] => simp [combineAnd, optVal, mAnd_one]
  | a :: b :: l => simp only [combineAnd, optVal]; rw [kleene, kleeneList_eq]

theorem combineOr_val (leaf : Expr → Tri) (es : List Expr) (h : es ≠ []) :
    optVal leaf (combineOr es) = mOr (es.map (kleene leaf)) := by
  match es with
  | [] => exact absurd rfl h
  | [e] => simp [combineOr, optVal, mOr_one]
  | a :: b :: l => simp only [combineOr, optVal]; rw [kleene, kleeneList_eq]

theorem mAnd_append (xs ys : List Tri) : mAnd (xs ++ ys) = (mAnd xs).and (mAnd ys) := by
  induction xs with
  | nil => simp only [List.nil_append]; rw [show mAnd [] = .t by decide, tri_and_t]
  | cons x xs ih => simp only [List.cons_append, mAnd_cons, ih, tri_and_assoc]

theorem mAnd_toList (leaf : Expr → Tri) (o : Option Expr) :
    mAnd (o.toList.map (kleene leaf)) = optVal leaf o := by
  cases o with
  | none => simp only [Option.toList_none, List.map_nil, optVal]; decide
  | some e => simp [optVal, mAnd_one]

theorem tri_and_swap (a b c d : Tri) : (a.and b).and (c.and d) = (a.and c).and (b.and d) := by
  cases a <;> cases b <;> cases c <;> cases d <;> rfl

/-- What a correct split is: the two parts together have the value of the whole. -/
def SplitOk (leaf : Expr → Tri) (s : Split) (p : Expr) : Prop :=
  (optVal leaf s.pushdown).and (optVal leaf s.residual) = kleene leaf p

theorem leaf_ok (leaf : Expr → Tri) (b : Bool) (e : Expr) : SplitOk leaf (Split.leaf b e) e := by
  cases b <;> simp [SplitOk, Split.leaf, optVal, tri_and_t, tri_t_and]

theorem splitAnd_ok (leaf : Expr → Tri) (schema : Schema) : ∀ cs : List Expr,
    (∀ c ∈ cs, SplitOk leaf (splitRowFilter schema c) c) →
    (mAnd ((splitAnd schema cs).1.map (kleene leaf))).and
      (mAnd ((splitAnd schema cs).2.map (kleene leaf))) = mAnd (cs.map (kleene leaf))
  | [], _ => by rw [splitAnd]; rfl
  | c :: cs, h => by
    rw [splitAnd]
    simp only [List.map_append, mAnd_append, mAnd_toList, List.map_cons, mAnd_cons]
    rw [tri_and_swap, splitAnd_ok leaf schema cs (fun x hx => h x (List.mem_cons_of_mem _ hx)),
      h c List.mem_cons_self]

theorem splitOr_ok (leaf : Expr → Tri) (schema : Schema) : ∀ cs : List Expr,
    (∀ c ∈ cs, SplitOk leaf (splitRowFilter schema c) c) →
    (splitOr schema cs = .noFilter → mOr (cs.map (kleene leaf)) = .t) ∧
    (∀ ps, splitOr schema cs = .parts ps →
      mOr (ps.map (kleene leaf)) = mOr (cs.map (kleene leaf)) ∧ ps.length = cs.length)
  | [], _ => by
    rw [splitOr]
    refine ⟨fun h => (by cases h), fun ps h => ?_⟩
    cases h; exact ⟨rfl, rfl⟩
  | c :: cs, h => by
    have hc := h c List.mem_cons_self
    have ih := splitOr_ok leaf schema cs (fun x hx => h x (List.mem_cons_of_mem _ hx))
    rw [splitOr]
    unfold SplitOk at hc
    simp only [List.map_cons, mOr_cons]
    cases hr : (splitRowFilter schema c).residual with
    | some r => simp
    | none =>
      rw [hr] at hc
      simp only [optVal, tri_t_and] at hc
      cases hp : (splitRowFilter schema c).pushdown with
      | none =>
        rw [hp] at hc
        simp only at hc
        refine ⟨fun _ => by rw [← hc, tri_t_or], fun ps hps => by simp at hps⟩
      | some p =>
        rw [hp] at hc
        simp only at hc
        cases hs : splitOr schema cs with
        | residual => simp
        | noFilter =>
          have := ih.1 hs
          refine ⟨fun _ => ?_, fun ps hps => by simp at hps⟩
          rw [this]; cases kleene leaf c <;> rfl
        | parts ps =>
          have := ih.2 ps hs
          refine ⟨fun hn => by simp at hn, fun qs hqs => ?_⟩
          simp only [Option.isSome_none, Bool.false_eq_true, if_false, OrRes.parts.injEq] at hqs
          subst hqs
          simp only [List.map_cons, mOr_cons, this.1, hc, List.length_cons, this.2, and_self]

theorem splitRowFilter_ok (leaf : Expr → Tri) (schema : Schema) (p : Expr) :
    SplitOk leaf (splitRowFilter schema p) p := by
  induction p using Expr.ind with
  | hleaf e he =>
    cases e <;> first | (simp [isLeaf] at he; done) | (rw [splitRowFilter]; exact leaf_ok _ _ _)
  | htt => rw [splitRowFilter, SplitOk, kleene]; rfl
  | hff => rw [splitRowFilter, SplitOk]; simp only [optVal]; rw [kleene]; rfl
  | hand cs ih =>
    rw [splitRowFilter, SplitOk, kleene, kleeneList_eq, combineAnd_val, combineAnd_val]
    exact splitAnd_ok leaf schema cs ih
  | hor cs ih =>
    cases cs with
    | nil => rw [splitRowFilter, SplitOk]; simp only [optVal]; rw [kleene, kleene, kleeneList]; decide
    | cons c cs =>
      have h := splitOr_ok leaf schema (c :: cs) ih
      rw [splitRowFilter]
      cases hs : splitOr schema (c :: cs) with
      | residual => simp [SplitOk, optVal, tri_and_t]
      | noFilter =>
        simp only [SplitOk, optVal]
        rw [kleene, kleeneList_eq, h.1 hs]; rfl
      | parts ps =>
        have := h.2 ps hs
        simp only [SplitOk]
        rw [combineOr_val leaf ps (by intro h0; rw [h0] at this; simp at this), this.1, kleene,
          kleeneList_eq]
        simp [optVal, tri_t_and]
  | hnot e ih =>
    rw [splitRowFilter]
    unfold SplitOk at ih
    cases hr : (splitRowFilter schema e).residual with
    | some r => simp [SplitOk, optVal, tri_and_t]
    | none =>
      rw [hr] at ih
      simp only [optVal, tri_t_and] at ih
      cases hp : (splitRowFilter schema e).pushdown with
      | none =>
        rw [hp] at ih
        simp only at ih
        simp only [Option.isSome_none, Bool.false_eq_true, if_false, SplitOk, optVal]
        rw [kleene, kleene, ← ih]; rfl
      | some q =>
        rw [hp] at ih
        simp only at ih
        simp only [Option.isSome_none, Bool.false_eq_true, if_false, SplitOk, optVal]
        rw [kleene, kleene, ← ih, tri_t_and]

/-! ## Where the leaves go -/

theorem mem_leaves_combineAnd {es : List Expr} {q e : Expr} (h : combineAnd es = some q)
    (he : e ∈ leaves q) : ∃ x ∈ es, e ∈ leaves x := by
  match es with
  | [] => simp [combineAnd] at h
  | [a] => simp only [combineAnd, Option.some.injEq] at h; subst h; exact ⟨_, by simp, he⟩
  | a :: b :: l =>
    simp only [combineAnd, Option.some.injEq] at h
    subst h
    rw [leaves, leavesList_eq] at he
    exact List.mem_flatMap.1 he

theorem mem_leaves_combineOr {es : List Expr} {q e : Expr} (h : combineOr es = some q)
    (he : e ∈ leaves q) : ∃ x ∈ es, e ∈ leaves x := by
  match es with
  | [] => simp [combineOr] at h
  | [a] => simp only [combineOr, Option.some.injEq] at h; subst h; exact ⟨_, by simp, he⟩
  | a :: b :: l =>
    simp only [combineOr, Option.some.injEq] at h
    subst h
    rw [leaves, leavesList_eq] at he
    exact List.mem_flatMap.1 he

/-- The leaf only uses columns of the schema, with literals of the column's type. -/
def leafTyped (schema : Schema) : Expr → Bool
  | .cmp col _ v => scalarMatchesColumn schema col v
  | .between col lo hi _ => scalarMatchesColumn schema col lo && scalarMatchesColumn schema col hi
  | .inList col vs => scalarsMatchColumn schema col vs
  | .startsWith col _ => isStringColumn schema col
  | .isNull col _ => (columnType schema col).isSome
  | _ => false

theorem splitAnd_mem (schema : Schema) : ∀ cs x, (x ∈ (splitAnd schema cs).1 →
    ∃ c ∈ cs, (splitRowFilter schema c).pushdown = some x) ∧ (x ∈ (splitAnd schema cs).2 →
    ∃ c ∈ cs, (splitRowFilter schema c).residual = some x)
  | [], x => by rw [splitAnd]; simp
  | c :: cs, x => by
    have ih := splitAnd_mem schema cs x
    rw [splitAnd]
    simp only [List.mem_append, Option.mem_toList]
    constructor
    · rintro (h | h)
      · exact ⟨c, by simp, h⟩
      · obtain ⟨y, hy, h⟩ := ih.1 h
        exact ⟨y, by simp [hy], h⟩
    · rintro (h | h)
      · exact ⟨c, by simp, h⟩
      · obtain ⟨y, hy, h⟩ := ih.2 h
        exact ⟨y, by simp [hy], h⟩

theorem splitOr_mem (schema : Schema) : ∀ cs ps, splitOr schema cs = .parts ps → ∀ x ∈ ps,
    ∃ c ∈ cs, (splitRowFilter schema c).pushdown = some x
  | [], ps, h => by
    rw [splitOr] at h
    cases h; simp
  | c :: cs, ps, h => by
    rw [splitOr] at h
    split at h
    · cases h
    · split at h
      · cases h
      · rename_i p hp
        split at h
        · cases h
        · cases h
        · rename_i qs hqs
          cases h
          intro x hx
          rcases List.mem_cons.1 hx with rfl | hx
          · exact ⟨c, by simp, hp⟩
          · obtain ⟨y, hy, h⟩ := splitOr_mem schema cs qs hqs x hx
            exact ⟨y, by simp [hy], h⟩

/-- Everything pushed to the file reader is typed against the schema, and comes from the predicate. -/
theorem pushed_leaves (schema : Schema) (p : Expr) : ∀ q, (splitRowFilter schema p).pushdown = some q →
    ∀ e ∈ leaves q, leafTyped schema e = true ∧ e ∈ leaves p := by
  induction p using Expr.ind with
  | hleaf e he =>
    cases e <;> first | (simp [isLeaf] at he; done) | (
      rw [splitRowFilter]
      simp only [Split.leaf]
      split
      · rename_i hb
        intro q hq x hx
        cases hq
        rw [leaves] at hx
        · rw [List.mem_singleton] at hx
          subst hx
          refine ⟨hb, (by simp [leaves])⟩
        all_goals simp
      · intro q hq; cases hq)
  | htt => rw [splitRowFilter]; intro q hq; cases hq
  | hff => rw [splitRowFilter]; intro q hq x hx; cases hq; rw [leaves] at hx; cases hx
  | hand cs ih =>
    rw [splitRowFilter]
    intro q hq e he
    obtain ⟨x, hx, hxe⟩ := mem_leaves_combineAnd hq he
    obtain ⟨c, hc, hcx⟩ := (splitAnd_mem schema cs x).1 hx
    refine ⟨(ih c hc x hcx e hxe).1, ?_⟩
    rw [leaves, leavesList_eq]
    exact List.mem_flatMap.2 ⟨c, hc, (ih c hc x hcx e hxe).2⟩
  | hor cs ih =>
    cases cs with
    | nil => rw [splitRowFilter]; intro q hq x hx; cases hq; rw [leaves] at hx; cases hx
    | cons c cs =>
      rw [splitRowFilter]
      cases hs : splitOr schema (c :: cs) with
      | residual => intro q hq; cases hq
      | noFilter => intro q hq; cases hq
      | parts ps =>
        intro q hq e he
        obtain ⟨x, hx, hxe⟩ := mem_leaves_combineOr hq he
        obtain ⟨d, hd, hdx⟩ := splitOr_mem schema _ ps hs x hx
        refine ⟨(ih d hd x hdx e hxe).1, ?_⟩
        rw [leaves, leavesList_eq]
        exact List.mem_flatMap.2 ⟨d, hd, (ih d hd x hdx e hxe).2⟩
  | hnot e ih =>
    rw [splitRowFilter]
    split
    · intro q hq; cases hq
    · split
      · intro q hq x hx; cases hq; rw [leaves] at hx; cases hx
      · rename_i p hp
        intro q hq x hx
        cases hq
        rw [leaves] at hx ⊢
        exact ih p hp x hx

/-! ## Splitting for the in-memory sources -/

theorem splitNonSstAnd_ok (leaf : Expr → Tri) (kc : String) (kt : DType) : ∀ cs : List Expr,
    (∀ c ∈ cs, SplitOk leaf (splitNonSstInner kc kt c) c) →
    (mAnd ((splitNonSstAnd kc kt cs).1.map (kleene leaf))).and
      (mAnd ((splitNonSstAnd kc kt cs).2.map (kleene leaf))) = mAnd (cs.map (kleene leaf))
  | [], _ => by rw [splitNonSstAnd]; rfl
  | c :: cs, h => by
    rw [splitNonSstAnd]
    simp only [List.map_append, mAnd_append, mAnd_toList, List.map_cons, mAnd_cons]
    rw [tri_and_swap, splitNonSstAnd_ok leaf kc kt cs (fun x hx => h x (List.mem_cons_of_mem _ hx)),
      h c List.mem_cons_self]

theorem splitNonSstInner_ok (leaf : Expr → Tri) (kc : String) (kt : DType) (p : Expr) :
    SplitOk leaf (splitNonSstInner kc kt p) p := by
  induction p using Expr.ind with
  | hleaf e he =>
    cases e <;> first | (simp [isLeaf] at he; done) | (
      rw [splitNonSstInner]
      · exact leaf_ok _ _ _
      all_goals simp)
  | htt => rw [splitNonSstInner, SplitOk, kleene]; rfl
  | hff => rw [splitNonSstInner, SplitOk]; simp only [optVal]; rw [kleene]; rfl
  | hand cs ih =>
    rw [splitNonSstInner, SplitOk, kleene, kleeneList_eq, combineAnd_val, combineAnd_val]
    exact splitNonSstAnd_ok leaf kc kt cs ih
  | hor cs ih =>
    rw [splitNonSstInner]
    · exact leaf_ok _ _ _
    all_goals simp
  | hnot e ih =>
    rw [splitNonSstInner]
    · exact leaf_ok _ _ _
    all_goals simp

theorem splitNonSst_ok (leaf : Expr → Tri) (ks : Schema) (p : Expr) :
    SplitOk leaf (splitNonSst ks p) p := by
  unfold splitNonSst
  split
  · rw [SplitOk, kleene]; rfl
  · rw [SplitOk]; simp only [optVal]; rw [kleene]; rfl
  · exact splitNonSstInner_ok _ _ _ _
  · simp [SplitOk, optVal, tri_and_t]

end Tonbo.Lemmas.Pred
