import Verif.Lemmas.Projection
import Verif.Lemmas.ScanPlan

/-! Helper lemmas for C61: a predicate looks at its own columns only. -/

namespace Tonbo.Lemmas.Proj
open Tonbo.Model Tonbo.Model.Mem Tonbo.Model.Pred Tonbo.Model.Plan Tonbo.Model.Proj Tonbo.Spec
open Tonbo.Lemmas.Pred Tonbo.Lemmas.Plan

theorem predColsList_eq (cs : List Expr) : predColsList cs = cs.flatMap predCols := by
  induction cs with
  | nil => rw [predColsList]; rfl
  | cons c cs ih => rw [predColsList, ih]; rfl

theorem predCols_and (cs : List Expr) : predCols (.and cs) = cs.flatMap predCols := by
  rw [predCols, predColsList_eq]

theorem predCols_or (cs : List Expr) : predCols (.or cs) = cs.flatMap predCols := by
  rw [predCols, predColsList_eq]

theorem predCols_leaves (p : Expr) : predCols p = (leaves p).flatMap predCols := by
  induction p using Expr.ind with
  | hleaf e he => rw [leaves_leaf he]; simp
  | htt => rw [predCols, leaves]; rfl
  | hff => rw [predCols, leaves]; rfl
  | hand cs ih =>
    rw [predCols_and, leaves, leavesList_eq, List.flatMap_assoc]
    exact List.flatMap_congr ih
  | hor cs ih =>
    rw [predCols_or, leaves, leavesList_eq, List.flatMap_assoc]
    exact List.flatMap_congr ih
  | hnot e ih => rw [predCols, leaves]; exact ih

theorem evalExpr_congr (pc : Scalar → Scalar → Option Ordering) {s s' : Schema} {r r' : Row} (p : Expr)
    (h : ∀ c ∈ predCols p, resolve s c r = resolve s' c r') : evalExpr pc s r p = evalExpr pc s' r' p := by
  induction p using Expr.ind with
  | hleaf e he =>
    cases e <;> first | (simp [isLeaf] at he; done) | (
      simp only [predCols, List.mem_singleton, forall_eq, List.not_mem_nil, false_implies, implies_true] at h
      simp only [evalExpr, evalCmp, evalBetween, evalInList, evalStartsWith, evalIsNull, h])
  | htt => rw [evalExpr, evalExpr]
  | hff => rw [evalExpr, evalExpr]
  | hand cs ih =>
    rw [evalExpr, evalExpr]
    rw [predCols_and] at h
    generalize Tri.t = acc
    induction cs generalizing acc with
    | nil => rw [evalAnd, evalAnd]
    | cons c cs ih2 =>
      rw [evalAnd, evalAnd, ih c List.mem_cons_self (fun x hx => h x (by simp [hx]))]
      cases evalExpr pc s' r' c with
      | error e => rfl
      | ok x =>
        simp only
        rw [ih2 (fun c hc => ih c (List.mem_cons_of_mem _ hc)) (fun x hx => h x (by
          rw [List.flatMap_cons]; exact List.mem_append_right _ hx))]
  | hor cs ih =>
    rw [evalExpr, evalExpr]
    rw [predCols_or] at h
    generalize Tri.f = acc
    induction cs generalizing acc with
    | nil => rw [evalOr, evalOr]
    | cons c cs ih2 =>
      rw [evalOr, evalOr, ih c List.mem_cons_self (fun x hx => h x (by simp [hx]))]
      cases evalExpr pc s' r' c with
      | error e => rfl
      | ok x =>
        simp only
        rw [ih2 (fun c hc => ih c (List.mem_cons_of_mem _ hc)) (fun x hx => h x (by
          rw [List.flatMap_cons]; exact List.mem_append_right _ hx))]
  | hnot e ih => rw [evalExpr, evalExpr, ih (fun c hc => h c (by rw [predCols]; exact hc))]

theorem split_congr {s s' : Schema} (p : Expr) (h : ∀ c ∈ predCols p, columnType s c = columnType s' c) :
    splitRowFilter s p = splitRowFilter s' p := by
  induction p using Expr.ind with
  | hleaf e he =>
    cases e <;> first | (simp [isLeaf] at he; done) | (
      simp only [predCols, List.mem_singleton, forall_eq, List.not_mem_nil, false_implies, implies_true] at h
      simp only [splitRowFilter, scalarMatchesColumn, scalarsMatchColumn, isStringColumn, h])
  | htt => rw [splitRowFilter, splitRowFilter]
  | hff => rw [splitRowFilter, splitRowFilter]
  | hand cs ih =>
    rw [predCols_and] at h
    have : splitAnd s cs = splitAnd s' cs := by
      induction cs with
      | nil => rw [splitAnd, splitAnd]
      | cons c cs ih2 =>
        rw [splitAnd, splitAnd, ih c List.mem_cons_self (fun x hx => h x (by simp [hx])),
          ih2 (fun c hc => ih c (List.mem_cons_of_mem _ hc)) (fun x hx => h x (by
            rw [List.flatMap_cons]; exact List.mem_append_right _ hx))]
    rw [splitRowFilter, splitRowFilter, this]
  | hor cs ih =>
    rw [predCols_or] at h
    have : splitOr s cs = splitOr s' cs := by
      induction cs with
      | nil => rw [splitOr, splitOr]
      | cons c cs ih2 =>
        rw [splitOr, splitOr, ih c List.mem_cons_self (fun x hx => h x (by simp [hx])),
          ih2 (fun c hc => ih c (List.mem_cons_of_mem _ hc)) (fun x hx => h x (by
            rw [List.flatMap_cons]; exact List.mem_append_right _ hx))]
    cases cs with
    | nil => rw [splitRowFilter, splitRowFilter]
    | cons c cs => rw [splitRowFilter, splitRowFilter, this]
  | hnot e ih =>
    rw [splitRowFilter, splitRowFilter, ih (fun c hc => h c (by rw [predCols]; exact hc))]

/-! ## Types and values of columns -/

theorem columnType_mem {base : Schema} (hn : (names base).Nodup) {f : String × DType} (hf : f ∈ base) :
    columnType base f.1 = some f.2 := by
  induction base with
  | nil => cases hf
  | cons g s ih =>
    rw [names, List.map_cons, List.nodup_cons] at hn
    unfold columnType at ih ⊢
    rw [List.find?_cons]
    rcases List.mem_cons.1 hf with rfl | hf
    · simp
    · have : (g.1 == f.1) = false := by
        rw [beq_eq_false_iff_ne]
        intro h
        exact hn.1 (h ▸ List.mem_map_of_mem hf)
      rw [this]
      exact ih hn.2 hf

theorem columnType_sub {base s : Schema} (hn : (names base).Nodup) (hs : ∀ f ∈ s, f ∈ base) {n : String}
    (h : n ∈ names s) : columnType s n = columnType base n := by
  unfold columnType
  have : (s.find? (fun f => f.1 == n)).isSome := by
    rw [List.find?_isSome]
    obtain ⟨f, hf, rfl⟩ := List.mem_map.1 h
    exact ⟨f, hf, by simp⟩
  obtain ⟨f, hf⟩ := Option.isSome_iff_exists.1 this
  have h1 := List.mem_of_find?_eq_some hf
  have h2 : f.1 = n := by simpa using List.find?_some hf
  rw [hf]
  have := columnType_mem hn (hs f h1)
  unfold columnType at this
  rw [h2] at this
  rw [this]; rfl

theorem columnIdx_spec : ∀ {s : Schema} {n : String}, n ∈ names s →
    ∃ i, columnIdx s n = some i ∧ (names s)[i]? = some n := by
  intro s
  induction s with
  | nil => intro n h; cases h
  | cons f s ih =>
    intro n h
    rw [columnIdx]
    by_cases hn : n ∈ names s
    · obtain ⟨i, h1, h2⟩ := ih hn
      exact ⟨i + 1, by rw [h1], by simpa using h2⟩
    · have : columnIdx s n = none := by
        clear ih h
        induction s with
        | nil => rw [columnIdx]
        | cons g s ih =>
          rw [names, List.map_cons, List.mem_cons, not_or] at hn
          rw [columnIdx, ih hn.2, if_neg (fun h => hn.1 h.symm)]
      rw [this]
      rcases List.mem_cons.1 h with rfl | h
      · exact ⟨0, by simp, rfl⟩
      · exact absurd h hn

/-- A column that is there is resolved by name. -/
theorem resolve_columns {base s : Schema} (hn : (names base).Nodup) {r : Row} (hr : r.length = base.length)
    (hs : ∀ f ∈ s, f ∈ base) {n : String} (h : n ∈ names s) :
    resolve s n (columns base (names s) r) = resolve base n r := by
  have key : ∀ {t : Schema}, n ∈ names t →
      resolve t n (columns base (names t) r) = .ok ((cellOf base r n).map convertCell) := by
    intro t ht
    obtain ⟨i, h1, h2⟩ := columnIdx_spec ht
    unfold resolve
    rw [h1]
    simp only [columns, List.getElem?_map, h2, Option.map_some]
    cases cellOf base r n <;> rfl
  have hb : n ∈ names base := by
    obtain ⟨f, hf, rfl⟩ := List.mem_map.1 h
    exact List.mem_map_of_mem (hs f hf)
  have := key hb
  rw [columns_all base r hn hr] at this
  rw [key h, this]

theorem matches_columns (pc : Scalar → Scalar → Option Ordering) {base s : Schema} (hn : (names base).Nodup) {r : Row}
    (hr : r.length = base.length) (hs : ∀ f ∈ s, f ∈ base) (q : Expr) (hq : ∀ c ∈ predCols q, c ∈ names s) :
    matchesOwned pc s q (columns base (names s) r) = matchesOwned pc base q r := by
  unfold matchesOwned
  rw [evalExpr_congr pc q (fun c hc => resolve_columns hn hr hs (hq c hc))]

/-! ## What remains of a predicate has no new columns -/

theorem cols_of_leaves {p q : Expr} (h : ∀ e ∈ leaves q, e ∈ leaves p) : ∀ c ∈ predCols q, c ∈ predCols p := by
  intro c hc
  rw [predCols_leaves] at hc ⊢
  obtain ⟨e, he, hce⟩ := List.mem_flatMap.1 hc
  exact List.mem_flatMap.2 ⟨e, h e he, hce⟩

theorem residual_cols {schema ks : Schema} {p q : Expr} {force nonSst needsAll : Bool}
    (h : residualFor schema ks p force nonSst needsAll = some q) : ∀ c ∈ predCols q, c ∈ predCols p := by
  unfold residualFor at h
  simp only at h
  split at h
  · cases h; exact fun c hc => hc
  · refine cols_of_leaves fun e he => ?_
    rcases ((combineWithAnd_spec (fun _ => Tri.t)).1 q h).2 e he with ⟨x, hx, hex⟩ | ⟨x, hx, hex⟩
    · exact residual_leaves schema p x hx e hex
    · split at hx
      · cases hx; exact hex
      · split at hx
        · exact memResidual_leaves ks p x hx e hex
        · cases hx

theorem plan_congr {K : Type} [LinearOrder K] (x : Ext K) (c : Codec K) {s s' : Schema} (ks : Schema) (force : Bool)
    (st : Store K) (p : Expr) (rts : Nat) (h : ∀ c ∈ predCols p, columnType s c = columnType s' c) :
    Plan.plan x c s ks force st p rts = Plan.plan x c s' ks force st p rts := by
  unfold Plan.plan residualFor
  rw [split_congr p h]

end Tonbo.Lemmas.Proj
