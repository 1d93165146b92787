import Verif.Model.ScanPlan
import Verif.Props.C05_C06_Scan
import Verif.Props.C08_Split
import Verif.Props.C09_KeyRange

/-! # Sources of a planned scan -/

set_option linter.unusedSectionVars false

namespace Tonbo.Lemmas.Plan
open Tonbo.Model Tonbo.Model.Mem Tonbo.Model.Merge Tonbo.Spec Tonbo.Lemmas.Mem Tonbo.Lemmas.Scan
open Tonbo.Props.C05 (ready mem_rowsOf)
open Tonbo.Model.Sst (File)

section Generic
variable {K R : Type} [LinearOrder K]

/-- What a source must deliver: ascending keys, exactness on the keys `good`, and `rowOk` rows. -/
structure SrcOk (rts : Nat) (good : K → Prop) (rowOk : K → R → Prop) (out : List (Entry K R))
    (H : Ver K R → Prop) : Prop where
  asc : (out.map toVer).Pairwise (fun a b => a.key < b.key)
  exact : ∀ w, good w.key → (w ∈ out.map toVer ↔ Newest H rts w)
  rows : ∀ k r, (k, r) ∈ rowsOf out → rowOk k r
  seen : ∀ e ∈ out, e.kt.ts ≤ rts

theorem ready_some (l : List (Entry K R)) : ready (l.map some) = l := by
  simp [ready, List.filterMap_map]

theorem forall₂_getElem? {α β : Type} {Q : α → β → Prop} : ∀ {l : List α} {l' : List β},
    List.Forall₂ Q l l' → ∀ {i : Nat} {a : α}, l[i]? = some a → ∃ b, l'[i]? = some b ∧ Q a b
  | _, _, .nil, i, a, h => by simp at h
  | _, _, .cons h t, 0, a, e => by simp at e; subst e; exact ⟨_, rfl, h⟩
  | _, _, .cons h t, i + 1, a, e => by
    simp at e ⊢
    exact forall₂_getElem? t e

theorem forall₂_mem_right {α β : Type} {Q : α → β → Prop} : ∀ {l : List α} {l' : List β},
    List.Forall₂ Q l l' → ∀ {b : β}, b ∈ l' → ∃ a ∈ l, Q a b
  | _, _, .nil, b, h => by cases h
  | _, _, .cons h t, b, hb => by
    rcases List.mem_cons.1 hb with rfl | hb
    · exact ⟨_, List.mem_cons_self, h⟩
    · obtain ⟨a, h1, h2⟩ := forall₂_mem_right t hb
      exact ⟨a, List.mem_cons_of_mem _ h1, h2⟩

/-- Merging sources given as lists. -/
theorem merged_lists (ss : List (Prio × List (Entry K R))) (Hs : List (Ver K R → Prop)) (rts : Nat)
    (good : K → Prop) (rowOk : K → R → Prop)
    (h : List.Forall₂ (fun s H => SrcOk rts good rowOk s.2 H) ss Hs)
    (hfun : ∀ k, good k → Functional (fun w => w.key = k ∧ ∃ H ∈ Hs, H w)) :
    ∃ tr, mergeAll (ss.map (fun s => (s.1, s.2.map some))) none = some tr ∧
      (rowsOf (ready tr)).Pairwise (fun a b => a.1 < b.1) ∧
      (∀ k r, good k → ((k, r) ∈ rowsOf (ready tr) ↔
        Visible (fun w => ∃ H ∈ Hs, H w) rts k r)) ∧
      ∀ k r, (k, r) ∈ rowsOf (ready tr) → rowOk k r := by
  have hlen : ss.length = Hs.length := h.length_eq
  have hH : ∀ w, (∃ i < (ss.map (fun s => (s.1, s.2.map some))).length,
      (∃ H, Hs[i]? = some H ∧ H w)) ↔ ∃ H ∈ Hs, H w := by
    intro w
    rw [List.length_map, hlen]
    constructor
    · rintro ⟨i, _, H, h1, h2⟩; exact ⟨H, List.mem_of_getElem? h1, h2⟩
    · rintro ⟨H, h1, h2⟩
      obtain ⟨i, hi⟩ := List.mem_iff_getElem?.1 h1
      exact ⟨i, (List.getElem?_eq_some_iff.1 hi).1, H, hi, h2⟩
  obtain ⟨tr, h1, h2, h3, h4⟩ := Props.C05.merged_scan_on (ss.map (fun s => (s.1, s.2.map some)))
    (fun i w => ∃ H, Hs[i]? = some H ∧ H w) rts good
    (by
      intro ps hps
      obtain ⟨s, hs, rfl⟩ := List.mem_map.1 hps
      obtain ⟨i, hi⟩ := List.mem_iff_getElem?.1 hs
      obtain ⟨H, _, ho⟩ := forall₂_getElem? h hi
      rw [ready_some]; exact ho.asc)
    (by
      intro i p s hs w hw
      rw [List.getElem?_map] at hs
      cases hi : ss[i]? with
      | none => rw [hi] at hs; cases hs
      | some a =>
        rw [hi] at hs
        simp only [Option.map_some, Option.some.injEq, Prod.mk.injEq] at hs
        obtain ⟨rfl, rfl⟩ := hs
        obtain ⟨H, hH', ho⟩ := forall₂_getElem? h hi
        rw [ready_some, ho.exact w hw]
        have : (fun w => ∃ H, Hs[i]? = some H ∧ H w) = H := by
          funext w; simp [hH']
        rw [this])
    (by
      intro k hk a b ha hb
      exact hfun k hk a b ⟨ha.1, (hH a).1 ha.2⟩ ⟨hb.1, (hH b).1 hb.2⟩)
  refine ⟨tr, h1, h2, ?_, ?_⟩
  · intro k r hk
    rw [h3 k r hk]
    have : (fun w => ∃ i < (ss.map (fun s => (s.1, s.2.map some))).length,
      (∃ H, Hs[i]? = some H ∧ H w)) = (fun w => ∃ H ∈ Hs, H w) := funext fun w => propext (hH w)
    rw [this]
  · intro k r hm
    obtain ⟨ps, hps, hr⟩ := h4 k r hm
    obtain ⟨s, hs, rfl⟩ := List.mem_map.1 hps
    obtain ⟨i, hi⟩ := List.mem_iff_getElem?.1 hs
    obtain ⟨H, _, ho⟩ := forall₂_getElem? h hi
    rw [ready_some] at hr
    exact ho.rows k r hr

theorem visible_congr {H H' : Ver K R → Prop} {rts : Nat} {k : K} {r : R}
    (h : ∀ w, w.key = k → w.ts ≤ rts → (H w ↔ H' w)) : Visible H rts k r ↔ Visible H' rts k r := by
  have key : ∀ {H H' : Ver K R → Prop}, (∀ w, w.key = k → w.ts ≤ rts → (H w ↔ H' w)) →
      Visible H rts k r → Visible H' rts k r := by
    rintro H H' h ⟨t, h1, h2, h3⟩
    exact ⟨t, (h _ rfl h2).1 h1, h2, fun u hu huk hut => h3 u ((h u huk hut).2 hu) huk hut⟩
  exact ⟨key h, key (fun w a b => (h w a b).symm)⟩

theorem mapM_forall₂ {α β : Type} {f : α → Option β} {Q : α → β → Prop} : ∀ {l : List α},
    (∀ a ∈ l, ∃ b, f a = some b ∧ Q a b) → ∃ l', l.mapM f = some l' ∧ List.Forall₂ Q l l'
  | [], _ => ⟨[], rfl, .nil⟩
  | a :: l, h => by
    obtain ⟨b, h1, h2⟩ := h a List.mem_cons_self
    obtain ⟨l', h3, h4⟩ := mapM_forall₂ (l := l) (fun x hx => h x (List.mem_cons_of_mem _ hx))
    exact ⟨b :: l', by simp [List.mapM_cons, h1, h3], .cons h2 h4⟩

/-! ## Memory -/

theorem foldl_min (l : List Nat) : ∀ (a b : Nat),
    let q := l.foldl (fun a x => if x < a.1 then (x, if x > a.2 then x else a.2)
      else (a.1, if x > a.2 then x else a.2)) ((a, b) : Nat × Nat)
    q.1 ≤ a ∧ b ≤ q.2 ∧ (∀ x ∈ l, q.1 ≤ x ∧ x ≤ q.2) ∧ (q.1 = a ∨ q.1 ∈ l) ∧ (q.2 = b ∨ q.2 ∈ l) := by
  induction l with
  | nil => intro a b; simp
  | cons y l ih =>
    intro a b
    have hst : ∃ a' b' : Nat, (if y < a then (y, if y > b then y else b)
        else (a, if y > b then y else b)) = (a', b') ∧ a' ≤ a ∧ a' ≤ y ∧ b ≤ b' ∧ y ≤ b' ∧
        (a' = a ∨ a' = y) ∧ (b' = b ∨ b' = y) := by
      split <;> split <;> exact ⟨_, _, rfl, by omega, by omega, by omega, by omega, by omega, by omega⟩
    obtain ⟨a', b', e, c1, c2, c3, c4, c5, c6⟩ := hst
    simp only [List.foldl_cons, e]
    obtain ⟨h1, h2, h3, h4, h5⟩ := ih a' b'
    refine ⟨by omega, by omega, ?_, ?_, ?_⟩
    · intro x hx
      rcases List.mem_cons.1 hx with rfl | hx
      · omega
      · exact h3 x hx
    · rcases h4 with h | h
      · rcases c5 with c | c
        · exact .inl (h.trans c)
        · exact .inr (by rw [h, c]; exact List.mem_cons_self)
      · exact .inr (List.mem_cons_of_mem _ h)
    · rcases h5 with h | h
      · rcases c6 with c | c
        · exact .inl (h.trans c)
        · exact .inr (by rw [h, c]; exact List.mem_cons_self)
      · exact .inr (List.mem_cons_of_mem _ h)

theorem tsBounds_spec {l : List Nat} {q : Nat × Nat} (h : tsBounds l = some q) :
    (∀ x ∈ l, q.1 ≤ x ∧ x ≤ q.2) ∧ q.1 ∈ l ∧ q.2 ∈ l := by
  cases l with
  | nil => cases h
  | cons t ts =>
    simp only [tsBounds, Option.some.injEq] at h
    obtain ⟨h1, h2, h3, h4, h5⟩ := foldl_min ts t t
    rw [h] at h1 h2 h3 h4 h5
    refine ⟨?_, ?_, ?_⟩
    · intro x hx
      rcases List.mem_cons.1 hx with rfl | hx
      · exact ⟨h1, h2⟩
      · exact h3 x hx
    · rcases h4 with h | h
      · rw [h]; exact List.mem_cons_self
      · exact List.mem_cons_of_mem _ h
    · rcases h5 with h | h
      · rw [h]; exact List.mem_cons_self
      · exact List.mem_cons_of_mem _ h

theorem tsBounds_none {l : List Nat} (h : tsBounds l = none) : l = [] := by
  cases l with
  | nil => rfl
  | cons t ts => simp [tsBounds] at h

/-- First and last key of a sorted index enclose all keys. -/
theorem sorted_ends {β : Type} {l : List (KT K × β)} (hs : SMap.Sorted l) {e : KT K × β} (he : e ∈ l) :
    ∃ mn mx, l.head?.map (·.1.key) = some mn ∧ l.getLast?.map (·.1.key) = some mx ∧
      mn ≤ e.1.key ∧ e.1.key ≤ mx := by
  have key_le : ∀ {a b : KT K}, a ≤ b → a.key ≤ b.key := fun h => Lemmas.Sst.key_le_of_le h
  have hne : l ≠ [] := List.ne_nil_of_mem he
  obtain ⟨a, l', rfl⟩ := List.exists_cons_of_ne_nil hne
  refine ⟨a.1.key, ((a :: l').getLast hne).1.key, rfl, by rw [List.getLast?_eq_getLast_of_ne_nil hne]; rfl, ?_, ?_⟩
  · rcases List.mem_cons.1 he with rfl | he
    · exact le_refl _
    · exact key_le (le_of_lt ((List.pairwise_cons.1 hs).1 e he))
  · have hsplit := List.dropLast_append_getLast hne
    have he' := he
    rw [← hsplit] at he'
    rcases List.mem_append.1 he' with h | h
    · have hs' : SMap.Sorted ((a :: l').dropLast ++ [(a :: l').getLast hne]) := by rw [hsplit]; exact hs
      exact key_le (le_of_lt ((List.pairwise_append.1 hs').2.2 e h _ (by simp)))
    · rw [List.mem_singleton.1 h]

/-- Any range, as the planner passes it. -/
def rangeOk (range : Option (Bnd K × Bnd K)) (k : K) : Prop :=
  ∀ q, range = some q → inBounds q.1 q.2 k = true

theorem wf_scan {ext : R → Option K} {s : Inner K R} (h : WF ext s)
    (htm : ∀ e ∈ s.index, e.1.ts ≤ tsMax) (range : Option (Bnd K × Bnd K)) (rts : Nat) :
    ∃ out, scan s range rts = some out ∧
      IsVersionScan (Content s s.index) rts (rangeOk range) (out.map toVer) := by
  cases range with
  | none =>
    obtain ⟨out, h1, h2⟩ := scanLoop_spec h (rts := rts) (f := fun _ => true) (g := fun _ => true)
      (by simp)
    rw [List.filter_eq_self.2 (by simp)] at h1
    exact ⟨out, h1, (isVersionScan_congr (fun _ => Iff.rfl) (by simp [rangeOk])).1 h2⟩
  | some q =>
    obtain ⟨lo, hi⟩ := q
    obtain ⟨out, h1, h2⟩ := scanLoop_spec h (rts := rts) (f := inBounds lo hi)
      (g := fun e => inBounds (lowerKT lo) (upperKT hi) e.1)
      (fun e he => inBounds_lift (htm e he))
    exact ⟨out, by simpa [scan] using h1,
      (isVersionScan_congr (fun _ => Iff.rfl) (by simp [rangeOk])).1 h2⟩

theorem imm_wf_scan {ext : R → Option K} {m : Imm K R} (h : Imm.WF ext m)
    (htm : ∀ e ∈ m.index, e.1.ts ≤ tsMax) (range : Option (Bnd K × Bnd K))
    (hr : ∀ q, range = some q → rangePanics q.1 q.2 = false) (rts : Nat) :
    ∃ out, m.scan range rts = some out ∧
      IsVersionScan (Imm.Content m) rts (rangeOk range) (out.map toVer) := by
  cases range with
  | none =>
    obtain ⟨out, h1, h2⟩ := Imm.scanLoop_spec h (rts := rts) (f := fun _ => true) (g := fun _ => true)
      (by simp)
    rw [List.filter_eq_self.2 (by simp)] at h1
    exact ⟨out, h1, (isVersionScan_congr (fun _ => Iff.rfl) (by simp [rangeOk])).1 h2⟩
  | some q =>
    obtain ⟨lo, hi⟩ := q
    obtain ⟨out, h1, h2⟩ := Imm.scanLoop_spec h (rts := rts) (f := inBounds lo hi)
      (g := fun e => inBounds (lowerKT lo) (upperKT hi) e.1)
      (fun e he => inBounds_lift (htm e he))
    refine ⟨out, ?_, (isVersionScan_congr (fun _ => Iff.rfl) (by simp [rangeOk])).1 h2⟩
    simp only [Mem.Imm.scan, rangePanics_lift, hr (lo, hi) rfl]
    simpa using h1

/-- A range scan is a source. -/
theorem srcOk_of_versionScan {H : Ver K R → Prop} {rts : Nat} {inR : K → Prop} {out : List (Entry K R)}
    (h : IsVersionScan H rts inR (out.map toVer)) {good : K → Prop} (hg : ∀ k, good k → inR k)
    {rowOk : K → R → Prop} (hrow : ∀ k r t, inR k → t ≤ rts → H ⟨k, t, .put r⟩ → rowOk k r) :
    SrcOk rts good rowOk out H := by
  refine ⟨h.1, fun w hw => ?_, fun k r hm => ?_, fun e he => ?_⟩
  rotate_right
  · have := ((h.2 _).1 (List.mem_map.2 ⟨e, he, rfl⟩)).2.2.1
    cases e <;> exact this
  · rw [h.2 w]; exact ⟨fun a => a.2, fun a => ⟨hg _ hw, a⟩⟩
  · obtain ⟨t, ht⟩ := mem_rowsOf.1 hm
    obtain ⟨h1, h2, h3, _⟩ := (h.2 ⟨k, t, .put r⟩).1 (List.mem_map.2 ⟨_, ht, rfl⟩)
    exact hrow k r t h1 h3 h2

/-! ## Files -/

theorem firstIn_filter {d : List (KT K × R)} {m : KT K × R → Bool} {kt : KT K} {r : R}
    (h : ∀ e ∈ d, e.1 = kt → m e = true) : FirstIn (d.filter m) kt r ↔ FirstIn d kt r := by
  induction d with
  | nil => simp
  | cons p d ih =>
    have ih := ih (fun e he => h e (List.mem_cons_of_mem _ he))
    rw [List.filter_cons]
    split
    · rw [Lemmas.Sst.firstIn_cons, Lemmas.Sst.firstIn_cons, ih]
    · rename_i hp
      rw [ih, Lemmas.Sst.firstIn_cons]
      constructor
      · intro h1
        exact .inr ⟨fun e => hp (h p List.mem_cons_self e), h1⟩
      · rintro (h1 | h1)
        · exact absurd (h p List.mem_cons_self (by rw [h1])) hp
        · exact h1.2

/-- Reading some rows of a file with a filter is exact on the keys whose visible rows are all read and
pass the filter. -/
theorem sst_source {f : File K R} (hs : FileSorted f) {sel : List (KT K × R)} (hsub : sel.Sublist f.data)
    {m : KT K × R → Bool} {rts : Nat} (hsel : sel.filter m = f.data.filter m)
    {good : K → Prop} (hgood : ∀ e ∈ f.data, good e.1.key → e.1.ts ≤ rts → m e = true)
    {keep : R → Bool} (hkeep : ∀ e ∈ f.data, m e = true → keep e.2 = true)
    {rowOk : K → R → Prop} (hrow : ∀ e ∈ f.data, e.1.ts ≤ rts → keep e.2 = true → rowOk e.1.key e.2) :
    ∃ out, Model.Sst.scan ⟨sel, f.dels⟩ keep rts = some out ∧
      SrcOk rts good rowOk out (FileVersions f) := by
  obtain ⟨out, h1, h2⟩ := Lemmas.Sst.scan_spec ⟨sel, f.dels⟩ ⟨hs.1.sublist hsub, hs.2⟩ keep rts
  refine ⟨out, h1, h2.1, ?_, ?_, fun e he => ?_⟩
  rotate_right
  · have := ((h2.2 _).1 (List.mem_map.2 ⟨e, he, rfl⟩)).2.2.1
    cases e <;> exact this
  · intro w hw
    rw [h2.2 w]
    have key : ∀ u : Ver K R, u.key = w.key → u.ts ≤ rts →
        (FileVersions (Lemmas.Sst.filtered ⟨sel, f.dels⟩ keep) u ↔ FileVersions f u) := by
      intro u hk ht
      cases hop : u.op with
      | del => simp only [FileVersions, hop, Lemmas.Sst.filtered]
      | put r =>
        simp only [FileVersions, hop, Lemmas.Sst.filtered]
        refine and_congr_left (fun _ => ?_)
        have hm : ∀ e ∈ f.data, e.1 = ⟨u.key, u.ts⟩ → m e = true := by
          intro e he heq
          exact hgood e he (by rw [heq, hk]; exact hw) (by rw [heq]; exact ht)
        rw [← firstIn_filter (m := m) (d := sel.filter (fun e => keep e.2))
          (fun e he heq => hm e (hsub.subset (List.mem_filter.1 he).1) heq),
          List.filter_filter]
        have : (sel.filter (fun a => m a && keep a.2)) = f.data.filter m := by
          rw [← hsel]
          apply List.filter_congr
          intro e he
          cases hme : m e with
          | false => rfl
          | true => simp [hkeep e (hsub.subset he) hme]
        rw [this]
        exact firstIn_filter hm
    constructor
    · rintro ⟨_, a, b, c⟩
      exact ⟨(key w rfl b).1 a, b, fun u hu huk hut => c u ((key u huk hut).2 hu) huk hut⟩
    · rintro ⟨a, b, c⟩
      exact ⟨trivial, (key w rfl b).2 a, b, fun u hu huk hut => c u ((key u huk hut).1 hu) huk hut⟩
  · intro k r hm
    obtain ⟨t, ht⟩ := mem_rowsOf.1 hm
    obtain ⟨_, a, b, _⟩ := (h2.2 ⟨k, t, .put r⟩).1 (List.mem_map.2 ⟨_, ht, rfl⟩)
    have := Lemmas.Sst.firstIn_mem a.1
    simp only [Lemmas.Sst.filtered, List.mem_filter] at this
    exact hrow _ (hsub.subset this.1) b this.2

end Generic

/-! ## Leaves of what remains -/
section Leaves
open Tonbo.Model.Pred Tonbo.Lemmas.Pred Tonbo.Lemmas.PredEval

theorem splitAnd_mem₂ (schema : Schema) : ∀ (cs : List Expr) (x : Expr),
    x ∈ (splitAnd schema cs).2 ↔ ∃ c ∈ cs, (splitRowFilter schema c).residual = some x
  | [], x => by rw [splitAnd]; simp
  | c :: cs, x => by
    rw [splitAnd]
    simp only [List.mem_append, Option.mem_toList, splitAnd_mem₂ schema cs x, List.mem_cons,
      exists_eq_or_imp]

theorem residual_leaves (schema : Schema) (p : Expr) : ∀ q, (splitRowFilter schema p).residual = some q →
    ∀ e ∈ leaves q, e ∈ leaves p := by
  induction p using Expr.ind with
  | hleaf e he =>
    cases e <;> first | (simp [isLeaf] at he; done) | (
      rw [splitRowFilter]
      simp only [Split.leaf]
      split
      · intro q hq; cases hq
      · intro q hq x hx
        cases hq
        exact hx)
  | htt => rw [splitRowFilter]; intro q hq; cases hq
  | hff => rw [splitRowFilter]; intro q hq; cases hq
  | hand cs ih =>
    rw [splitRowFilter]
    intro q hq e he
    obtain ⟨x, hx, hxe⟩ := mem_leaves_combineAnd hq he
    obtain ⟨c, hc, hcx⟩ := (splitAnd_mem₂ schema cs x).1 hx
    rw [leaves, leavesList_eq]
    exact List.mem_flatMap.2 ⟨c, hc, ih c hc x hcx e hxe⟩
  | hor cs ih =>
    cases cs with
    | nil => rw [splitRowFilter]; intro q hq; cases hq
    | cons c cs =>
      rw [splitRowFilter]
      cases hs : splitOr schema (c :: cs) with
      | residual => intro q hq e he; cases hq; exact he
      | noFilter => intro q hq; cases hq
      | parts ps => intro q hq; cases hq
  | hnot e ih =>
    rw [splitRowFilter]
    cases hr : (splitRowFilter schema e).residual with
    | some r => intro q hq x hx; simp at hq; subst hq; exact hx
    | none =>
      cases hp : (splitRowFilter schema e).pushdown with
      | none => intro q hq; simp at hq
      | some q' => intro q hq; simp at hq

theorem splitNonSstAnd_mem₂ (kc : String) (kt : DType) : ∀ (cs : List Expr) (x : Expr),
    x ∈ (splitNonSstAnd kc kt cs).2 ↔ ∃ c ∈ cs, (splitNonSstInner kc kt c).residual = some x
  | [], x => by rw [splitNonSstAnd]; simp
  | c :: cs, x => by
    rw [splitNonSstAnd]
    simp only [List.mem_append, Option.mem_toList, splitNonSstAnd_mem₂ kc kt cs x, List.mem_cons,
      exists_eq_or_imp]

theorem leaf_residual {b : Bool} {e q : Expr} (h : (Split.leaf b e).residual = some q) : q = e := by
  unfold Split.leaf at h
  split at h
  · cases h
  · cases h; rfl

theorem memResidualInner_leaves (kc : String) (kt : DType) (p : Expr) :
    ∀ q, (splitNonSstInner kc kt p).residual = some q → ∀ e ∈ leaves q, e ∈ leaves p := by
  induction p using Expr.ind with
  | hleaf e he =>
    cases e <;> first | (simp [isLeaf] at he; done) | (
      intro q hq x hx
      rw [splitNonSstInner] at hq
      · cases leaf_residual hq; exact hx
      all_goals simp)
  | htt => rw [splitNonSstInner]; intro q hq; cases hq
  | hff => rw [splitNonSstInner]; intro q hq; cases hq
  | hand cs ih =>
    rw [splitNonSstInner]
    intro q hq e he
    obtain ⟨x, hx, hxe⟩ := mem_leaves_combineAnd hq he
    obtain ⟨c, hc, hcx⟩ := (splitNonSstAnd_mem₂ kc kt cs x).1 hx
    rw [leaves, leavesList_eq]
    exact List.mem_flatMap.2 ⟨c, hc, ih c hc x hcx e hxe⟩
  | hor cs ih =>
    intro q hq x hx
    rw [splitNonSstInner] at hq
    · cases leaf_residual hq; exact hx
    all_goals simp
  | hnot e ih =>
    intro q hq x hx
    rw [splitNonSstInner] at hq
    · cases leaf_residual hq; exact hx
    all_goals simp

theorem memResidual_leaves (ks : Schema) (p : Expr) :
    ∀ q, (splitNonSst ks p).residual = some q → ∀ e ∈ leaves q, e ∈ leaves p := by
  intro q hq
  unfold splitNonSst at hq
  split at hq
  · cases hq
  · cases hq
  · exact memResidualInner_leaves _ _ _ q hq
  · cases hq; exact fun e he => he

theorem combineWithAnd_spec {a b : Option Expr} (leaf : Expr → Tri) :
    (∀ q, combineWithAnd a b = some q →
      (kleene leaf q = .t ↔ (∀ x, a = some x → kleene leaf x = .t) ∧ ∀ x, b = some x → kleene leaf x = .t) ∧
      ∀ e ∈ leaves q, (∃ x, a = some x ∧ e ∈ leaves x) ∨ ∃ x, b = some x ∧ e ∈ leaves x) ∧
    (combineWithAnd a b = none → a = none ∧ b = none) := by
  constructor
  · intro q hq
    cases a with
    | none =>
      cases b with
      | none => cases hq
      | some y => cases hq; simp
    | some x =>
      cases b with
      | none => cases hq; simp
      | some y =>
        cases hq
        constructor
        · rw [kleene, kleeneList_eq, mAnd_true]
          simp
        · intro e he
          rw [leaves, leavesList_eq] at he
          simp at he
          rcases he with h | h
          · exact .inl ⟨x, rfl, h⟩
          · exact .inr ⟨y, rfl, h⟩
  · intro h
    cases a <;> cases b <;> simp_all [combineWithAnd]

end Leaves
end Tonbo.Lemmas.Plan
