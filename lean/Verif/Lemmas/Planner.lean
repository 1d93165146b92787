import Verif.Spec.PlanView
import Mathlib.Data.List.Basic
import Mathlib.Tactic.SplitIfs

/-! Helper lemmas for C39. -/

set_option linter.unusedSectionVars false

namespace Tonbo.Lemmas.Planner
open Tonbo.Model.Manifest Tonbo.Model.Planner Tonbo.Spec

variable {K : Type} [LinearOrder K]

theorem perm_map {α β : Type} (f : α → β) : ∀ {l m : List β}, l.Perm m → ∀ (b : List α), m = b.map f →
    ∃ b' : List α, b'.Perm b ∧ l = b'.map f := by
  intro l m h
  induction h with
  | nil => intro b hb; exact ⟨b, List.Perm.refl _, hb⟩
  | cons x _ ih =>
    intro b hb
    obtain ⟨a, b1, rfl, rfl, h1⟩ := List.map_eq_cons_iff.1 hb.symm
    obtain ⟨b', p, rfl⟩ := ih b1 h1.symm
    exact ⟨a :: b', p.cons _, rfl⟩
  | swap x y l =>
    intro b hb
    obtain ⟨a, b1, rfl, rfl, h1⟩ := List.map_eq_cons_iff.1 hb.symm
    obtain ⟨a', b2, rfl, rfl, h2⟩ := List.map_eq_cons_iff.1 h1
    exact ⟨a' :: a :: b2, List.Perm.swap _ _ _, by simp [h2]⟩
  | trans _ _ ih1 ih2 =>
    intro b hb
    obtain ⟨b2, p2, e2⟩ := ih2 b hb
    obtain ⟨b1, p1, e1⟩ := ih1 b2 e2
    exact ⟨b1, p1.trans p2, e1⟩

/-- The planner's view of an entry. -/
def toL (e : Entry (Info K)) : LFile K := ⟨e.id, e.info.stats⟩

theorem selectLoop_spec (take : Nat) (cap : Option Nat) : ∀ (fs sel : List (LFile K)) (bytes : Nat),
    bytes = (sel.map LFile.bytes).sum →
    ∃ n, selectLoop take cap sel fs bytes = sel ++ fs.take n ∧
      (sel.length ≤ take → (sel ++ fs.take n).length ≤ take) ∧
      (sel = [] → fs ≠ [] → 1 ≤ take → 1 ≤ n) ∧
      (∀ c, cap = some c → ((sel.length ≤ 1 ∨ (sel.map LFile.bytes).sum ≤ c)) →
        (sel ++ fs.take n).length ≤ 1 ∨ ((sel ++ fs.take n).map LFile.bytes).sum ≤ c)
  | [], sel, bytes, _ => ⟨0, by simp [selectLoop], by simp, by simp, by simp⟩
  | f :: fs, sel, bytes, hb => by
    unfold selectLoop
    split_ifs with h1 h2
    · exact ⟨0, by simp, by simp, by intro h; subst h; simp at h1; omega, by simp⟩
    · refine ⟨0, by simp, by simp, ?_, by simp⟩
      intro h; subst h
      unfold capped at h2
      cases cap <;> simp at h2
    · obtain ⟨n, e1, e2, _, e4⟩ := selectLoop_spec take cap fs (sel ++ [f]) (bytes + f.bytes)
        (by simp [hb])
      refine ⟨n + 1, by rw [e1]; simp, ?_, by intros; omega, ?_⟩
      · intro _
        have := e2 (by simp; omega)
        simpa using this
      · intro c hc hs
        have := e4 c hc ?_
        · simpa using this
        · subst hc
          unfold capped at h2
          by_cases he : sel = []
          · left; simp [he]
          · right
            have : sel.isEmpty = false := by cases sel <;> simp_all
            simp [this] at h2
            simpa [← hb] using h2

theorem select_spec (S : Sorter K) (b : List (Entry (Info K))) (take : Nat) (cap : Option Nat)
    (ht : 1 ≤ take) (hb : b ≠ []) :
    ∃ src rest : List (Entry (Info K)), select S (b.map toL) take cap = src.map toL ∧ (src ++ rest).Perm b ∧
      src ≠ [] ∧ src.length ≤ take ∧
      (∀ c, cap = some c → src.length = 1 ∨ (src.map sizeOf').sum ≤ c) ∧
      ((∀ e ∈ b, loKey e ≠ none) → ∀ a ∈ src, ∀ e ∈ rest, ∀ x y, loKey a = some x → loKey e = some y → x ≤ y) := by
  obtain ⟨b', hp, he⟩ := perm_map toL (S.perm (b.map toL)) b rfl
  obtain ⟨n, s1, s2, s3, s4⟩ := selectLoop_spec take cap (S.sort (b.map toL)) [] 0 rfl
  have hb' : b' ≠ [] := by
    rintro rfl
    exact hb (by simpa using hp.symm)
  have hn : 1 ≤ n := s3 rfl (by rw [he]; simpa using hb') ht
  have hsel : select S (b.map toL) take cap = (b'.take n).map toL := by
    unfold select
    rw [if_neg (by simpa using hb), s1, he]
    simp [List.map_take]
  have hsz : ∀ e : Entry (Info K), (toL e).bytes = sizeOf' e := fun e => rfl
  have hne : b'.take n ≠ [] := by
    cases b' with
    | nil => exact absurd rfl hb'
    | cons a t =>
      cases n with
      | zero => omega
      | succ n => simp
  refine ⟨b'.take n, b'.drop n, hsel, by rw [List.take_append_drop]; exact hp, hne, ?_, ?_, ?_⟩
  · have := s2 (by simp)
    rw [he] at this
    simpa [← List.map_take] using this
  · intro c hc
    have := s4 c hc (.inl (by simp))
    rw [he] at this
    simp only [List.nil_append, ← List.map_take, List.length_map, List.map_map] at this
    rcases this with h | h
    · left
      have : 0 < (b'.take n).length := List.length_pos_iff.2 hne
      omega
    · right
      simpa [Function.comp_def, hsz] using h
  · intro hk a ha e her x y hx hy
    have hs := S.sorted (b.map toL) (by
      intro f hf
      obtain ⟨e, hm, rfl⟩ := List.mem_map.1 hf
      exact hk e hm)
    rw [he] at hs
    rw [← List.take_append_drop n b', List.map_append, List.pairwise_append] at hs
    have := hs.2.2 (toL a) (List.mem_map_of_mem ha) (toL e) (List.mem_map_of_mem her)
    unfold keyLe at this
    have e1 : (toL a).minKey = some x := hx
    have e2 : (toL e).minKey = some y := hy
    rw [e1, e2] at this
    exact this

theorem rangeLoop_none : ∀ (fs : List (LFile K)) (lo hi : Option K), rangeLoop lo hi fs = none →
    ∃ f ∈ fs, f.stats = none
  | [], _, _, h => by simp [rangeLoop] at h
  | f :: fs, lo, hi, h => by
    unfold rangeLoop at h
    cases hf : f.stats with
    | none => exact ⟨f, List.mem_cons_self, hf⟩
    | some s =>
      rw [hf] at h
      obtain ⟨g, hg, hs⟩ := rangeLoop_none fs _ _ h
      exact ⟨g, List.mem_cons_of_mem _ hg, hs⟩

theorem lowerKey_some {cur cand : Option K} {r : K} (h : lowerKey cur cand = some r) :
    (cur = some r ∨ cand = some r) ∧ (∀ x, cur = some x → r ≤ x) ∧ (∀ x, cand = some x → r ≤ x) := by
  unfold lowerKey at h
  cases cand with
  | none =>
    change cur = some r at h
    exact ⟨.inl h, fun x hx => by rw [h] at hx; cases hx; exact le_refl _, by simp⟩
  | some c =>
    cases cur with
    | none => cases h; exact ⟨.inr rfl, by simp, fun x hx => by cases hx; exact le_refl _⟩
    | some k =>
      simp only at h
      split_ifs at h with hk <;> cases h
      · exact ⟨.inl rfl, fun x hx => by cases hx; exact le_refl _, fun x hx => by cases hx; exact hk⟩
      · exact ⟨.inr rfl, fun x hx => by cases hx; exact le_of_lt (not_le.1 hk),
          fun x hx => by cases hx; exact le_refl _⟩

theorem raiseKey_some {cur cand : Option K} {r : K} (h : raiseKey cur cand = some r) :
    (cur = some r ∨ cand = some r) ∧ (∀ x, cur = some x → x ≤ r) ∧ (∀ x, cand = some x → x ≤ r) := by
  unfold raiseKey at h
  cases cand with
  | none =>
    change cur = some r at h
    exact ⟨.inl h, fun x hx => by rw [h] at hx; cases hx; exact le_refl _, by simp⟩
  | some c =>
    cases cur with
    | none => cases h; exact ⟨.inr rfl, by simp, fun x hx => by cases hx; exact le_refl _⟩
    | some k =>
      simp only at h
      split_ifs at h with hk <;> cases h
      · exact ⟨.inl rfl, fun x hx => by cases hx; exact le_refl _, fun x hx => by cases hx; exact hk⟩
      · exact ⟨.inr rfl, fun x hx => by cases hx; exact le_of_lt (not_le.1 hk),
          fun x hx => by cases hx; exact le_refl _⟩

theorem lowerKey_none {cur cand : Option K} (h : lowerKey cur cand = none) : cur = none ∧ cand = none := by
  unfold lowerKey at h
  cases cand <;> cases cur <;> simp_all
  split_ifs at h

theorem raiseKey_none {cur cand : Option K} (h : raiseKey cur cand = none) : cur = none ∧ cand = none := by
  unfold raiseKey at h
  cases cand <;> cases cur <;> simp_all
  split_ifs at h

/-- The largest key of a file, as `LFile.minKey`. -/
def maxKeyL (f : LFile K) : Option K := f.stats.bind (·.maxKey)

theorem rangeLoop_some : ∀ (fs : List (LFile K)) (lo hi lo' hi' : Option K),
    rangeLoop lo hi fs = some (lo', hi') →
    (∀ r, lo' = some r → (lo = some r ∨ ∃ f ∈ fs, f.minKey = some r) ∧ (∀ x, lo = some x → r ≤ x) ∧
      ∀ f ∈ fs, ∀ x, f.minKey = some x → r ≤ x) ∧
    (lo' = none → lo = none ∧ ∀ f ∈ fs, f.minKey = none) ∧
    (∀ r, hi' = some r → (hi = some r ∨ ∃ f ∈ fs, maxKeyL f = some r) ∧ (∀ x, hi = some x → x ≤ r) ∧
      ∀ f ∈ fs, ∀ x, maxKeyL f = some x → x ≤ r) ∧
    (hi' = none → hi = none ∧ ∀ f ∈ fs, maxKeyL f = none)
  | [], lo, hi, lo', hi', h => by
    simp only [rangeLoop, Option.some.injEq, Prod.mk.injEq] at h
    obtain ⟨rfl, rfl⟩ := h
    refine ⟨fun r hr => ⟨.inl hr, fun x hx => ?_, by simp⟩, fun h => ⟨h, by simp⟩,
      fun r hr => ⟨.inl hr, fun x hx => ?_, by simp⟩, fun h => ⟨h, by simp⟩⟩ <;>
    · rw [hr] at hx; cases hx; exact le_refl _
  | f :: fs, lo, hi, lo', hi', h => by
    unfold rangeLoop at h
    cases hs : f.stats with
    | none => rw [hs] at h; cases h
    | some s =>
      rw [hs] at h
      have hmin : f.minKey = s.minKey := by unfold LFile.minKey; rw [hs]; rfl
      have hmax : maxKeyL f = s.maxKey := by unfold maxKeyL; rw [hs]; rfl
      obtain ⟨a1, a2, a3, a4⟩ := rangeLoop_some fs _ _ _ _ h
      refine ⟨fun r hr => ?_, fun hn => ?_, fun r hr => ?_, fun hn => ?_⟩
      · obtain ⟨b1, b2, b3⟩ := a1 r hr
        refine ⟨?_, ?_, ?_⟩
        · rcases b1 with b1 | ⟨g, hg, hx⟩
          · rcases (lowerKey_some b1).1 with h | h
            · exact .inl h
            · exact .inr ⟨f, List.mem_cons_self, by rw [hmin, h]⟩
          · exact .inr ⟨g, List.mem_cons_of_mem _ hg, hx⟩
        · intro x hx
          cases hl : lowerKey lo s.minKey with
          | none => rw [(lowerKey_none hl).1] at hx; cases hx
          | some q => exact le_trans (b2 q hl) ((lowerKey_some hl).2.1 x hx)
        · intro g hg x hx
          rcases List.mem_cons.1 hg with rfl | hg
          · cases hl : lowerKey lo s.minKey with
            | none => rw [hmin, (lowerKey_none hl).2] at hx; cases hx
            | some q => exact le_trans (b2 q hl) ((lowerKey_some hl).2.2 x (by rw [← hmin]; exact hx))
          · exact b3 g hg x hx
      · obtain ⟨b1, b2⟩ := a2 hn
        refine ⟨(lowerKey_none b1).1, ?_⟩
        intro g hg
        rcases List.mem_cons.1 hg with rfl | hg
        · rw [hmin]; exact (lowerKey_none b1).2
        · exact b2 g hg
      · obtain ⟨b1, b2, b3⟩ := a3 r hr
        refine ⟨?_, ?_, ?_⟩
        · rcases b1 with b1 | ⟨g, hg, hx⟩
          · rcases (raiseKey_some b1).1 with h | h
            · exact .inl h
            · exact .inr ⟨f, List.mem_cons_self, by rw [hmax, h]⟩
          · exact .inr ⟨g, List.mem_cons_of_mem _ hg, hx⟩
        · intro x hx
          cases hl : raiseKey hi s.maxKey with
          | none => rw [(raiseKey_none hl).1] at hx; cases hx
          | some q => exact le_trans ((raiseKey_some hl).2.1 x hx) (b2 q hl)
        · intro g hg x hx
          rcases List.mem_cons.1 hg with rfl | hg
          · cases hl : raiseKey hi s.maxKey with
            | none => rw [hmax, (raiseKey_none hl).2] at hx; cases hx
            | some q => exact le_trans ((raiseKey_some hl).2.2 x (by rw [← hmax]; exact hx)) (b2 q hl)
          · exact b3 g hg x hx
      · obtain ⟨b1, b2⟩ := a4 hn
        refine ⟨(raiseKey_none b1).1, ?_⟩
        intro g hg
        rcases List.mem_cons.1 hg with rfl | hg
        · rw [hmax]; exact (raiseKey_none b1).2
        · exact b2 g hg

/-- The key range of some tables. -/
theorem keyRange_some {fs : List (LFile K)} {lo hi : K} (h : keyRange fs = some (lo, hi)) :
    (∃ f ∈ fs, f.minKey = some lo) ∧ (∃ f ∈ fs, maxKeyL f = some hi) ∧
    ∀ f ∈ fs, (∀ x, f.minKey = some x → lo ≤ x) ∧ ∀ x, maxKeyL f = some x → x ≤ hi := by
  unfold keyRange at h
  split at h
  · rename_i lo' hi' heq
    simp only [Option.some.injEq, Prod.mk.injEq] at h
    obtain ⟨rfl, rfl⟩ := h
    obtain ⟨a1, _, a3, _⟩ := rangeLoop_some fs none none _ _ heq
    obtain ⟨b1, _, b3⟩ := a1 _ rfl
    obtain ⟨c1, _, c3⟩ := a3 _ rfl
    simp only [reduceCtorEq, false_or] at b1 c1
    exact ⟨b1, c1, fun f hf => ⟨b3 f hf, c3 f hf⟩⟩
  · cases h

theorem keyRange_ne_none {fs : List (LFile K)} (hs : ∀ f ∈ fs, f.stats ≠ none)
    {a b : LFile K} (ha : a ∈ fs) (hb : b ∈ fs) {x y : K} (hx : a.minKey = some x) (hy : maxKeyL b = some y) :
    ∃ p, keyRange fs = some p := by
  unfold keyRange
  cases h : rangeLoop none none fs with
  | none =>
    obtain ⟨f, hf, hn⟩ := rangeLoop_none fs _ _ h
    exact absurd hn (hs f hf)
  | some p =>
    obtain ⟨lo, hi⟩ := p
    obtain ⟨_, a2, _, a4⟩ := rangeLoop_some fs none none _ _ h
    cases lo with
    | none => rw [(a2 rfl).2 a ha] at hx; cases hx
    | some lo =>
      cases hi with
      | none => rw [(a4 rfl).2 b hb] at hy; cases hy
      | some hi => exact ⟨_, rfl⟩

theorem mem_levelsFrom : ∀ (bs : List (List (Entry (Info K)))) (l : Nat) (i : LInfo K),
    i ∈ levelsFrom l bs ↔ ∃ k b, bs[k]? = some b ∧ b ≠ [] ∧ i = ⟨l + k, b.map toL⟩
  | [], l, i => by simp [levelsFrom]
  | b :: bs, l, i => by
    have ih := mem_levelsFrom bs (l + 1) i
    have key : (∃ k c, (b :: bs)[k]? = some c ∧ c ≠ [] ∧ i = ⟨l + k, c.map toL⟩) ↔
        (b ≠ [] ∧ i = ⟨l, b.map toL⟩) ∨ ∃ k c, bs[k]? = some c ∧ c ≠ [] ∧ i = ⟨l + 1 + k, c.map toL⟩ := by
      constructor
      · rintro ⟨k, c, h1, h2, h3⟩
        cases k with
        | zero => simp at h1; subst h1; exact .inl ⟨h2, h3⟩
        | succ k => exact .inr ⟨k, c, by simpa using h1, h2, by rw [h3]; congr 1; omega⟩
      · rintro (⟨h2, h3⟩ | ⟨k, c, h1, h2, h3⟩)
        · exact ⟨0, b, rfl, h2, h3⟩
        · exact ⟨k + 1, c, by simpa using h1, h2, by rw [h3]; congr 1; omega⟩
    rw [key]
    unfold levelsFrom
    split_ifs with h
    · rw [ih]; simp [h]
    · rw [List.mem_cons, ih]
      simp only [ne_eq, h, not_false_eq_true, true_and]
      rfl

theorem levelOf_spec (bs : List (List (Entry (Info K)))) (l : Nat) :
    levelOf (levelsFrom 0 bs) l = if bs.getD l [] = [] then none else some ⟨l, (bs.getD l []).map toL⟩ := by
  cases h : levelOf (levelsFrom 0 bs) l with
  | none =>
    rw [if_pos]
    by_contra hc
    have hm : (⟨0 + l, (bs.getD l []).map toL⟩ : LInfo K) ∈ levelsFrom 0 bs := by
      rw [mem_levelsFrom]
      refine ⟨l, bs.getD l [], ?_, hc, rfl⟩
      cases hb : bs[l]? with
      | none => rw [List.getD_eq_getElem?_getD, hb] at hc; exact absurd rfl hc
      | some b => rw [List.getD_eq_getElem?_getD, hb]; rfl
    have := List.find?_eq_none.1 h _ hm
    simp at this
  | some i =>
    have hm := List.mem_of_find?_eq_some h
    have hp := List.find?_some h
    simp at hp
    rw [mem_levelsFrom] at hm
    obtain ⟨k, b, h1, h2, rfl⟩ := hm
    simp at hp
    subst hp
    have : bs.getD k [] = b := by rw [List.getD_eq_getElem?_getD, h1]; rfl
    rw [this, if_neg h2]
    simp

theorem totalBytes_eq : ∀ (b : List (Entry (Info K))), totalBytes (b.map toL) = (b.map sizeOf').sum
  | [] => rfl
  | e :: b => by
    have ih := totalBytes_eq b
    unfold totalBytes at ih ⊢
    rw [List.map_cons, List.map_cons, List.sum_cons, ← ih, List.filterMap_cons]
    unfold toL sizeOf'
    cases e.info.stats <;> simp

theorem overBytes_iff (cap : Option Nat) (b : List (Entry (Info K))) :
    overBytes cap (b.map toL) = true ↔ Reached cap ((b.map sizeOf').sum) := by
  unfold overBytes Reached
  cases cap <;> simp [totalBytes_eq]

theorem nodup_of_asc {b : List (Entry (Info K))} (h : b.Pairwise (fun a c => a.id < c.id)) :
    (b.map (·.id)).Nodup := by
  rw [List.nodup_iff_pairwise_ne, List.pairwise_map]
  exact h.imp (fun h => by omega)

theorem overlaps_iff (lo hi : K) (e : Entry (Info K)) :
    overlaps lo hi (toL e) = true ↔ ∃ x y, loKey e = some x ∧ hiKey e = some y ∧ x ≤ hi ∧ lo ≤ y := by
  unfold overlaps toL loKey hiKey
  simp only
  cases e.info.stats with
  | none => simp
  | some s =>
    cases h1 : s.minKey <;> cases h2 : s.maxKey <;> simp [h1, h2]

end Tonbo.Lemmas.Planner
