import Mathlib.Order.Defs.LinearOrder

/-!
# Ordered maps

`BTreeMap` and `crossbeam_skiplist::SkipMap` are modelled as association lists sorted by key.
Only the sequential behaviour of the containers is modelled.
-/

namespace Tonbo.Model.SMap

variable {α β : Type} [LinearOrder α]

/-- Keys strictly ascending. -/
def Sorted (l : List (α × β)) : Prop := l.Pairwise (fun a b => a.1 < b.1)

/-- `BTreeMap::insert` / `SkipMap::insert`: an existing entry with the same key is replaced. -/
def insert (k : α) (v : β) : List (α × β) → List (α × β)
  | [] => [(k, v)]
  | (a, b) :: l =>
    if k < a then (k, v) :: (a, b) :: l
    else if k = a then (k, v) :: l
    else (a, b) :: insert k v l

/-- `BTreeMap::get`. -/
def get? (k : α) : List (α × β) → Option β
  | [] => none
  | (a, b) :: l => if k = a then some b else get? k l

theorem mem_insert_of_mem {k : α} {v : β} {l : List (α × β)} {p : α × β}
    (h : p ∈ insert k v l) : p = (k, v) ∨ p ∈ l := by
  induction l with
  | nil => simp [insert] at h; exact .inl h
  | cons q l ih =>
    obtain ⟨a, b⟩ := q
    simp only [insert] at h
    split at h
    · simpa using h
    · split at h
      · rcases List.mem_cons.1 h with h | h
        · exact .inl h
        · exact .inr (List.mem_cons_of_mem _ h)
      · rcases List.mem_cons.1 h with h | h
        · exact .inr (h ▸ List.mem_cons_self)
        · rcases ih h with h | h
          · exact .inl h
          · exact .inr (List.mem_cons_of_mem _ h)

theorem sorted_insert {k : α} {v : β} {l : List (α × β)} (h : Sorted l) :
    Sorted (insert k v l) := by
  induction l with
  | nil => simp [insert, Sorted]
  | cons q l ih =>
    obtain ⟨a, b⟩ := q
    unfold Sorted at h ih
    rw [List.pairwise_cons] at h
    simp only [insert]
    split
    · rename_i hka
      simp only [Sorted, List.pairwise_cons]
      refine ⟨?_, h.1, h.2⟩
      intro p hp
      rcases List.mem_cons.1 hp with rfl | hp
      · exact hka
      · exact lt_trans hka (h.1 p hp)
    · split
      · rename_i hka
        subst hka
        simp only [Sorted, List.pairwise_cons]
        exact ⟨h.1, h.2⟩
      · rename_i h1 h2
        have hlt : a < k := lt_of_le_of_ne (not_lt.1 h1) (Ne.symm h2)
        simp only [Sorted, List.pairwise_cons]
        refine ⟨?_, ih h.2⟩
        intro p hp
        rcases mem_insert_of_mem hp with rfl | hp
        · exact hlt
        · exact h.1 p hp

theorem mem_insert {k : α} {v : β} {l : List (α × β)} (h : Sorted l) {p : α × β} :
    p ∈ insert k v l ↔ p = (k, v) ∨ (p ∈ l ∧ p.1 ≠ k) := by
  induction l with
  | nil => simp [insert]
  | cons q l ih =>
    obtain ⟨a, b⟩ := q
    unfold Sorted at h ih
    rw [List.pairwise_cons] at h
    simp only [insert]
    split
    · rename_i hka
      constructor
      · intro hp
        rcases List.mem_cons.1 hp with hp | hp
        · exact .inl hp
        · refine .inr ⟨hp, ?_⟩
          rcases List.mem_cons.1 hp with rfl | hp
          · exact (ne_of_lt hka).symm
          · exact (ne_of_lt (lt_trans hka (h.1 p hp))).symm
      · rintro (rfl | ⟨hp, _⟩)
        · exact List.mem_cons_self
        · exact List.mem_cons_of_mem _ hp
    · split
      · rename_i hka
        subst hka
        constructor
        · intro hp
          rcases List.mem_cons.1 hp with hp | hp
          · exact .inl hp
          · exact .inr ⟨List.mem_cons_of_mem _ hp, (ne_of_lt (h.1 p hp)).symm⟩
        · rintro (rfl | ⟨hp, hne⟩)
          · exact List.mem_cons_self
          · rcases List.mem_cons.1 hp with rfl | hp
            · exact absurd rfl hne
            · exact List.mem_cons_of_mem _ hp
      · rename_i h1 h2
        rw [List.mem_cons, ih h.2, List.mem_cons]
        constructor
        · rintro (rfl | rfl | ⟨hp, hne⟩)
          · exact .inr ⟨.inl rfl, fun e => h2 e.symm⟩
          · exact .inl rfl
          · exact .inr ⟨.inr hp, hne⟩
        · rintro (rfl | ⟨rfl | hp, hne⟩)
          · exact .inr (.inl rfl)
          · exact .inl rfl
          · exact .inr (.inr ⟨hp, hne⟩)

theorem sorted_unique {l : List (α × β)} (h : Sorted l) {p q : α × β} (hp : p ∈ l) (hq : q ∈ l)
    (e : p.1 = q.1) : p = q := by
  induction l with
  | nil => simp at hp
  | cons r l ih =>
    unfold Sorted at h ih
    rw [List.pairwise_cons] at h
    rcases List.mem_cons.1 hp with e1 | hp1 <;> rcases List.mem_cons.1 hq with e2 | hq1
    · exact e1.trans e2.symm
    · exact absurd (e1 ▸ e) (ne_of_lt (h.1 q hq1))
    · exact absurd (e2 ▸ e.symm) (ne_of_lt (h.1 p hp1))
    · exact ih h.2 hp1 hq1

theorem get?_eq_some {l : List (α × β)} (h : Sorted l) {k : α} {v : β} :
    get? k l = some v ↔ (k, v) ∈ l := by
  induction l with
  | nil => simp [get?]
  | cons q l ih =>
    obtain ⟨a, b⟩ := q
    unfold Sorted at h ih
    have h' := List.pairwise_cons.1 h
    simp only [get?]
    split
    · rename_i hka
      subst hka
      constructor
      · intro e; cases e; exact List.mem_cons_self
      · intro hm
        rcases List.mem_cons.1 hm with e | hm
        · cases e; rfl
        · exact absurd (h'.1 _ hm) (lt_irrefl _)
    · rename_i hka
      rw [ih h'.2, List.mem_cons]
      constructor
      · exact .inr
      · rintro (e | hm)
        · cases e; exact absurd rfl hka
        · exact hm

theorem get?_insert {k j : α} {v : β} {l : List (α × β)} (h : Sorted l) :
    get? j (insert k v l) = if j = k then some v else get? j l := by
  have hs := sorted_insert (k := k) (v := v) h
  ext w
  rw [get?_eq_some hs, mem_insert h]
  split
  · rename_i e; subst e
    constructor
    · rintro (e | ⟨_, hne⟩)
      · cases e; rfl
      · exact absurd rfl hne
    · intro e; cases e; exact .inl rfl
  · rename_i hne
    rw [get?_eq_some h]
    constructor
    · rintro (e | ⟨hm, _⟩)
      · cases e; exact absurd rfl hne
      · exact hm
    · intro hm; exact .inr ⟨hm, hne⟩

theorem get?_none_iff {l : List (α × β)} {k : α} :
    get? k l = none ↔ ∀ p ∈ l, p.1 ≠ k := by
  induction l with
  | nil => simp [get?]
  | cons q l ih =>
    obtain ⟨a, b⟩ := q
    simp only [get?]
    split
    · rename_i e; subst e; simp
    · rename_i hne
      rw [ih]
      simp only [List.mem_cons, forall_eq_or_imp]
      exact ⟨fun h => ⟨fun e => hne e.symm, h⟩, fun h => h.2⟩

/-- A sorted map is determined by its entries. -/
theorem sorted_ext {l l' : List (α × β)} (h : Sorted l) (h' : Sorted l')
    (e : ∀ p, p ∈ l ↔ p ∈ l') : l = l' := by
  induction l generalizing l' with
  | nil =>
    cases l' with
    | nil => rfl
    | cons q l' => exact absurd ((e q).2 List.mem_cons_self) (by simp)
  | cons p l ih =>
    cases l' with
    | nil => exact absurd ((e p).1 List.mem_cons_self) (by simp)
    | cons q l' =>
      have hp := List.pairwise_cons.1 h
      have hq := List.pairwise_cons.1 h'
      have epq : p = q := by
        rcases List.mem_cons.1 ((e p).1 List.mem_cons_self) with x | x
        · exact x
        · rcases List.mem_cons.1 ((e q).2 List.mem_cons_self) with y | y
          · exact y.symm
          · exact absurd (hp.1 _ y) (lt_asymm (hq.1 _ x))
      subst epq
      congr 1
      apply ih hp.2 hq.2
      intro r
      constructor
      · intro hr
        rcases List.mem_cons.1 ((e r).1 (List.mem_cons_of_mem _ hr)) with rfl | x
        · exact absurd (hp.1 _ hr) (lt_irrefl _)
        · exact x
      · intro hr
        rcases List.mem_cons.1 ((e r).2 (List.mem_cons_of_mem _ hr)) with rfl | x
        · exact absurd (hq.1 _ hr) (lt_irrefl _)
        · exact x

end Tonbo.Model.SMap
