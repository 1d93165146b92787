import Verif.Lemmas.CompactCursor
import Mathlib.Data.List.Forall2
import Mathlib.Data.List.Perm.Basic
import Mathlib.Data.List.Sort

/-!
# The sources and the heap during a merge
-/

set_option linter.unusedSectionVars false

namespace Tonbo.Lemmas.Compact
open Tonbo.Model Tonbo.Model.Mem Tonbo.Model.Sst Tonbo.Model.Flush Tonbo.Model.Compact Tonbo.Spec

variable {K R : Type} [LinearOrder K]

/-- One heap entry for the first entry left of each source and kind. -/
def entries : Nat → List (Cursor K R) → List (HEntry K)
  | _, [] => []
  | i, c :: cs => (headOf i c .data).toList ++ (headOf i c .del).toList ++ entries (i + 1) cs

theorem heads_perm (i : Nat) (c : Cursor K R) (k : Kind) :
    ((headOf i c .data).toList ++ (headOf i c .del).toList).Perm
      ((headOf i c k).toList ++ (headOf i c (other k)).toList) := by
  cases k
  · exact List.Perm.refl _
  · exact List.perm_append_comm

theorem headOf_src {i : Nat} {c : Cursor K R} {k : Kind} {e : HEntry K} (h : headOf i c k = some e) :
    e.src = i ∧ e.kind = k ∧ e.row = c.idx k := by
  rw [headOf_rem] at h
  cases hr : (rem c k).head? with
  | none => rw [hr] at h; cases h
  | some p => rw [hr] at h; cases h; exact ⟨rfl, rfl, rfl⟩

theorem mem_entries {e : HEntry K} : ∀ {cs : List (Cursor K R)} {j : Nat}, e ∈ entries j cs →
    ∃ c, j ≤ e.src ∧ cs[e.src - j]? = some c ∧ headOf e.src c e.kind = some e
  | [], j, h => by cases h
  | c :: cs, j, h => by
    simp only [entries, List.mem_append, Option.mem_toList] at h
    rcases h with (h | h) | h
    · obtain ⟨h1, h2, _⟩ := headOf_src h
      exact ⟨c, by omega, by simp [h1], by rw [h1, h2]; exact h⟩
    · obtain ⟨h1, h2, _⟩ := headOf_src h
      exact ⟨c, by omega, by simp [h1], by rw [h1, h2]; exact h⟩
    · obtain ⟨c', h1, h2, h3⟩ := mem_entries h
      refine ⟨c', by omega, ?_, h3⟩
      rw [show e.src - j = (e.src - (j + 1)) + 1 by omega]
      exact h2

theorem head_mem_entries {k : Kind} {e : HEntry K} : ∀ {cs : List (Cursor K R)} {i j : Nat} {c : Cursor K R},
    cs[i]? = some c → headOf (j + i) c k = some e → e ∈ entries j cs
  | [], i, j, c, h, _ => by cases h
  | c0 :: cs, 0, j, c, h, h' => by
    simp only [List.getElem?_cons_zero, Option.some.injEq] at h
    subst h
    have : e ∈ (headOf j c0 .data).toList ++ (headOf j c0 .del).toList := by
      rw [(heads_perm j c0 k).mem_iff]
      rw [Nat.add_zero] at h'
      exact List.mem_append_left _ (by rw [h']; simp)
    exact List.mem_append_left _ this
  | c0 :: cs, i + 1, j, c, h, h' => by
    refine List.mem_append_right _ (head_mem_entries (k := k) (i := i) (c := c) (by simpa using h) ?_)
    rw [show j + 1 + i = j + (i + 1) by omega]
    exact h'

/-- Replacing a source changes the entry of one kind. -/
theorem entries_set {k : Kind} : ∀ (cs : List (Cursor K R)) (i j : Nat) (c : Cursor K R), cs[i]? = some c →
    ∃ X, (entries j cs).Perm ((headOf (j + i) c k).toList ++ X) ∧
      ∀ c', headOf (j + i) c' (other k) = headOf (j + i) c (other k) →
        (entries j (cs.set i c')).Perm ((headOf (j + i) c' k).toList ++ X)
  | [], i, j, c, h => by cases h
  | c0 :: cs, 0, j, c, h => by
    simp only [List.getElem?_cons_zero, Option.some.injEq] at h
    subst h
    refine ⟨(headOf j c0 (other k)).toList ++ entries (j + 1) cs, ?_, ?_⟩
    · rw [Nat.add_zero, ← List.append_assoc]
      exact (heads_perm j c0 k).append_right _
    · intro c' hc'
      rw [Nat.add_zero] at hc' ⊢
      rw [List.set_cons_zero, ← hc', ← List.append_assoc]
      exact (heads_perm j c' k).append_right _
  | c0 :: cs, i + 1, j, c, h => by
    obtain ⟨X, h1, h2⟩ := entries_set (k := k) cs i (j + 1) c (by simpa using h)
    rw [show j + 1 + i = j + (i + 1) by omega] at h1 h2
    refine ⟨((headOf j c0 .data).toList ++ (headOf j c0 .del).toList) ++ X, ?_, ?_⟩
    · refine (List.Perm.append_left _ h1).trans ?_
      rw [← List.append_assoc, ← List.append_assoc]
      exact List.perm_append_comm.append_right _
    · intro c' hc'
      rw [List.set_cons_succ]
      refine (List.Perm.append_left _ (h2 c' hc')).trans ?_
      rw [← List.append_assoc, ← List.append_assoc]
      exact List.perm_append_comm.append_right _

/-- What is left of a source is in key order, newer versions first. -/
def Sorted (c : Cursor K R) : Prop := ∀ k, (pend c k).Pairwise (fun a b => a.1 ≤ b.1)

/-- What an iteration over the key `g` leaves of a source. -/
def Rel (g : K) (c c' : Cursor K R) : Prop :=
  ∀ k, pend c' k = pend c k ∨ pend c' k = (pend c k).filter (fun p => decide (p.1.key ≠ g))

theorem Rel.sublist {g : K} {c c' : Cursor K R} (h : Rel g c c') (k : Kind) :
    (pend c' k).Sublist (pend c k) := by
  rcases h k with h | h
  · rw [h]
  · rw [h]; exact List.filter_sublist

theorem Rel.trans {g : K} {a b c : Cursor K R} (h : Rel g a b) (h' : Rel g b c) : Rel g a c := by
  intro k
  rcases h k with h | h <;> rcases h' k with h' | h'
  · exact .inl (h'.trans h)
  · exact .inr (by rw [h', h])
  · exact .inr (by rw [h', h])
  · exact .inr (by rw [h', h, List.filter_filter]; simp)

theorem dropWhile_filter {g : K} : ∀ {l : List (KT K × Option R)},
    l.Pairwise (fun a b => a.1 ≤ b.1) → (∀ p ∈ l, g ≤ p.1.key) →
    l.dropWhile (fun p => decide (p.1.key = g)) = l.filter (fun p => decide (p.1.key ≠ g))
  | [], _, _ => rfl
  | p :: l, hs, hg => by
    by_cases h : p.1.key = g
    · rw [List.dropWhile_cons_of_pos (by simp [h]), List.filter_cons_of_neg (by simp [h])]
      exact dropWhile_filter (List.pairwise_cons.1 hs).2 (fun q hq => hg q (List.mem_cons_of_mem _ hq))
    · rw [List.dropWhile_cons_of_neg (by simp [h]), List.filter_eq_self.2]
      intro q hq
      have hlt : g < p.1.key := lt_of_le_of_ne (hg p List.mem_cons_self) (Ne.symm h)
      rcases List.mem_cons.1 hq with rfl | hq
      · simpa using h
      · have hle := (List.pairwise_cons.1 hs).1 q hq
        have : p.1.key ≤ q.1.key := by
          rcases le_iff_lt_or_eq.1 hle with hh | hh
          · rcases (KT.lt_def).1 hh with hh | hh
            · exact le_of_lt hh
            · exact le_of_eq hh.1
          · rw [hh]
        simpa using ne_of_gt (lt_of_lt_of_le hlt this)

theorem forall₂_set {α : Type} {Q : α → α → Prop} (hrefl : ∀ a, Q a a) : ∀ (l : List α) (i : Nat) (a b : α),
    l[i]? = some a → Q a b → List.Forall₂ Q l (l.set i b)
  | [], i, a, b, h, _ => by cases h
  | x :: l, 0, a, b, h, hab => by
    simp only [List.getElem?_cons_zero, Option.some.injEq] at h
    subst h
    exact .cons hab (List.forall₂_same.2 (fun _ _ => hrefl _))
  | x :: l, i + 1, a, b, h, hab => by
    exact .cons (hrefl _) (forall₂_set hrefl l i a b (by simpa using h) hab)

theorem forall₂_trans {α : Type} {Q : α → α → Prop} (ht : ∀ a b c, Q a b → Q b c → Q a c) :
    ∀ {l l' l'' : List α}, List.Forall₂ Q l l' → List.Forall₂ Q l' l'' → List.Forall₂ Q l l''
  | _, _, _, .nil, .nil => .nil
  | _, _, _, .cons h t, .cons h' t' => .cons (ht _ _ _ h h') (forall₂_trans ht t t')

theorem forall₂_mem_r {α β : Type} {Q : α → β → Prop} : ∀ {l : List α} {l' : List β},
    List.Forall₂ Q l l' → ∀ b ∈ l', ∃ a ∈ l, Q a b
  | _, _, .nil, b, h => by cases h
  | _, _, .cons h t, b, hb => by
    rcases List.mem_cons.1 hb with rfl | hb
    · exact ⟨_, List.mem_cons_self, h⟩
    · obtain ⟨a, ha, hq⟩ := forall₂_mem_r t b hb
      exact ⟨a, List.mem_cons_of_mem _ ha, hq⟩

theorem forall₂_mem_l {α β : Type} {Q : α → β → Prop} : ∀ {l : List α} {l' : List β},
    List.Forall₂ Q l l' → ∀ a ∈ l, ∃ b ∈ l', Q a b
  | _, _, .nil, b, h => by cases h
  | _, _, .cons h t, b, hb => by
    rcases List.mem_cons.1 hb with rfl | hb
    · exact ⟨_, List.mem_cons_self, h⟩
    · obtain ⟨a, ha, hq⟩ := forall₂_mem_l t b hb
      exact ⟨a, List.mem_cons_of_mem _ ha, hq⟩

/-- The loop over a group. -/
theorem refillAll_spec {g : K} : ∀ (es : List (HEntry K)) (srcs : List (Cursor K R)) (heap : List (HEntry K)),
    (∀ c ∈ srcs, CurOk c ∧ Sorted c ∧ ∀ k, ∀ p ∈ pend c k, g ≤ p.1.key) →
    (∀ e ∈ es, e.kt.key = g) → (heap ++ es).Perm (entries 0 srcs) → (∀ e ∈ heap, e.kt.key ≠ g) →
    ∃ srcs' heap', refillAll g es srcs heap = some (srcs', heap') ∧ (∀ c ∈ srcs', CurOk c) ∧
      heap'.Perm (entries 0 srcs') ∧ List.Forall₂ (Rel g) srcs srcs' ∧ ∀ e ∈ heap', e.kt.key ≠ g
  | [], srcs, heap, hs, _, hp, hh => by
    refine ⟨srcs, heap, rfl, fun c hc => (hs c hc).1, by simpa using hp, ?_, hh⟩
    exact List.forall₂_same.2 (fun _ _ _ => .inl rfl)
  | e :: es, srcs, heap, hs, he, hp, hh => by
    have hmem : e ∈ entries 0 srcs := hp.mem_iff.1 (by simp)
    obtain ⟨c, _, hc, hhead⟩ := mem_entries hmem
    rw [Nat.sub_zero] at hc
    have hcm : c ∈ srcs := List.mem_of_getElem? hc
    obtain ⟨hok, hsort, hge⟩ := hs c hcm
    obtain ⟨x, t, hr, hxe⟩ : ∃ x t, rem c e.kind = x :: t ∧ x.1 = e.kt := by
      rw [headOf_rem] at hhead
      cases hr : rem c e.kind with
      | nil => rw [hr] at hhead; cases hhead
      | cons x t =>
        rw [hr] at hhead
        simp only [List.head?_cons, Option.map_some, Option.some.injEq] at hhead
        exact ⟨x, t, rfl, congrArg HEntry.kt hhead⟩
    have hxg : x.1.key = g := by rw [hxe]; exact he e List.mem_cons_self
    obtain ⟨c', r1, r2, r3, r4, r5⟩ := refill_spec hok hr hxg (hge _) e.src
    have hrel : Rel g c c' := by
      intro k
      rcases eq_or_other k e.kind with rfl | rfl
      · exact .inr (by rw [r3, dropWhile_filter (hsort _) (hge _)])
      · exact .inl r4
    obtain ⟨X, s1, s2⟩ := entries_set (k := e.kind) srcs e.src 0 c hc
    rw [Nat.zero_add] at s1 s2
    have s3 := s2 c' r5
    rw [hhead] at s1
    have hXperm : (heap ++ es).Perm X := by
      have h1 : (e :: (heap ++ es)).Perm (e :: X) :=
        (List.perm_middle.symm.trans hp).trans s1
      exact (List.perm_cons e).1 h1
    have hkey : ∀ e' ∈ (headOf e.src c' e.kind).toList, e'.kt.key ≠ g := by
      intro e' he'
      rw [Option.mem_toList] at he'
      change headOf e.src c' e.kind = some e' at he'
      rw [headOf_rem] at he'
      cases hr' : rem c' e.kind with
      | nil => rw [hr'] at he'; cases he'
      | cons y t' =>
        rw [hr'] at he'
        simp only [List.head?_cons, Option.map_some, Option.some.injEq] at he'
        rw [← he']
        have hy : y ∈ pend c' e.kind := by rw [pend, hr']; simp
        rw [r3, dropWhile_filter (hsort _) (hge _)] at hy
        simpa using (List.mem_filter.1 hy).2
    have hset : ∀ d ∈ srcs.set e.src c', CurOk d ∧ Sorted d ∧ ∀ k, ∀ p ∈ pend d k, g ≤ p.1.key := by
      intro d hd
      rcases List.mem_or_eq_of_mem_set hd with hd | rfl
      · exact hs d hd
      · exact ⟨r2, fun k => (hsort k).sublist (hrel.sublist k),
          fun k p hp => hge k p ((hrel.sublist k).subset hp)⟩
    obtain ⟨srcs', heap', f1, f2, f3, f4, f5⟩ := refillAll_spec es (srcs.set e.src c')
      ((headOf e.src c' e.kind).toList ++ heap) hset (fun e' h' => he e' (List.mem_cons_of_mem _ h'))
      (by
        rw [List.append_assoc]
        exact (List.Perm.append_left _ hXperm).trans s3.symm)
      (by
        intro e' he'
        rcases List.mem_append.1 he' with h | h
        · exact hkey e' h
        · exact hh e' h)
    refine ⟨srcs', heap', ?_, f2, f3, ?_, f5⟩
    · simp only [refillAll, refill, hc, r1, f1]
    · exact forall₂_trans (fun _ _ _ => Rel.trans)
        (forall₂_set (fun _ _ => .inl rfl) srcs e.src c c' hc hrel) f4

/-- The inner loop that collects a group. -/
theorem takeGroup_spec (H : Heap K) {g : K} : ∀ (n : Nat) (h : List (HEntry K)), h.length ≤ n →
    (∀ e ∈ h, g ≤ e.kt.key) →
    ((takeGroup H g n h).2 ++ (takeGroup H g n h).1).Perm h ∧ (∀ e ∈ (takeGroup H g n h).1, e.kt.key = g) ∧
      ∀ e ∈ (takeGroup H g n h).2, e.kt.key ≠ g
  | 0, h, hl, _ => by
    have : h = [] := List.length_eq_zero_iff.1 (by omega)
    subst this
    simp [takeGroup]
  | n + 1, h, hl, hg => by
    by_cases hne : h = []
    · subst hne
      simp [takeGroup, H.nil]
    · obtain ⟨e, h', h1, h2, h3⟩ := H.cons h hne
      rw [takeGroup]
      simp only [h1]
      have hlen : h.length = h'.length + 1 := by simpa using h2.length_eq
      by_cases hk : e.kt.key = g
      · rw [if_pos hk]
        obtain ⟨i1, i2, i3⟩ := takeGroup_spec H n h' (by omega)
          (fun x hx => hg x (h2.mem_iff.2 (List.mem_cons_of_mem _ hx)))
        refine ⟨?_, ?_, i3⟩
        · refine (List.perm_middle.trans ?_).trans h2.symm
          exact (List.perm_cons e).2 i1
        · intro x hx
          rcases List.mem_cons.1 hx with rfl | hx
          · exact hk
          · exact i2 x hx
      · rw [if_neg hk]
        refine ⟨by simp, by simp, ?_⟩
        have hlt : g < e.kt.key := lt_of_le_of_ne (hg e (h2.mem_iff.2 List.mem_cons_self)) (Ne.symm hk)
        intro x hx
        rcases List.mem_cons.1 (h2.mem_iff.1 hx) with rfl | hx
        · exact ne_of_gt hlt
        · refine ne_of_gt (lt_of_lt_of_le hlt ?_)
          rcases h3 x hx with h | ⟨h, _⟩
          · rcases (KT.lt_def).1 h with h | h
            · exact le_of_lt h
            · exact le_of_eq h.1
          · rw [h]

theorem kt_key_le {a b : KT K} (h : a ≤ b) : a.key ≤ b.key := by
  rcases le_iff_lt_or_eq.1 h with hh | hh
  · rcases (KT.lt_def).1 hh with hh | hh
    · exact le_of_lt hh
    · exact le_of_eq hh.1
  · rw [hh]

theorem kt_ts_ge {a b : KT K} (h : a ≤ b) (hk : b.key = a.key) : b.ts ≤ a.ts := by
  rcases le_iff_lt_or_eq.1 h with hh | hh
  · rcases (KT.lt_def).1 hh with hh | hh
    · rw [hk] at hh; exact absurd hh (lt_irrefl _)
    · exact Nat.le_of_lt hh.2
  · rw [hh]

theorem ge_le {a b : HEntry K} (h : a.ge b) : a.kt ≤ b.kt := by
  rcases h with h | ⟨h, _⟩
  · exact le_of_lt h
  · exact le_of_eq h

/-- An entry is left in some source. -/
def Left (srcs : List (Cursor K R)) (p : KT K × Option R) : Prop := ∃ c ∈ srcs, ∃ k, p ∈ pend c k

/-- Number of entries left. -/
def total (srcs : List (Cursor K R)) : Nat :=
  (srcs.map (fun c => (pend c .data).length + (pend c .del).length)).sum

/-- The sources and the heap belong together. -/
structure SrcInv (srcs : List (Cursor K R)) (heap : List (HEntry K)) : Prop where
  ok : ∀ c ∈ srcs, CurOk c ∧ Sorted c
  heap : heap.Perm (entries 0 srcs)

/-- Everything left has a heap entry that is not behind it. -/
theorem SrcInv.covers {srcs : List (Cursor K R)} {heap : List (HEntry K)} (h : SrcInv srcs heap)
    {p : KT K × Option R} (hp : Left srcs p) : ∃ e ∈ heap, e.kt ≤ p.1 := by
  obtain ⟨c, hc, k, hp⟩ := hp
  obtain ⟨hok, hs⟩ := h.ok c hc
  obtain ⟨i, hi⟩ := List.getElem?_of_mem hc
  cases hr : rem c k with
  | nil => rw [pend_nil_of_rem hok hr] at hp; cases hp
  | cons x t =>
    have hpe : pend c k = x :: (t ++ c.rest.flatMap (fun b => items b k)) := by simp [pend, hr]
    refine ⟨⟨x.1, c.idx k, k, i, c.idx k⟩, ?_, ?_⟩
    · rw [h.heap.mem_iff]
      refine head_mem_entries (k := k) hi ?_
      rw [Nat.zero_add, headOf_rem, hr]; rfl
    · have hs' := hs k
      rw [hpe] at hs' hp
      rcases List.mem_cons.1 hp with rfl | hp
      · exact le_refl _
      · exact (List.pairwise_cons.1 hs').1 p hp

theorem total_lt {srcs srcs' : List (Cursor K R)} {g : K} : List.Forall₂ (Rel g) srcs srcs' →
    (∀ c ∈ srcs', ∀ k, ∀ p ∈ pend c k, p.1.key ≠ g) → (∃ p, Left srcs p ∧ p.1.key = g) →
    total srcs' < total srcs := by
  intro h hn hex
  obtain ⟨p, ⟨c, hc, k, hp⟩, hk⟩ := hex
  have hle : ∀ {a b : List (Cursor K R)}, List.Forall₂ (Rel g) a b → total b ≤ total a := by
    intro a b hab
    induction hab with
    | nil => exact Nat.le_refl _
    | cons h t ih =>
      unfold total at ih ⊢
      simp only [List.map_cons, List.sum_cons]
      have h1 := (h.sublist .data).length_le
      have h2 := (h.sublist .del).length_le
      omega
  induction h with
  | nil => cases hc
  | @cons a b la lb hr ht ih =>
    unfold total at ih ⊢
    simp only [List.map_cons, List.sum_cons]
    rcases List.mem_cons.1 hc with rfl | hc
    · have h0 := hle ht
      unfold total at h0
      have hlt : ∀ k', p ∈ pend c k' → (pend b k').length < (pend c k').length := by
        intro k' hp'
        rcases Nat.lt_or_ge (pend b k').length (pend c k').length with hh | hh
        · exact hh
        · have := (hr.sublist k').eq_of_length_le hh
          exact absurd hk (hn b List.mem_cons_self k' p (by rw [this]; exact hp'))
      have h1 := (hr.sublist .data).length_le
      have h2 := (hr.sublist .del).length_le
      cases k
      · have := hlt .data hp; omega
      · have := hlt .del hp; omega
    · have := ih (fun d hd => hn d (List.mem_cons_of_mem _ hd)) hc
      have h1 := (hr.sublist .data).length_le
      have h2 := (hr.sublist .del).length_le
      omega

/-- One iteration, as far as the sources are concerned: the entry popped belongs to the newest version
of the least key, and afterwards exactly that key is gone. -/
theorem group_spec (H : Heap K) {srcs : List (Cursor K R)} {heap h' : List (HEntry K)} {e : HEntry K}
    (hi : SrcInv srcs heap) (hpop : heap.Perm (e :: h')) (hmax : ∀ x ∈ h', e.ge x) :
    ∃ c x t, srcs[e.src]? = some c ∧ rem c e.kind = x :: t ∧ c.idx e.kind = e.row ∧ x.1 = e.kt ∧
      (∀ p, Left srcs p → x.1 ≤ p.1) ∧
      ∃ srcs' heap', refillAll e.kt.key (e :: (takeGroup H e.kt.key h'.length h').1) srcs
          (takeGroup H e.kt.key h'.length h').2 = some (srcs', heap') ∧ SrcInv srcs' heap' ∧
        (∀ p, Left srcs' p ↔ (Left srcs p ∧ p.1.key ≠ e.kt.key)) ∧ total srcs' < total srcs ∧
        ∀ e' ∈ heap', e.kt.key < e'.kt.key := by
  have hem : e ∈ entries 0 srcs := hi.heap.mem_iff.1 (hpop.mem_iff.2 List.mem_cons_self)
  obtain ⟨c, _, hc, hhead⟩ := mem_entries hem
  rw [Nat.sub_zero] at hc
  obtain ⟨x, t, hr, hxe⟩ : ∃ x t, rem c e.kind = x :: t ∧ x.1 = e.kt := by
    rw [headOf_rem] at hhead
    cases hr : rem c e.kind with
    | nil => rw [hr] at hhead; cases hhead
    | cons x t =>
      rw [hr] at hhead
      simp only [List.head?_cons, Option.map_some, Option.some.injEq] at hhead
      exact ⟨x, t, rfl, congrArg HEntry.kt hhead⟩
  have hmin : ∀ p, Left srcs p → e.kt ≤ p.1 := by
    intro p hp
    obtain ⟨e', he', hle⟩ := hi.covers hp
    rcases List.mem_cons.1 (hpop.mem_iff.1 he') with rfl | hm
    · exact hle
    · exact le_trans (ge_le (hmax e' hm)) hle
  have hxl : Left srcs x := ⟨c, List.mem_of_getElem? hc, e.kind, by rw [pend, hr]; simp⟩
  obtain ⟨t1, t2, t3⟩ := takeGroup_spec H (g := e.kt.key) h'.length h' (Nat.le_refl _)
    (fun x hx => kt_key_le (ge_le (hmax x hx)))
  obtain ⟨srcs', heap', f1, f2, f3, f4, f5⟩ := refillAll_spec (g := e.kt.key)
    (e :: (takeGroup H e.kt.key h'.length h').1) srcs (takeGroup H e.kt.key h'.length h').2
    (fun d hd => ⟨(hi.ok d hd).1, (hi.ok d hd).2, fun k p hp => kt_key_le (hmin p ⟨d, hd, k, hp⟩)⟩)
    (by
      intro e' he'
      rcases List.mem_cons.1 he' with rfl | h
      · rfl
      · exact t2 e' h)
    (List.perm_middle.trans (((List.perm_cons e).2 t1).trans (hpop.symm.trans hi.heap)))
    t3
  have hinv : SrcInv srcs' heap' := by
    refine ⟨fun d hd => ⟨f2 d hd, ?_⟩, f3⟩
    obtain ⟨d0, hd0, hrel⟩ := forall₂_mem_r f4 d hd
    exact fun k => ((hi.ok d0 hd0).2 k).sublist (hrel.sublist k)
  have hsub : ∀ p, Left srcs' p → Left srcs p := by
    rintro p ⟨d, hd, k, hp⟩
    obtain ⟨d0, hd0, hrel⟩ := forall₂_mem_r f4 d hd
    exact ⟨d0, hd0, k, (hrel.sublist k).subset hp⟩
  have hgt : ∀ e' ∈ heap', e.kt.key < e'.kt.key := by
    intro e' he'
    refine lt_of_le_of_ne ?_ (Ne.symm (f5 e' he'))
    have hm := hinv.heap.mem_iff.1 he'
    obtain ⟨d, _, hd, hh⟩ := mem_entries hm
    rw [headOf_rem] at hh
    cases hr' : rem d e'.kind with
    | nil => rw [hr'] at hh; cases hh
    | cons y t' =>
      rw [hr'] at hh
      simp only [List.head?_cons, Option.map_some, Option.some.injEq] at hh
      have hy : Left srcs' y := ⟨d, List.mem_of_getElem? hd, e'.kind, by rw [pend, hr']; simp⟩
      have := kt_key_le (hmin y (hsub y hy))
      rw [← hh]; exact this
  have hne : ∀ p, Left srcs' p → p.1.key ≠ e.kt.key := by
    intro p hp hk
    obtain ⟨e', he', hle⟩ := hinv.covers hp
    have h1 : e'.kt.key ≤ e.kt.key := by rw [← hk]; exact kt_key_le hle
    exact absurd (hgt e' he') (not_lt_of_ge h1)
  refine ⟨c, x, t, hc, hr, (headOf_src hhead).2.2.symm, hxe, by rw [hxe]; exact hmin, srcs', heap', f1, hinv, ?_, ?_, hgt⟩
  · intro p
    refine ⟨fun hp => ⟨hsub p hp, hne p hp⟩, ?_⟩
    rintro ⟨⟨d, hd, k, hp⟩, hk⟩
    obtain ⟨d', hd', hrel⟩ := forall₂_mem_l f4 d hd
    refine ⟨d', hd', k, ?_⟩
    rcases hrel k with h | h
    · rw [h]; exact hp
    · rw [h, List.mem_filter]; exact ⟨hp, by simpa using hk⟩
  · exact total_lt f4 (fun d hd k p hp => hne p ⟨d, hd, k, hp⟩) ⟨x, hxl, by rw [hxe]⟩

end Tonbo.Lemmas.Compact
