import Verif.Model.MergeStream
import Verif.Spec.MemView
import Mathlib.Data.List.Basic

set_option linter.unusedSectionVars false

namespace Tonbo.Lemmas.Merge
open Tonbo.Model Tonbo.Model.Mem Tonbo.Model.Merge Tonbo.Spec

variable {K R : Type} [LinearOrder K]

/-- What the merge emits, given its buffer and the remaining entries in heap order. -/
def emit : Option (Entry K R) → List (Entry K R) → List (Entry K R)
  | none, [] => []
  | some b, [] => if b.isTomb then [] else [b]
  | none, x :: l => emit (some x) l
  | some b, x :: l =>
    if b.kt.key = x.kt.key then emit (some b) l
    else if b.isTomb then emit (some x) l
    else b :: emit (some x) l

/-- An entry still to come: in the heap, or in a stream. -/
def Rem (st : St K R) (x : HE K R) : Prop :=
  x ∈ st.heap ∨ ∃ i p s e, st.streams[i]? = some (p, s) ∧ some e ∈ s ∧ x = (hkey i p e, i, e)

/-- Strictly ascending keys among the entries of a source. -/
def Asc (s : List (Option (Entry K R))) : Prop :=
  (s.filterMap id).Pairwise (fun a b => a.kt.key < b.kt.key)

structure Inv (st : St K R) : Prop where
  sorted : SMap.Sorted st.heap
  heap : ∀ hk i e, (hk, i, e) ∈ st.heap → ∃ (p : Prio) (s : List (Option (Entry K R))),
    st.streams[i]? = some (p, s) ∧ hk = hkey i p e ∧
    ∀ x, some x ∈ s → e.kt.key < x.kt.key
  uniq : ∀ hk i e hk' e', (hk, i, e) ∈ st.heap → (hk', i, e') ∈ st.heap → e = e' ∧ hk = hk'
  asc : ∀ (i : Nat) (p : Prio) (s : List (Option (Entry K R))), st.streams[i]? = some (p, s) → Asc s
  fed : ∀ (i : Nat) (p : Prio) (s : List (Option (Entry K R))) (x : Entry K R), st.streams[i]? = some (p, s) → some x ∈ s → ∃ hk e, (hk, i, e) ∈ st.heap

theorem kt_lt_of_key {e x : Entry K R} (h : e.kt.key < x.kt.key) : e.kt < x.kt := .inl h

theorem hkey_lt_of_key {i j : Nat} {p q : Prio} {e x : Entry K R} (h : e.kt.key < x.kt.key) :
    hkey i p e < hkey j q x := by
  unfold hkey
  rw [Prod.Lex.toLex_lt_toLex]
  exact .inl (kt_lt_of_key h)

theorem hkey_inj {i j : Nat} {p q : Prio} {e x : Entry K R} (h : hkey i p e = hkey j q x) :
    i = j ∧ e.kt = x.kt := by
  unfold hkey at h
  have h := toLex_inj.1 h
  have h1 := congrArg Prod.fst h
  have h2 := toLex_inj.1 (congrArg Prod.snd h)
  exact ⟨congrArg Prod.snd h2, h1⟩

theorem asc_tail {o : Option (Entry K R)} {s : List (Option (Entry K R))} (h : Asc (o :: s)) :
    Asc s := by
  unfold Asc at *
  cases o with
  | none => simpa using h
  | some e => simp only [List.filterMap_cons, id] at h; exact (List.pairwise_cons.1 h).2

theorem asc_head {e : Entry K R} {s : List (Option (Entry K R))} (h : Asc (some e :: s)) :
    ∀ x, some x ∈ s → e.kt.key < x.kt.key := by
  unfold Asc at h
  simp only [List.filterMap_cons, id] at h
  intro x hx
  exact (List.pairwise_cons.1 h).1 x (List.mem_filterMap.2 ⟨some x, hx, rfl⟩)

/-- Entries still to come are determined by their heap key. -/
theorem rem_inj {st : St K R} (h : Inv st) {x y : HE K R} (hx : Rem st x) (hy : Rem st y)
    (e : x.1 = y.1) : x = y := by
  have key : ∀ {i p s a}, st.streams[i]? = some (p, s) → some a ∈ s → ∀ {hk j b},
      (hk, j, b) ∈ st.heap → hkey i p a = hk → False := by
    intro i p s a hs ha hk j b hb he
    obtain ⟨q, s', hs', hk', hlt⟩ := h.heap _ _ _ hb
    obtain ⟨hij, hkt⟩ := hkey_inj (he.trans hk')
    subst hij
    rw [hs] at hs'; cases hs'
    exact absurd (hkt ▸ hlt a ha) (lt_irrefl _)
  rcases hx with hx | ⟨i, p, s, a, hs, ha, rfl⟩ <;> rcases hy with hy | ⟨j, q, s', b, hs', hb, rfl⟩
  · exact SMap.sorted_unique h.sorted hx hy e
  · exact (key hs' hb hx e.symm).elim
  · exact (key hs ha hy e).elim
  · obtain ⟨hij, hkt⟩ := hkey_inj e
    subst hij
    rw [hs] at hs'; cases hs'
    have : a = b := by
      have hp := h.asc _ _ _ hs
      unfold Asc at hp
      have ha' : a ∈ s.filterMap id := List.mem_filterMap.2 ⟨_, ha, rfl⟩
      have hb' : b ∈ s.filterMap id := List.mem_filterMap.2 ⟨_, hb, rfl⟩
      by_contra hne
      exact absurd hkt (by
        generalize s.filterMap id = l at hp ha' hb'
        induction l with
        | nil => simp at ha'
        | cons c l ih =>
          rw [List.pairwise_cons] at hp
          rcases List.mem_cons.1 ha' with rfl | ha1 <;> rcases List.mem_cons.1 hb' with rfl | hb1
          · exact absurd rfl hne
          · intro he; exact absurd (he ▸ hp.1 b hb1) (lt_irrefl _)
          · intro he; exact absurd (he ▸ hp.1 a ha1) (lt_irrefl _)
          · exact ih hp.2 ha1 hb1)
    subst this
    rfl

/-- The head of the heap comes before everything else. -/
theorem head_min {st : St K R} (h : Inv st) {hd : HE K R} {rest : List (HE K R)}
    (hh : st.heap = hd :: rest) {x : HE K R} (hx : Rem st x) : x = hd ∨ hd.1 < x.1 := by
  have hs := h.sorted
  rw [hh] at hs
  have hs := List.pairwise_cons.1 hs
  have inHeap : ∀ y ∈ st.heap, y = hd ∨ hd.1 < y.1 := by
    intro y hy
    rw [hh] at hy
    rcases List.mem_cons.1 hy with rfl | hy
    · exact .inl rfl
    · exact .inr (hs.1 y hy)
  rcases hx with hx | ⟨i, p, s, e, hst, he, rfl⟩
  · exact inHeap x hx
  · right
    obtain ⟨hk, e', hm⟩ := h.fed i p s e hst he
    obtain ⟨p', s', hst', hk', hlt⟩ := h.heap _ _ _ hm
    rw [hst] at hst'; cases hst'
    have h2 : hk < hkey i p e := by rw [hk']; exact hkey_lt_of_key (hlt e he)
    rcases inHeap _ hm with rfl | h3
    · exact h2
    · exact lt_trans h3 h2

/-- The remaining entries in heap order. -/
def Seq (st : St K R) (L : List (HE K R)) : Prop :=
  SMap.Sorted L ∧ ∀ x, x ∈ L ↔ Rem st x

theorem set_get {α : Type} {l : List α} {i j : Nat} {a b : α} (h : l[i]? = some a) :
    (l.set i b)[j]? = if i = j then some b else l[j]? := by
  rw [List.getElem?_set]
  split
  · rename_i hij
    rw [if_pos]
    exact (List.getElem?_eq_some_iff.1 h).1
  · rfl

theorem pushNext_mem {i : Nat} {p : Prio} {nx : Option (Entry K R)} {heap : List (HE K R)}
    (hs : SMap.Sorted heap) (hf : ∀ hk j e, (hk, j, e) ∈ heap → j ≠ i ∧ ∃ q, hk = hkey j q e)
    {y : HE K R} :
    y ∈ pushNext i p nx heap ↔ y ∈ heap ∨ ∃ e, nx = some e ∧ y = (hkey i p e, i, e) := by
  cases nx with
  | none => simp [pushNext]
  | some e =>
    simp only [pushNext]
    rw [SMap.mem_insert hs]
    constructor
    · rintro (h | ⟨h, _⟩)
      · exact .inr ⟨e, rfl, h⟩
      · exact .inl h
    · rintro (h | ⟨e', he, h⟩)
      · refine .inr ⟨h, ?_⟩
        obtain ⟨hk, j, e'⟩ := y
        obtain ⟨hne, q, rfl⟩ := hf _ _ _ h
        intro heq
        exact hne (hkey_inj heq).1
      · cases he; exact .inl h

theorem pushNext_sorted {i : Nat} {p : Prio} {nx : Option (Entry K R)} {heap : List (HE K R)}
    (hs : SMap.Sorted heap) : SMap.Sorted (pushNext i p nx heap) := by
  cases nx with
  | none => exact hs
  | some e => exact SMap.sorted_insert hs

/-- Polling the stream of the head and replacing the head by the result. -/
theorem advance {st : St K R} (h : Inv st) {hk : HKey K} {i : Nat} {e : Entry K R}
    {rest : List (HE K R)} (hh : st.heap = (hk, i, e) :: rest) {p : Prio}
    {s s' : List (Option (Entry K R))} {nx : Option (Entry K R)} (hs : st.streams[i]? = some (p, s))
    (hp : (nx = none ∧ s = [] ∧ s' = []) ∨ (∃ x, nx = some x ∧ s = some x :: s'))
    {buf : Option (Entry K R)} {limit : Option Nat} {L : List (HE K R)} (hL : Seq st L) :
    let st1 : St K R := ⟨st.streams.set i (p, s'), pushNext i p nx rest, buf, limit⟩
    Inv st1 ∧ ∃ L1, L = (hk, i, e) :: L1 ∧ Seq st1 L1 ∧
      st1.heap.length ≤ rest.length + (if nx = none then 0 else 1) := by
  intro st1
  have hsr : SMap.Sorted rest := by
    have := h.sorted; rw [hh] at this; exact (List.pairwise_cons.1 this).2
  have hlt : ∀ y ∈ rest, hk < y.1 := by
    have := h.sorted; rw [hh] at this; exact (List.pairwise_cons.1 this).1
  have hne : ∀ hk' j e', (hk', j, e') ∈ rest → j ≠ i ∧ ∃ q, hk' = hkey j q e' := by
    intro hk' j e' hm
    have hm' : (hk', j, e') ∈ st.heap := by rw [hh]; exact List.mem_cons_of_mem _ hm
    obtain ⟨q, _, _, e1, _⟩ := h.heap _ _ _ hm'
    refine ⟨?_, q, e1⟩
    rintro rfl
    have := (h.uniq _ _ _ _ _ hm' (by rw [hh]; exact List.mem_cons_self)).2
    exact absurd (hlt _ hm) (by rw [this]; exact lt_irrefl _)
  have hmem : ∀ y, y ∈ st1.heap ↔ y ∈ rest ∨ ∃ x, nx = some x ∧ y = (hkey i p x, i, x) :=
    fun y => pushNext_mem hsr hne
  have hsub : ∀ y, some y ∈ s' → some y ∈ s := by
    rcases hp with ⟨_, rfl, rfl⟩ | ⟨x, _, rfl⟩
    · exact fun y hy => hy
    · exact fun y hy => List.mem_cons_of_mem _ hy
  have hasc' : Asc s' := by
    have := h.asc _ _ _ hs
    rcases hp with ⟨_, rfl, rfl⟩ | ⟨x, _, rfl⟩
    · exact this
    · exact asc_tail this
  have hinv : Inv st1 := by
    refine ⟨pushNext_sorted hsr, ?_, ?_, ?_, ?_⟩
    · intro hk' j e' hm
      rcases (hmem _).1 hm with hm | ⟨x, hx, heq⟩
      · obtain ⟨q, s2, h2, h3, h4⟩ := h.heap hk' j e' (by rw [hh]; exact List.mem_cons_of_mem _ hm)
        refine ⟨q, s2, ?_, h3, h4⟩
        show (st.streams.set i (p, s'))[j]? = _
        rw [set_get hs, if_neg (fun e => (hne _ _ _ hm).1 e.symm)]
        exact h2
      · cases heq
        refine ⟨p, s', ?_, rfl, ?_⟩
        · show (st.streams.set i (p, s'))[i]? = _
          rw [set_get hs, if_pos rfl]
        · rcases hp with ⟨h0, _⟩ | ⟨x', hx', rfl⟩
          · rw [h0] at hx; cases hx
          · rw [hx'] at hx; cases hx
            exact asc_head (h.asc _ _ _ hs)
    · intro a j b a' b' h1 h2
      rcases (hmem _).1 h1 with h1 | ⟨x, hx, q1⟩ <;> rcases (hmem _).1 h2 with h2 | ⟨y, hy, q2⟩
      · exact h.uniq _ _ _ _ _ (by rw [hh]; exact List.mem_cons_of_mem _ h1)
          (by rw [hh]; exact List.mem_cons_of_mem _ h2)
      · cases q2; exact absurd rfl (hne _ _ _ h1).1
      · cases q1; exact absurd rfl (hne _ _ _ h2).1
      · rw [hx] at hy; cases hy; cases q1; cases q2; exact ⟨rfl, rfl⟩
    · intro j q s2 hj
      have hj : (st.streams.set i (p, s'))[j]? = some (q, s2) := hj
      rw [set_get hs] at hj
      split at hj
      · cases hj; exact hasc'
      · exact h.asc _ _ _ hj
    · intro j q s2 x hj hx
      have hj : (st.streams.set i (p, s'))[j]? = some (q, s2) := hj
      rw [set_get hs] at hj
      split at hj
      · rename_i hij
        cases hj
        subst hij
        rcases hp with ⟨_, _, rfl⟩ | ⟨y, hy, _⟩
        · simp at hx
        · exact ⟨_, y, (hmem _).2 (.inr ⟨y, hy, rfl⟩)⟩
      · rename_i hij
        obtain ⟨a, b, hm⟩ := h.fed j q s2 x hj hx
        rw [hh] at hm
        rcases List.mem_cons.1 hm with e1 | hm
        · cases e1; exact absurd rfl hij
        · exact ⟨a, b, (hmem _).2 (.inl hm)⟩
  have hrem : ∀ y, Rem st1 y ↔ (Rem st y ∧ y ≠ (hk, i, e)) := by
    intro y
    constructor
    · rintro (hy | ⟨j, q, s2, x, hj, hx, rfl⟩)
      · rcases (hmem _).1 hy with hy | ⟨x, hx, rfl⟩
        · refine ⟨.inl (by rw [hh]; exact List.mem_cons_of_mem _ hy), ?_⟩
          rintro rfl
          exact absurd (hlt _ hy) (lt_irrefl _)
        · rcases hp with ⟨h0, _⟩ | ⟨x', hx', rfl⟩
          · rw [h0] at hx; cases hx
          · rw [hx'] at hx; cases hx
            refine ⟨.inr ⟨i, p, _, x, hs, List.mem_cons_self, rfl⟩, ?_⟩
            intro heq
            cases heq
            obtain ⟨_, s0, h0, _, h1⟩ := h.heap _ _ _ (by rw [hh]; exact List.mem_cons_self)
            rw [hs] at h0; cases h0
            exact absurd (h1 _ List.mem_cons_self) (lt_irrefl _)
      · have hj' : (st.streams.set i (p, s'))[j]? = some (q, s2) := hj
        rw [set_get hs] at hj'
        have hold : ∃ s3, st.streams[j]? = some (q, s3) ∧ some x ∈ s3 := by
          split at hj'
          · rename_i hij; subst hij; cases hj'; exact ⟨s, hs, hsub _ hx⟩
          · exact ⟨s2, hj', hx⟩
        obtain ⟨s3, h3, h4⟩ := hold
        refine ⟨.inr ⟨j, q, s3, x, h3, h4, rfl⟩, ?_⟩
        intro heq
        obtain ⟨q0, s0, h0, _, h1⟩ := h.heap hk i e (by rw [hh]; exact List.mem_cons_self)
        cases heq
        rw [h3] at h0; cases h0
        exact absurd (h1 _ h4) (lt_irrefl _)
    · rintro ⟨hy | ⟨j, q, s2, x, hj, hx, rfl⟩, hne'⟩
      · rw [hh] at hy
        rcases List.mem_cons.1 hy with e1 | hy
        · exact absurd e1 hne'
        · exact .inl ((hmem _).2 (.inl hy))
      · by_cases hij : i = j
        · subst hij
          rw [hs] at hj; cases hj
          rcases hp with ⟨_, rfl, _⟩ | ⟨x', hx', rfl⟩
          · simp at hx
          · rcases List.mem_cons.1 hx with e1 | hx
            · cases e1; exact .inl ((hmem _).2 (.inr ⟨x, hx', rfl⟩))
            · refine .inr ⟨i, p, s', x, ?_, hx, rfl⟩
              show (st.streams.set i (p, s'))[i]? = _
              rw [set_get hs, if_pos rfl]
        · refine .inr ⟨j, q, s2, x, ?_, hx, rfl⟩
          show (st.streams.set i (p, s'))[j]? = _
          rw [set_get hs, if_neg hij]
          exact hj
  refine ⟨hinv, ?_⟩
  have hmL : (hk, i, e) ∈ L := (hL.2 _).2 (.inl (by rw [hh]; exact List.mem_cons_self))
  cases hLL : L with
  | nil => rw [hLL] at hmL; simp at hmL
  | cons a L1 =>
    have hs1 := hL.1
    rw [hLL] at hs1
    have hs1 := List.pairwise_cons.1 hs1
    have ha : a = (hk, i, e) := by
      rcases head_min h hh ((hL.2 a).1 (by rw [hLL]; exact List.mem_cons_self)) with h1 | h1
      · exact h1
      · rw [hLL] at hmL
        rcases List.mem_cons.1 hmL with e1 | hm
        · exact e1.symm
        · exact absurd (lt_trans h1 (hs1.1 _ hm)) (lt_irrefl _)
    subst ha
    refine ⟨L1, rfl, ⟨hs1.2, ?_⟩, ?_⟩
    · intro x
      rw [hrem x, ← hL.2 x, hLL]
      constructor
      · intro hx
        refine ⟨List.mem_cons_of_mem _ hx, ?_⟩
        rintro rfl
        exact absurd (hs1.1 _ hx) (lt_irrefl _)
      · rintro ⟨hx, hne'⟩
        rcases List.mem_cons.1 hx with e1 | hx
        · exact absurd e1 hne'
        · exact hx
    · show (pushNext i p nx rest).length ≤ _
      cases nx with
      | none => simp [pushNext]
      | some x =>
        simp only [pushNext]
        have : ∀ (l : List (HE K R)) k v, (SMap.insert k v l).length ≤ l.length + 1 := by
          intro l k v
          induction l with
          | nil => simp [SMap.insert]
          | cons b l ih =>
            simp only [SMap.insert]
            split
            · simp
            · split
              · simp
              · simpa using ih
        simpa using this rest _ _

theorem sum_set {l : List (Prio × List (Option (Entry K R)))} {i : Nat} {p q : Prio}
    {s s' : List (Option (Entry K R))} (h : l[i]? = some (p, s)) :
    ((l.set i (q, s')).map (·.2.length)).sum + s.length =
      (l.map (·.2.length)).sum + s'.length := by
  induction l generalizing i with
  | nil => simp at h
  | cons a l ih =>
    cases i with
    | zero => simp at h; subst h; simp; omega
    | succ i =>
      simp at h
      have := ih h
      simp only [List.set_cons_succ, List.map_cons, List.sum_cons]
      omega

/-- The heap order does not depend on `Pending` results. -/
theorem seq_pending {st : St K R} (h : Inv st) {i : Nat} {p : Prio}
    {s : List (Option (Entry K R))} (hs : st.streams[i]? = some (p, none :: s))
    {L : List (HE K R)} (hL : Seq st L) :
    Inv { st with streams := st.streams.set i (p, s) } ∧
      Seq { st with streams := st.streams.set i (p, s) } L := by
  have hget : ∀ j, (st.streams.set i (p, s))[j]? = if i = j then some (p, s) else st.streams[j]? :=
    fun j => set_get hs
  constructor
  · refine ⟨h.sorted, ?_, h.uniq, ?_, ?_⟩
    · intro hk j e hm
      obtain ⟨q, s2, h2, h3, h4⟩ := h.heap hk j e hm
      by_cases hij : i = j
      · subst hij
        rw [hs] at h2; cases h2
        exact ⟨p, s, by show (st.streams.set i (p, s))[i]? = _; rw [hget, if_pos rfl], h3,
          fun x hx => h4 x (List.mem_cons_of_mem _ hx)⟩
      · exact ⟨q, s2, by show (st.streams.set i (p, s))[j]? = _; rw [hget, if_neg hij]; exact h2,
          h3, h4⟩
    · intro j q s2 hj
      have hj : (st.streams.set i (p, s))[j]? = some (q, s2) := hj
      rw [hget] at hj
      split at hj
      · cases hj; exact asc_tail (h.asc _ _ _ hs)
      · exact h.asc _ _ _ hj
    · intro j q s2 x hj hx
      have hj' : (st.streams.set i (p, s))[j]? = some (q, s2) := hj
      clear hj
      rw [hget] at hj'
      split at hj'
      · rename_i hij; subst hij; cases hj'
        exact h.fed _ _ _ x hs (List.mem_cons_of_mem _ hx)
      · exact h.fed _ _ _ x hj' hx
  · refine ⟨hL.1, ?_⟩
    intro x
    rw [hL.2 x]
    constructor
    · rintro (hx | ⟨j, q, s2, e, hj, he, rfl⟩)
      · exact .inl hx
      · by_cases hij : i = j
        · subst hij
          rw [hs] at hj; cases hj
          refine .inr ⟨i, p, s, e, by show (st.streams.set i (p, s))[i]? = _; rw [hget, if_pos rfl],
            ?_, rfl⟩
          simpa using he
        · exact .inr ⟨j, q, s2, e,
            by show (st.streams.set i (p, s))[j]? = _; rw [hget, if_neg hij]; exact hj, he, rfl⟩
    · rintro (hx | ⟨j, q, s2, e, hj, he, rfl⟩)
      · exact .inl hx
      · have hj' : (st.streams.set i (p, s))[j]? = some (q, s2) := hj
        clear hj
        rw [hget] at hj'
        split at hj'
        · rename_i hij; subst hij; cases hj'
          exact .inr ⟨i, p, _, e, hs, List.mem_cons_of_mem _ he, rfl⟩
        · exact .inr ⟨j, q, s2, e, hj', he, rfl⟩

/-- Bound on the polls still needed. -/
def mu (st : St K R) : Nat := st.size + (if st.buf = none then 0 else 1)

theorem pollLoop_spec : ∀ (n : Nat) (st : St K R) (L : List (HE K R)), Inv st → Seq st L →
    st.size < n →
    ∃ r st', pollLoop n st = some (r, st') ∧
      (match r with
       | .pending => Inv st' ∧ (∃ L', Seq st' L' ∧
            emit st.buf (L.map (·.2.2)) = emit st'.buf (L'.map (·.2.2))) ∧ mu st' < mu st ∧
            st'.limit = st.limit
       | .ready none => emit st.buf (L.map (·.2.2)) = []
       | .ready (some e) => Inv st' ∧ (∃ L', Seq st' L' ∧
            emit st.buf (L.map (·.2.2)) = e :: emit st'.buf (L'.map (·.2.2))) ∧ mu st' < mu st ∧
            st'.limit = decr st.limit)
  | 0, _, _, _, _, hn => absurd hn (Nat.not_lt_zero _)
  | n + 1, st, L, h, hL, hn => by
    cases hh : st.heap with
    | nil =>
      have hLn : L = [] := by
        cases hLL : L with
        | nil => rfl
        | cons a L1 =>
          have := (hL.2 a).1 (by rw [hLL]; exact List.mem_cons_self)
          rcases this with hx | ⟨i, p, s, e, h1, h2, _⟩
          · rw [hh] at hx; simp at hx
          · obtain ⟨_, _, hm⟩ := h.fed _ _ _ _ h1 h2
            rw [hh] at hm; simp at hm
      subst hLn
      simp only [pollLoop, hh]
      unfold drain
      cases hb : st.buf with
      | none => exact ⟨_, _, rfl, by simp [emit]⟩
      | some b =>
        by_cases ht : b.isTomb = true
        · simp only [if_pos ht]
          exact ⟨_, _, rfl, by simp [emit, ht]⟩
        · simp only [if_neg ht]
          refine ⟨_, _, rfl, ?_, ⟨[], ⟨by simp [SMap.Sorted], ?_⟩, by simp [emit, ht]⟩, ?_, rfl⟩
          · exact ⟨h.sorted, h.heap, h.uniq, h.asc, h.fed⟩
          · exact hL.2
          · simp [mu, St.size, hb]
    | cons hd rest =>
      obtain ⟨hk, i, e⟩ := hd
      obtain ⟨p, s, hs, hke, hlt⟩ := h.heap hk i e (by rw [hh]; exact List.mem_cons_self)
      simp only [pollLoop, hh, hs]
      have stepReady : ∀ (nx : Option (Entry K R)) (s' : List (Option (Entry K R))),
          ((nx = none ∧ s = [] ∧ s' = []) ∨ (∃ x, nx = some x ∧ s = some x :: s')) →
          ∀ (buf : Option (Entry K R)) (limit : Option Nat),
          let st1 : St K R := ⟨st.streams.set i (p, s'), pushNext i p nx rest, buf, limit⟩
          Inv st1 ∧ (∃ L1, L = (hk, i, e) :: L1 ∧ Seq st1 L1) ∧ st1.size < st.size := by
        intro nx s' hp buf limit st1
        obtain ⟨h1, L1, h2, h3, h4⟩ := advance h hh hs hp (buf := buf) (limit := limit) hL
        refine ⟨h1, ⟨L1, h2, h3⟩, ?_⟩
        have hsum := sum_set (q := p) (s' := s') hs
        have : st1.streams = st.streams.set i (p, s') := rfl
        have e1 : st1.heap = pushNext i p nx rest := rfl
        simp only [St.size, hh, this, List.length_cons, e1] at *
        rcases hp with ⟨rfl, rfl, rfl⟩ | ⟨x, rfl, rfl⟩
        · simp at h4 hsum ⊢; omega
        · simp at h4 hsum ⊢; omega
      have finish : ∀ (nx : Option (Entry K R)) (s' : List (Option (Entry K R))),
          ((nx = none ∧ s = [] ∧ s' = []) ∨ (∃ x, nx = some x ∧ s = some x :: s')) →
          ∃ r st', (match st.buf with
              | none => pollLoop n ⟨st.streams.set i (p, s'), pushNext i p nx rest, some e, st.limit⟩
              | some b =>
                if b.kt.key = e.kt.key then
                  pollLoop n ⟨st.streams.set i (p, s'), pushNext i p nx rest, st.buf, st.limit⟩
                else if b.isTomb then
                  pollLoop n ⟨st.streams.set i (p, s'), pushNext i p nx rest, some e, st.limit⟩
                else some (.ready (some b),
                  (⟨st.streams.set i (p, s'), pushNext i p nx rest, some e, decr st.limit⟩ :
                    St K R))) = some (r, st') ∧
            (match r with
             | .pending => Inv st' ∧ (∃ L', Seq st' L' ∧
                  emit st.buf (L.map (·.2.2)) = emit st'.buf (L'.map (·.2.2))) ∧ mu st' < mu st ∧
                  st'.limit = st.limit
             | .ready none => emit st.buf (L.map (·.2.2)) = []
             | .ready (some x) => Inv st' ∧ (∃ L', Seq st' L' ∧
                  emit st.buf (L.map (·.2.2)) = x :: emit st'.buf (L'.map (·.2.2))) ∧
                  mu st' < mu st ∧ st'.limit = decr st.limit) := by
        intro nx s' hp
        cases hb : st.buf with
        | none =>
          obtain ⟨h1, ⟨L1, h2, h3⟩, h4⟩ := stepReady nx s' hp (some e) st.limit
          obtain ⟨r, st', q1, q2⟩ := pollLoop_spec n _ L1 h1 h3 (by omega)
          refine ⟨r, st', by simpa [hb] using q1, ?_⟩
          have hem : emit none (L.map (·.2.2)) = emit (some e) (L1.map (·.2.2)) := by
            rw [h2]; simp [emit]
          have hmu : mu (⟨st.streams.set i (p, s'), pushNext i p nx rest, some e, st.limit⟩ : St K R) ≤ mu st := by
            simp only [mu, hb]; simp; omega
          rw [hem]
          rcases r with _ | _ | x
          · exact ⟨q2.1, q2.2.1, by omega, q2.2.2.2⟩
          · exact q2
          · exact ⟨q2.1, q2.2.1, by omega, q2.2.2.2⟩
        | some b =>
          simp only
          by_cases hkey' : b.kt.key = e.kt.key
          · rw [if_pos hkey']
            obtain ⟨h1, ⟨L1, h2, h3⟩, h4⟩ := stepReady nx s' hp (some b) st.limit
            obtain ⟨r, st', q1, q2⟩ := pollLoop_spec n _ L1 h1 h3 (by omega)
            refine ⟨r, st', by simpa [hb] using q1, ?_⟩
            have hem : emit (some b) (L.map (·.2.2)) = emit (some b) (L1.map (·.2.2)) := by
              rw [h2]; simp [emit, hkey']
            have hmu : mu (⟨st.streams.set i (p, s'), pushNext i p nx rest, some b, st.limit⟩ : St K R) ≤ mu st := by
              simp only [mu, hb]; simp; omega
            rw [hem]
            rcases r with _ | _ | x
            · exact ⟨q2.1, q2.2.1, by omega, q2.2.2.2⟩
            · exact q2
            · exact ⟨q2.1, q2.2.1, by omega, q2.2.2.2⟩
          · rw [if_neg hkey']
            by_cases ht : b.isTomb = true
            · rw [if_pos ht]
              obtain ⟨h1, ⟨L1, h2, h3⟩, h4⟩ := stepReady nx s' hp (some e) st.limit
              obtain ⟨r, st', q1, q2⟩ := pollLoop_spec n _ L1 h1 h3 (by omega)
              refine ⟨r, st', by simpa [hb] using q1, ?_⟩
              have hem : emit (some b) (L.map (·.2.2)) = emit (some e) (L1.map (·.2.2)) := by
                rw [h2]; simp [emit, hkey', ht]
              have hmu : mu (⟨st.streams.set i (p, s'), pushNext i p nx rest, some e, st.limit⟩ : St K R) ≤ mu st := by
                simp only [mu, hb]; simp; omega
              rw [hem]
              rcases r with _ | _ | x
              · exact ⟨q2.1, q2.2.1, by omega, q2.2.2.2⟩
              · exact q2
              · exact ⟨q2.1, q2.2.1, by omega, q2.2.2.2⟩
            · rw [if_neg ht]
              obtain ⟨h1, ⟨L1, h2, h3⟩, h4⟩ := stepReady nx s' hp (some e) (decr st.limit)
              refine ⟨_, _, rfl, h1, ⟨L1, h3, ?_⟩, ?_, rfl⟩
              · rw [h2]; simp [emit, hkey', ht]
              · simp only [mu, hb]; simp; omega
      cases hss : s with
      | nil =>
        simp only [pollStream]
        exact finish none [] (.inl ⟨rfl, hss, rfl⟩)
      | cons o s' =>
        cases o with
        | none =>
          simp only [pollStream]
          rw [hss] at hs
          obtain ⟨h1, h2⟩ := seq_pending h hs hL
          rw [← hh]
          refine ⟨_, _, rfl, h1, ⟨L, h2, rfl⟩, ?_, rfl⟩
          have hsum := sum_set (q := p) (s' := s') hs
          simp only [mu, St.size]
          simp at hsum ⊢; omega
        | some x =>
          simp only [pollStream]
          exact finish (some x) s' (.inr ⟨x, rfl, hss⟩)

/-- Truncation to an optional limit. -/
def takeOpt {α : Type} : Option Nat → List α → List α
  | none, l => l
  | some n, l => l.take n

theorem trace_spec : ∀ (n : Nat) (st : St K R) (L : List (HE K R)), Inv st → Seq st L →
    mu st < n →
    ∃ tr, trace n st = some tr ∧
      tr.filterMap id = takeOpt st.limit (emit st.buf (L.map (·.2.2)))
  | 0, _, _, _, _, hn => absurd hn (Nat.not_lt_zero _)
  | n + 1, st, L, h, hL, hn => by
    simp only [trace, poll]
    by_cases hl : st.limit = some 0
    · simp only [if_pos hl]
      exact ⟨[], rfl, by simp [hl, takeOpt]⟩
    · rw [if_neg hl]
      obtain ⟨r, st', q1, q2⟩ := pollLoop_spec (st.size + 1) st L h hL (Nat.lt_succ_self _)
      rw [q1]
      rcases r with _ | _ | x
      · obtain ⟨i1, ⟨L', i2, i3⟩, i4, i5⟩ := q2
        obtain ⟨tr, t1, t2⟩ := trace_spec n st' L' i1 i2 (by omega)
        refine ⟨none :: tr, by simp [t1], ?_⟩
        rw [i3, ← i5]
        simpa using t2
      · refine ⟨[], rfl, ?_⟩
        simp only at q2
        rw [q2]
        cases st.limit <;> simp [takeOpt]
      · obtain ⟨i1, ⟨L', i2, i3⟩, i4, i5⟩ := q2
        obtain ⟨tr, t1, t2⟩ := trace_spec n st' L' i1 i2 (by omega)
        refine ⟨some x :: tr, by simp [t1], ?_⟩
        rw [i3]
        have t3 : (some x :: tr).filterMap id = x :: tr.filterMap id := rfl
        rw [t3, t2, i5]
        cases hlim : st.limit with
        | none => simp [decr, takeOpt]
        | some m =>
          cases m with
          | zero => exact absurd hlim hl
          | succ m => simp [decr, takeOpt]

/-! ## The start state -/

theorem nextReady_spec (s : List (Option (Entry K R))) :
    (nextReady s).2.length ≤ s.length ∧
    s.filterMap id = (match (nextReady s).1 with | none => [] | some e => [e]) ++
      (nextReady s).2.filterMap id ∧
    ((nextReady s).1 = none → (nextReady s).2 = []) ∧
    ((nextReady s).1 ≠ none → (nextReady s).2.length < s.length) := by
  induction s with
  | nil => simp [nextReady]
  | cons o s ih =>
    cases o with
    | none =>
      simp only [nextReady]
      refine ⟨Nat.le_succ_of_le ih.1, by simpa using ih.2.1, ih.2.2.1, fun h => ?_⟩
      exact Nat.lt_succ_of_lt (ih.2.2.2 h)
    | some e => simp [nextReady]

theorem mem_filterMap_id {s : List (Option (Entry K R))} {x : Entry K R} :
    x ∈ s.filterMap id ↔ some x ∈ s := by
  simp

/-- The state after the loop of `from_vec` has handled the first `i` streams. -/
theorem fromVecLoop_spec : ∀ (rest : List (Prio × List (Option (Entry K R)))) (i : Nat)
    (heap : List (HE K R)),
    SMap.Sorted heap → (∀ hk j e, (hk, j, e) ∈ heap → j < i ∧ ∃ q, hk = hkey j q e) →
    (fromVecLoop i rest heap).1 = rest.map (fun ps => (ps.1, (nextReady ps.2).2)) ∧
    SMap.Sorted (fromVecLoop i rest heap).2 ∧
    (∀ y, y ∈ (fromVecLoop i rest heap).2 ↔ y ∈ heap ∨ ∃ (j : Nat) (p : Prio)
      (s : List (Option (Entry K R))) (e : Entry K R), rest[j]? = some (p, s) ∧
      (nextReady s).1 = some e ∧ y = (hkey (i + j) p e, i + j, e))
  | [], i, heap, hs, _ => by simp [fromVecLoop, hs]
  | (p, s) :: rest, i, heap, hs, hj => by
    have hf : ∀ hk j e, (hk, j, e) ∈ heap → j ≠ i ∧ ∃ q, hk = hkey j q e := by
      intro hk j e hm
      obtain ⟨h1, h2⟩ := hj hk j e hm
      exact ⟨by omega, h2⟩
    have hmem : ∀ y, y ∈ pushNext i p (nextReady s).1 heap ↔ _ := fun y => pushNext_mem hs hf
    obtain ⟨h1, h2, h3⟩ := fromVecLoop_spec rest (i + 1) (pushNext i p (nextReady s).1 heap)
      (pushNext_sorted hs) (by
        intro hk j e hm
        rcases (hmem _).1 hm with hm | ⟨x, hx, heq⟩
        · obtain ⟨q1, q2⟩ := hj hk j e hm; exact ⟨by omega, q2⟩
        · cases heq; exact ⟨by omega, p, rfl⟩)
    refine ⟨by simp [fromVecLoop, h1], by simpa [fromVecLoop] using h2, ?_⟩
    intro y
    simp only [fromVecLoop]
    rw [h3 y, hmem y]
    constructor
    · rintro ((hy | ⟨e, he, rfl⟩) | ⟨j, q, s2, e, hr, he, rfl⟩)
      · exact .inl hy
      · exact .inr ⟨0, p, s, e, by simp, he, rfl⟩
      · exact .inr ⟨j + 1, q, s2, e, by simpa using hr, he, by
          rw [show i + 1 + j = i + (j + 1) by omega]⟩
    · rintro (hy | ⟨j, q, s2, e, hr, he, rfl⟩)
      · exact .inl (.inl hy)
      · cases j with
        | zero => simp at hr; obtain ⟨rfl, rfl⟩ := hr; exact .inl (.inr ⟨e, he, rfl⟩)
        | succ j =>
          refine .inr ⟨j, q, s2, e, by simpa using hr, he, ?_⟩
          rw [show i + 1 + j = i + (j + 1) by omega]

theorem fromVec_spec (streams : List (Prio × List (Option (Entry K R)))) (limit : Option Nat)
    (ha : ∀ ps ∈ streams, Asc ps.2) :
    Inv (fromVec streams limit) ∧ (fromVec streams limit).buf = none ∧
    (fromVec streams limit).limit = limit ∧
    ∀ y, Rem (fromVec streams limit) y ↔ ∃ i p s e, streams[i]? = some (p, s) ∧ some e ∈ s ∧
      y = (hkey i p e, i, e) := by
  obtain ⟨h1, h2, h3⟩ := fromVecLoop_spec streams 0 ([] : List (HE K R)) (by simp [SMap.Sorted])
    (by simp)
  have hheap : ∀ y, y ∈ (fromVec streams limit).heap ↔ ∃ (j : Nat) (p : Prio)
      (s : List (Option (Entry K R))) (e : Entry K R), streams[j]? = some (p, s) ∧
      (nextReady s).1 = some e ∧ y = (hkey j p e, j, e) := by
    intro y
    have := h3 y
    simpa [fromVec] using this
  have hstr : ∀ (i : Nat) p s', (fromVec streams limit).streams[i]? = some (p, s') ↔
      ∃ s, streams[i]? = some (p, s) ∧ s' = (nextReady s).2 := by
    intro i p s'
    have e1 : (fromVec streams limit).streams =
        streams.map (fun ps => (ps.1, (nextReady ps.2).2)) := h1
    rw [e1, List.getElem?_map]
    cases hg : streams[i]? with
    | none => simp
    | some ps =>
      obtain ⟨q, s⟩ := ps
      simp only [Option.map_some, Option.some.injEq, Prod.mk.injEq]
      constructor
      · rintro ⟨rfl, rfl⟩; exact ⟨s, ⟨rfl, rfl⟩, rfl⟩
      · rintro ⟨s2, ⟨rfl, rfl⟩, rfl⟩; exact ⟨rfl, rfl⟩
  have hasc : ∀ (i : Nat) p s, streams[i]? = some (p, s) → Asc s :=
    fun i p s h => ha (p, s) (List.mem_of_getElem? h)
  have hsplit : ∀ s : List (Option (Entry K R)), ∀ x, some x ∈ s ↔
      (nextReady s).1 = some x ∨ some x ∈ (nextReady s).2 := by
    intro s x
    rw [← mem_filterMap_id, (nextReady_spec s).2.1, List.mem_append, mem_filterMap_id]
    cases (nextReady s).1 with
    | none => simp
    | some e => simp [eq_comm]
  have hfirst : ∀ s : List (Option (Entry K R)), Asc s → ∀ e, (nextReady s).1 = some e →
      ∀ x, some x ∈ (nextReady s).2 → e.kt.key < x.kt.key := by
    intro s hs e he x hx
    unfold Asc at hs
    rw [(nextReady_spec s).2.1, he] at hs
    exact (List.pairwise_cons.1 hs).1 x (mem_filterMap_id.2 hx)
  refine ⟨⟨h2, ?_, ?_, ?_, ?_⟩, rfl, rfl, ?_⟩
  · intro hk i e hm
    obtain ⟨j, p, s, e', hj, he, heq⟩ := (hheap _).1 hm
    cases heq
    exact ⟨p, _, (hstr _ _ _).2 ⟨s, hj, rfl⟩, rfl, hfirst s (hasc _ _ _ hj) e he⟩
  · intro hk i e hk' e' hm hm'
    obtain ⟨j, p, s, x, hj, he, heq⟩ := (hheap _).1 hm
    obtain ⟨j', p', s', x', hj', he', heq'⟩ := (hheap _).1 hm'
    cases heq; cases heq'
    rw [hj] at hj'; cases hj'
    rw [he] at he'; cases he'
    exact ⟨rfl, rfl⟩
  · intro i p s' hi
    obtain ⟨s, hs, rfl⟩ := (hstr _ _ _).1 hi
    have := hasc _ _ _ hs
    unfold Asc at *
    rw [(nextReady_spec s).2.1] at this
    exact (List.pairwise_append.1 this).2.1
  · intro i p s' x hi hx
    obtain ⟨s, hs, rfl⟩ := (hstr _ _ _).1 hi
    cases hn : (nextReady s).1 with
    | none => rw [(nextReady_spec s).2.2.1 hn] at hx; simp at hx
    | some e => exact ⟨_, e, (hheap _).2 ⟨i, p, s, e, hs, hn, rfl⟩⟩
  · intro y
    constructor
    · rintro (hy | ⟨i, p, s', e, hi, he, rfl⟩)
      · obtain ⟨j, p, s, e, hj, he, rfl⟩ := (hheap _).1 hy
        exact ⟨j, p, s, e, hj, (hsplit s e).2 (.inl he), rfl⟩
      · obtain ⟨s, hs, rfl⟩ := (hstr _ _ _).1 hi
        exact ⟨i, p, s, e, hs, (hsplit s e).2 (.inr he), rfl⟩
    · rintro ⟨i, p, s, e, hs, he, rfl⟩
      rcases (hsplit s e).1 he with he | he
      · exact .inl ((hheap _).2 ⟨i, p, s, e, hs, he, rfl⟩)
      · exact .inr ⟨i, p, _, e, (hstr _ _ _).2 ⟨s, hs, rfl⟩, he, rfl⟩

/-- Any finite collection of entries with distinct keys can be listed in order. -/
theorem exists_sorted {α β : Type} [LinearOrder α] (P : α × β → Prop) (xs : List (α × β))
    (hP : ∀ x, P x ↔ x ∈ xs) (hinj : ∀ x y, P x → P y → x.1 = y.1 → x = y) :
    ∃ L, SMap.Sorted L ∧ ∀ x, x ∈ L ↔ P x := by
  have : ∀ ys : List (α × β), (∀ x ∈ ys, P x) → ∃ L, SMap.Sorted L ∧ ∀ x, x ∈ L ↔ x ∈ ys := by
    intro ys
    induction ys with
    | nil => intro _; exact ⟨[], by simp [SMap.Sorted], by simp⟩
    | cons y ys ih =>
      intro hy
      obtain ⟨L, h1, h2⟩ := ih (fun x hx => hy x (List.mem_cons_of_mem _ hx))
      refine ⟨SMap.insert y.1 y.2 L, SMap.sorted_insert h1, ?_⟩
      intro x
      rw [SMap.mem_insert h1, h2, List.mem_cons]
      constructor
      · rintro (h | ⟨h, _⟩)
        · exact .inl h
        · exact .inr h
      · rintro (h | h)
        · exact .inl h
        · by_cases e : x.1 = y.1
          · exact .inl (hinj x y (hy x (List.mem_cons_of_mem _ h)) (hy y List.mem_cons_self) e)
          · exact .inr ⟨h, e⟩
  obtain ⟨L, h1, h2⟩ := this xs (fun x hx => (hP x).2 hx)
  exact ⟨L, h1, fun x => (h2 x).trans (hP x).symm⟩

/-- All entries of all sources, tagged with their heap key. -/
def tagged (streams : List (Prio × List (Option (Entry K R)))) : List (HE K R) :=
  streams.zipIdx.flatMap (fun ps => (ps.1.2.filterMap id).map (fun e => (hkey ps.2 ps.1.1 e, ps.2, e)))

theorem mem_tagged (streams : List (Prio × List (Option (Entry K R)))) (y : HE K R) :
    y ∈ tagged streams ↔ ∃ i p s e, streams[i]? = some (p, s) ∧ some e ∈ s ∧
      y = (hkey i p e, i, e) := by
  simp only [tagged, List.mem_flatMap, List.mem_map]
  constructor
  · rintro ⟨⟨⟨p, s⟩, i⟩, h1, e, h2, rfl⟩
    exact ⟨i, p, s, e, List.mem_zipIdx_iff_getElem?.1 h1, mem_filterMap_id.1 h2, rfl⟩
  · rintro ⟨i, p, s, e, h1, h2, rfl⟩
    exact ⟨((p, s), i), List.mem_zipIdx_iff_getElem?.2 h1, e, mem_filterMap_id.2 h2, rfl⟩

/-- The merged stream: entries in heap order, one per key, tombstones dropped, cut to the limit. -/
theorem mergeAll_spec (streams : List (Prio × List (Option (Entry K R)))) (limit : Option Nat)
    (ha : ∀ ps ∈ streams, Asc ps.2) :
    ∃ L : List (HE K R), SMap.Sorted L ∧
      (∀ y, y ∈ L ↔ ∃ i p s e, streams[i]? = some (p, s) ∧ some e ∈ s ∧ y = (hkey i p e, i, e)) ∧
      ∃ tr, mergeAll streams limit = some tr ∧
        tr.filterMap id = takeOpt limit (emit none (L.map (·.2.2))) := by
  obtain ⟨h1, h2, h3, h4⟩ := fromVec_spec streams limit ha
  obtain ⟨L, q1, q2⟩ := exists_sorted (Rem (fromVec streams limit)) (tagged streams)
    (fun x => (h4 x).trans (mem_tagged streams x).symm) (fun x y hx hy e => rem_inj h1 hx hy e)
  refine ⟨L, q1, fun y => (q2 y).trans (h4 y), ?_⟩
  obtain ⟨tr, t1, t2⟩ := trace_spec (fromVec streams limit).polls (fromVec streams limit) L h1
    ⟨q1, q2⟩ (by simp only [mu, h2, St.polls]; simp)
  refine ⟨tr, t1, ?_⟩
  rw [t2, h2, h3]

/-- `L` is ordered by key, so `emit` keeps the first entry of every key and drops tombstones. -/
theorem emit_spec : ∀ (l : List (Entry K R)) (b : Entry K R),
    (b :: l).Pairwise (fun x y => x.kt.key ≤ y.kt.key) →
    (emit (some b) l).Pairwise (fun x y => x.kt.key < y.kt.key) ∧
    (∀ x ∈ emit (some b) l, b.kt.key ≤ x.kt.key) ∧
    ∀ x, x ∈ emit (some b) l ↔ (x.isTomb = false ∧
      ∃ pre post, b :: l = pre ++ x :: post ∧ ∀ y ∈ pre, y.kt.key ≠ x.kt.key)
  | [], b, _ => by
    simp only [emit]
    refine ⟨by split <;> simp, by split <;> simp, ?_⟩
    intro x
    by_cases ht : b.isTomb = true
    · simp only [if_pos ht, List.not_mem_nil, false_iff]
      rintro ⟨h1, pre, post, h2, _⟩
      cases pre with
      | nil => simp at h2; rw [h2.1] at ht; simp [ht] at h1
      | cons a pre => simp at h2
    · simp only [if_neg ht, List.mem_singleton]
      constructor
      · rintro rfl; exact ⟨by simpa using ht, [], [], rfl, by simp⟩
      · rintro ⟨h1, pre, post, h2, _⟩
        cases pre with
        | nil => simp at h2; exact h2.1.symm
        | cons a pre => simp at h2
  | a :: l, b, h => by
    have hb := List.pairwise_cons.1 h
    simp only [emit]
    by_cases hk : b.kt.key = a.kt.key
    · rw [if_pos hk]
      have hpl : (b :: l).Pairwise (fun x y => x.kt.key ≤ y.kt.key) :=
        List.pairwise_cons.2 ⟨fun x hx => hb.1 x (List.mem_cons_of_mem _ hx),
          (List.pairwise_cons.1 hb.2).2⟩
      obtain ⟨i1, i2, i3⟩ := emit_spec l b hpl
      refine ⟨i1, i2, ?_⟩
      intro x
      rw [i3 x]
      constructor
      · rintro ⟨h1, pre, post, h2, h3⟩
        refine ⟨h1, ?_⟩
        cases pre with
        | nil => simp at h2; obtain ⟨rfl, rfl⟩ := h2; exact ⟨[], a :: l, rfl, by simp⟩
        | cons c pre =>
          simp at h2; obtain ⟨rfl, rfl⟩ := h2
          refine ⟨b :: a :: pre, post, rfl, ?_⟩
          intro y hy
          simp only [List.mem_cons] at hy
          rcases hy with rfl | rfl | hy
          · exact h3 _ List.mem_cons_self
          · rw [← hk]; exact h3 b List.mem_cons_self
          · exact h3 y (List.mem_cons_of_mem _ hy)
      · rintro ⟨h1, pre, post, h2, h3⟩
        refine ⟨h1, ?_⟩
        cases pre with
        | nil => simp at h2; obtain ⟨rfl, rfl⟩ := h2; exact ⟨[], l, rfl, by simp⟩
        | cons c pre =>
          simp at h2; obtain ⟨rfl, h2⟩ := h2
          cases pre with
          | nil =>
            simp at h2; obtain ⟨rfl, rfl⟩ := h2
            exact absurd hk (h3 b List.mem_cons_self)
          | cons d pre =>
            simp at h2; obtain ⟨rfl, rfl⟩ := h2
            refine ⟨b :: pre, post, rfl, ?_⟩
            intro y hy
            rcases List.mem_cons.1 hy with rfl | hy
            · exact h3 _ List.mem_cons_self
            · exact h3 y (by simp [hy])
    · rw [if_neg hk]
      obtain ⟨i1, i2, i3⟩ := emit_spec l a hb.2
      have hba : b.kt.key < a.kt.key := lt_of_le_of_ne (hb.1 a List.mem_cons_self) hk
      have hgt : ∀ x ∈ emit (some a) l, b.kt.key < x.kt.key :=
        fun x hx => lt_of_lt_of_le hba (i2 x hx)
      have hiff : ∀ x, (∃ pre post, b :: a :: l = pre ++ x :: post ∧
          ∀ y ∈ pre, y.kt.key ≠ x.kt.key) ↔ x = b ∨ (x.kt.key ≠ b.kt.key ∧
            ∃ pre post, a :: l = pre ++ x :: post ∧ ∀ y ∈ pre, y.kt.key ≠ x.kt.key) := by
        intro x
        constructor
        · rintro ⟨pre, post, h2, h3⟩
          cases pre with
          | nil => simp at h2; exact .inl h2.1.symm
          | cons c pre =>
            simp at h2; obtain ⟨rfl, h2⟩ := h2
            exact .inr ⟨(h3 _ List.mem_cons_self).symm, pre, post, h2,
              fun y hy => h3 y (List.mem_cons_of_mem _ hy)⟩
        · rintro (rfl | ⟨hne, pre, post, h2, h3⟩)
          · exact ⟨[], a :: l, rfl, by simp⟩
          · refine ⟨b :: pre, post, by rw [h2]; rfl, ?_⟩
            intro y hy
            rcases List.mem_cons.1 hy with rfl | hy
            · exact hne.symm
            · exact h3 y hy
      by_cases ht : b.isTomb = true
      · rw [if_pos ht]
        refine ⟨i1, fun x hx => le_of_lt (hgt x hx), ?_⟩
        intro x
        rw [hiff x]
        constructor
        · intro hx
          obtain ⟨h1, h2⟩ := (i3 x).1 hx
          exact ⟨h1, .inr ⟨(ne_of_lt (hgt x hx)).symm, h2⟩⟩
        · rintro ⟨h1, rfl | ⟨_, h2⟩⟩
          · rw [ht] at h1; cases h1
          · exact (i3 x).2 ⟨h1, h2⟩
      · rw [if_neg ht]
        refine ⟨List.pairwise_cons.2 ⟨hgt, i1⟩, ?_, ?_⟩
        · intro x hx
          rcases List.mem_cons.1 hx with rfl | hx
          · exact le_refl _
          · exact le_of_lt (hgt x hx)
        · intro x
          rw [hiff x, List.mem_cons]
          constructor
          · rintro (rfl | hx)
            · exact ⟨by simpa using ht, .inl rfl⟩
            · obtain ⟨h1, h2⟩ := (i3 x).1 hx
              exact ⟨h1, .inr ⟨(ne_of_lt (hgt x hx)).symm, h2⟩⟩
          · rintro ⟨h1, rfl | ⟨_, h2⟩⟩
            · exact .inl rfl
            · exact .inr ((i3 x).2 ⟨h1, h2⟩)

end Tonbo.Lemmas.Merge

namespace Tonbo.Lemmas.Merge
open Tonbo.Model Tonbo.Model.Mem Tonbo.Model.Merge Tonbo.Spec

variable {K R : Type} [LinearOrder K]

theorem sorted_split {L : List (HE K R)} (hs : SMap.Sorted L) {pre post : List (HE K R)}
    {y : HE K R} (h : L = pre ++ y :: post) {z : HE K R} (hz : z ∈ L) : z ∈ pre ∨ y.1 ≤ z.1 := by
  subst h
  have := (List.pairwise_append.1 hs).2.1
  rcases List.mem_append.1 hz with hz | hz
  · exact .inl hz
  · rcases List.mem_cons.1 hz with rfl | hz
    · exact .inr (le_refl _)
    · exact .inr (le_of_lt ((List.pairwise_cons.1 this).1 z hz))

theorem key_le_of_hkey_le {i j : Nat} {p q : Prio} {e x : Entry K R}
    (h : hkey i p e ≤ hkey j q x) : e.kt.key ≤ x.kt.key := by
  by_contra hc
  exact absurd (lt_of_le_of_lt h (hkey_lt_of_key (i := j) (j := i) (p := q) (q := p)
    (not_le.1 hc))) (lt_irrefl _)

/-- The emitted entries: the least heap entry of every key, unless it is a tombstone. -/
theorem emit_winners {L : List (HE K R)} (hs : SMap.Sorted L)
    (hk : ∀ y ∈ L, ∃ p, y.1 = hkey y.2.1 p y.2.2) :
    (emit none (L.map (·.2.2))).Pairwise (fun x y => x.kt.key < y.kt.key) ∧
    ∀ x, x ∈ emit none (L.map (·.2.2)) ↔ (x.isTomb = false ∧ ∃ y ∈ L, y.2.2 = x ∧
      ∀ z ∈ L, z.2.2.kt.key = x.kt.key → y.1 ≤ z.1) := by
  have hle : (L.map (·.2.2)).Pairwise (fun x y => x.kt.key ≤ y.kt.key) := by
    rw [List.pairwise_map]
    refine List.Pairwise.imp_of_mem ?_ hs
    intro a b ha hb hab
    obtain ⟨p, hp⟩ := hk a ha
    obtain ⟨q, hq⟩ := hk b hb
    rw [hp, hq] at hab
    exact key_le_of_hkey_le (le_of_lt hab)
  have hiff : ∀ x, (∃ pre post, L.map (·.2.2) = pre ++ x :: post ∧
      ∀ y ∈ pre, y.kt.key ≠ x.kt.key) ↔ ∃ y ∈ L, y.2.2 = x ∧
      ∀ z ∈ L, z.2.2.kt.key = x.kt.key → y.1 ≤ z.1 := by
    intro x
    constructor
    · rintro ⟨pre, post, h1, h2⟩
      obtain ⟨l1, l2, rfl, rfl, h3⟩ := List.map_eq_append_iff.1 h1
      obtain ⟨y, l3, rfl, rfl, rfl⟩ := List.map_eq_cons_iff.1 h3
      refine ⟨y, by simp, rfl, ?_⟩
      intro z hz hzk
      rcases sorted_split hs rfl hz with h | h
      · exact absurd hzk (h2 _ (List.mem_map.2 ⟨z, h, rfl⟩))
      · exact h
    · rintro ⟨y, hy, rfl, hmin⟩
      obtain ⟨l1, l2, rfl⟩ := List.append_of_mem hy
      refine ⟨l1.map (·.2.2), l2.map (·.2.2), by simp, ?_⟩
      intro e he
      obtain ⟨z, hz, rfl⟩ := List.mem_map.1 he
      intro hzk
      have h1 := hmin z (List.mem_append_left _ hz) hzk
      have h2 := (List.pairwise_append.1 hs).2.2 z hz y List.mem_cons_self
      exact absurd (lt_of_le_of_lt h1 h2) (lt_irrefl _)
  cases hL : L with
  | nil => simp [emit]
  | cons a L1 =>
    rw [← hL]
    have : emit none (L.map (·.2.2)) = emit (some a.2.2) (L1.map (·.2.2)) := by rw [hL]; rfl
    rw [this]
    have hL' : L.map (·.2.2) = a.2.2 :: L1.map (·.2.2) := by rw [hL]; rfl
    obtain ⟨h1, _, h3⟩ := emit_spec (L1.map (·.2.2)) a.2.2 (by rw [← hL']; exact hle)
    refine ⟨h1, ?_⟩
    intro x
    rw [h3 x, ← hL', hiff x]

end Tonbo.Lemmas.Merge
