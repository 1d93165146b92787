import Verif.Lemmas.Compact

/-!
# Merges of arbitrary sorted sources

Without assuming that the sources deliver everything, the outputs still are in key order and hold only
what the sources hold.
-/

set_option linter.unusedSectionVars false

namespace Tonbo.Lemmas.Compact
open Tonbo.Model Tonbo.Model.Mem Tonbo.Model.Sst Tonbo.Model.Flush Tonbo.Model.Compact Tonbo.Spec

variable {K R : Type} [LinearOrder K]

theorem advance_weak {c : Cursor K R} {k : Kind} {x : KT K × Option R} {t : List (KT K × Option R)}
    (hr : rem c k = x :: t) (i : Nat) :
    pend (c.advance k).ensure k = (pend c k).tail ∧
      pend (c.advance k).ensure (other k) = pend c (other k) ∧
      (∀ e, headOf i c (other k) = some e → headOf i (c.advance k).ensure (other k) = some e) ∧
      (c.advance k).ensure.left < c.left := by
  cases hb : c.batch with
  | none => simp [rem, hb] at hr
  | some b =>
    have hb' : (c.bump k).batch = some b := by rw [bump_batch, hb]
    have hd1 : ∀ k', (b.kts k').length ≤ (c.bump k).idx k' ↔ rem (c.bump k) k' = [] := by
      intro k'
      rw [← List.length_eq_zero_iff, rem_length _ b hb']
      omega
    have hrt : rem (c.bump k) k = t := by rw [bump_rem, hr]; rfl
    have hro := bump_rem_other c k
    have hcond : ((b.kts .data).length ≤ (c.bump k).di ∧ (b.kts .del).length ≤ (c.bump k).xi) ↔
        (t = [] ∧ rem c (other k) = []) := by
      have e1 := hd1 .data
      have e2 := hd1 .del
      rw [← hrt, ← hro]
      cases k
      · exact and_congr e1 e2
      · rw [and_comm]; exact and_congr e2 e1
    have hadv : c.advance k = if (b.kts .data).length ≤ (c.bump k).di ∧
        (b.kts .del).length ≤ (c.bump k).xi
        then { c.bump k with batch := none, di := 0, xi := 0 } else c.bump k := by
      simp only [Cursor.advance, hb']
    by_cases hdone : t = [] ∧ rem c (other k) = []
    · rw [if_pos (hcond.2 hdone)] at hadv
      obtain ⟨rfl, hor⟩ := hdone
      have hho : headOf i c (other k) = none := by rw [headOf_rem, hor]; rfl
      cases hrest : c.rest with
      | nil =>
        have he : (c.advance k).ensure = ⟨none, 0, 0, []⟩ := by
          rw [hadv]
          simp [Cursor.ensure, bump_rest, hrest]
        rw [he, hho]
        refine ⟨?_, ?_, fun e h => (by cases h), ?_⟩
        · have : pend c k = [x] := by simp [pend, hr, hrest]
          rw [this]; rfl
        · have : pend c (other k) = [] := by simp [pend, hor, hrest]
          rw [this]; rfl
        · rw [left_eq' c k, hr]; simp [Cursor.left]; omega
      | cons b1 r1 =>
        have he : (c.advance k).ensure = ⟨some b1, 0, 0, r1⟩ := by
          rw [hadv]
          simp [Cursor.ensure, bump_rest, hrest]
        have hrem1 : ∀ k', rem (⟨some b1, 0, 0, r1⟩ : Cursor K R) k' = items b1 k' := by
          intro k'; cases k' <;> simp [rem, Cursor.idx]
        rw [he, hho]
        refine ⟨?_, ?_, fun e h => (by cases h), ?_⟩
        · simp [pend, hrem1, hr, hrest]
        · simp only [pend, hrem1, hor, hrest, List.flatMap_cons, List.nil_append]
        · rw [left_eq' c k, left_eq' _ k, hrem1, hrem1, hr, hor, hrest]
          simp
    · rw [if_neg (fun hc => hdone (hcond.1 hc))] at hadv
      have he : (c.advance k).ensure = c.bump k := by
        rw [hadv]; exact ensure_of_some hb'
      rw [he]
      refine ⟨?_, ?_, ?_, ?_⟩
      · simp [pend, hrt, hr, bump_rest]
      · simp [pend, hro, bump_rest]
      · intro e h
        rw [headOf_rem, hro, bump_idx_other, ← headOf_rem]
        exact h
      · rw [left_eq' c k, left_eq' _ k, hrt, hro, hr, bump_rest]
        simp

theorem ensure_left (c : Cursor K R) : c.ensure.left ≤ c.left := by
  unfold Cursor.ensure
  cases hb : c.batch with
  | some b => exact Nat.le_refl _
  | none =>
    cases hrest : c.rest with
    | nil => simp [Cursor.left, hb, hrest]
    | cons b r => simp [Cursor.left, hb, hrest]

theorem enqueueLoop_weak {k : Kind} {i : Nat} {g : K} : ∀ (n : Nat) (c : Cursor K R), c.ensure.left < n →
    ∃ c', enqueueLoop k i (some g) n c = some (c', headOf i c' k) ∧
      (pend c' k).Sublist (pend c.ensure k) ∧ pend c' (other k) = pend c.ensure (other k) ∧
      (∀ e, headOf i c.ensure (other k) = some e → headOf i c' (other k) = some e) ∧
      ∀ e, headOf i c' k = some e → e.kt.key ≠ g
  | 0, c, h => by omega
  | n + 1, c, hl => by
    rw [enqueueLoop]
    cases hb : c.ensure.batch with
    | none =>
      refine ⟨c.ensure, ?_, List.Sublist.refl _, rfl, fun _ h => h, ?_⟩
      · simp [headOf, hb]
      · intro e he; simp [headOf, hb] at he
    | some b =>
      simp only
      cases hr : rem c.ensure k with
      | nil =>
        have hg : (b.kts k)[c.ensure.idx k]? = none := by
          have := headOf_rem (i := i) (c := c.ensure) (k := k)
          rw [hr] at this
          simpa [headOf, hb] using this
        have hh : headOf i c.ensure k = none := by rw [headOf_rem, hr]; rfl
        refine ⟨c.ensure, ?_, List.Sublist.refl _, rfl, fun _ h => h, ?_⟩
        · rw [hh]; simp only [hg]
        · intro e he; rw [hh] at he; cases he
      | cons x t =>
        have hg : (b.kts k)[c.ensure.idx k]? = some x.1 := by
          rw [getElem?_kts]
          have : (items b k).drop (c.ensure.idx k) = rem c.ensure k := by simp [rem, hb]
          rw [this, hr]; rfl
        simp only [hg]
        by_cases hs : x.1.key = g
        · rw [if_pos (by rw [hs])]
          obtain ⟨a2, a3, a4, a5⟩ := advance_weak hr i
          obtain ⟨c', e1, e2, e3, e4, e5⟩ := enqueueLoop_weak (k := k) (i := i) (g := g) n
            (c.ensure.advance k) (by omega)
          refine ⟨c', e1, ?_, by rw [e3, a3], fun e he => e4 e (a4 e he), e5⟩
          rw [a2] at e2
          exact e2.trans (List.tail_sublist _)
        · rw [if_neg (by rintro e; exact hs (Option.some.inj e).symm)]
          have hh : headOf i c.ensure k = some ⟨x.1, c.ensure.idx k, k, i, c.ensure.idx k⟩ := by
            rw [headOf_rem, hr]; rfl
          refine ⟨c.ensure, ?_, List.Sublist.refl _, rfl, fun _ h => h, ?_⟩
          · rw [hh]
          · intro e he
            rw [hh] at he
            cases he
            exact hs

theorem refill_weak {c : Cursor K R} {k : Kind} {x : KT K × Option R} {t : List (KT K × Option R)}
    (hr : rem c k = x :: t) (g : K) (i : Nat) :
    ∃ c', (c.advance k).enqueue k i (some g) = some (c', headOf i c' k) ∧
      (pend c' k).Sublist (pend c k).tail ∧ pend c' (other k) = pend c (other k) ∧
      (∀ e, headOf i c (other k) = some e → headOf i c' (other k) = some e) ∧
      ∀ e, headOf i c' k = some e → e.kt.key ≠ g := by
  obtain ⟨a2, a3, a4, a5⟩ := advance_weak hr i
  obtain ⟨c', e1, e2, e3, e4, e5⟩ := enqueueLoop_weak (k := k) (i := i) (g := g)
    ((c.advance k).left + 1) (c.advance k) (by have := ensure_left (c.advance k); omega)
  exact ⟨c', e1, by rw [← a2]; exact e2, by rw [e3, a3], fun e he => e4 e (a4 e he), e5⟩

/-- The entry is the first one left of its kind in its source. -/
def Valid (srcs : List (Cursor K R)) (e : HEntry K) : Prop :=
  ∃ c, srcs[e.src]? = some c ∧ headOf e.src c e.kind = some e

/-- Entries of different sources or kinds. -/
def Apart (a b : HEntry K) : Prop := ¬ (a.src = b.src ∧ a.kind = b.kind)

theorem apart_symm {a b : HEntry K} (h : Apart a b) : Apart b a := fun e => h ⟨e.1.symm, e.2.symm⟩

/-- The weak invariant. -/
structure Weak (srcs : List (Cursor K R)) (heap : List (HEntry K)) : Prop where
  sorted : ∀ c ∈ srcs, Sorted c
  valid : ∀ e ∈ heap, Valid srcs e
  apart : heap.Pairwise Apart

theorem total_set : ∀ (srcs : List (Cursor K R)) (i : Nat) (c c' : Cursor K R), srcs[i]? = some c →
    (pend c' .data).length + (pend c' .del).length + 1 ≤ (pend c .data).length + (pend c .del).length →
    total (srcs.set i c') + 1 ≤ total srcs
  | [], i, c, c', h, _ => by cases h
  | d :: srcs, 0, c, c', h, hlt => by
    simp only [List.getElem?_cons_zero, Option.some.injEq] at h
    subst h
    simp only [total, List.set_cons_zero, List.map_cons, List.sum_cons]
    omega
  | d :: srcs, i + 1, c, c', h, hlt => by
    have := total_set srcs i c c' (by simpa using h) hlt
    simp only [total, List.set_cons_succ, List.map_cons, List.sum_cons] at this ⊢
    omega

/-- A source holds no more than another. -/
def Sub (c c' : Cursor K R) : Prop := ∀ k, (pend c' k).Sublist (pend c k)

theorem valid_head {srcs : List (Cursor K R)} {e : HEntry K} (h : Valid srcs e) :
    ∃ c x t, srcs[e.src]? = some c ∧ headOf e.src c e.kind = some e ∧ rem c e.kind = x :: t ∧
      x.1 = e.kt ∧ c.idx e.kind = e.row := by
  obtain ⟨c, hc, hhead⟩ := h
  have hrow := (headOf_src hhead).2.2
  have hh := hhead
  rw [headOf_rem] at hhead
  cases hr : rem c e.kind with
  | nil => rw [hr] at hhead; cases hhead
  | cons x t =>
    rw [hr] at hhead
    simp only [List.head?_cons, Option.map_some, Option.some.injEq] at hhead
    exact ⟨c, x, t, hc, hh, hr, congrArg HEntry.kt hhead, hrow.symm⟩

theorem refillAll_weak {g : K} : ∀ (es : List (HEntry K)) (srcs : List (Cursor K R)) (heap : List (HEntry K)),
    (∀ c ∈ srcs, Sorted c) → (∀ e ∈ heap ++ es, Valid srcs e) → (heap ++ es).Pairwise Apart →
    (∀ e ∈ es, e.kt.key = g) → (∀ e ∈ heap, g < e.kt.key) →
    ∃ srcs' heap', refillAll g es srcs heap = some (srcs', heap') ∧ Weak srcs' heap' ∧
      (∀ e ∈ heap', g < e.kt.key) ∧ List.Forall₂ Sub srcs srcs' ∧ total srcs' + es.length ≤ total srcs
  | [], srcs, heap, hs, hv, ha, _, hh => by
    rw [List.append_nil] at hv ha
    exact ⟨srcs, heap, rfl, ⟨hs, hv, ha⟩, hh,
      List.forall₂_same.2 (fun _ _ _ => List.Sublist.refl _), by simp⟩
  | e :: es, srcs, heap, hs, hv, ha, he, hh => by
    obtain ⟨c, x, t, hc, hhead, hr, hxe, _⟩ := valid_head (hv e (by simp))
    have hsort : Sorted c := hs c (List.mem_of_getElem? hc)
    obtain ⟨c', r1, r3, r4, r5, r6⟩ := refill_weak hr g e.src
    have hpe : pend c e.kind = x :: (t ++ c.rest.flatMap (fun b => items b e.kind)) := by simp [pend, hr]
    have hsub : Sub c c' := by
      intro k
      rcases eq_or_other k e.kind with rfl | rfl
      · exact r3.trans (List.tail_sublist _)
      · rw [r4]
    have hlen : (pend c' .data).length + (pend c' .del).length + 1 ≤
        (pend c .data).length + (pend c .del).length := by
      have h1 := r3.length_le
      rw [hpe, List.tail_cons] at h1
      have h2 : (pend c e.kind).length =
        (t ++ c.rest.flatMap (fun b => items b e.kind)).length + 1 := by rw [hpe]; rfl
      have h3 : (pend c' (other e.kind)).length = (pend c (other e.kind)).length := by rw [r4]
      cases hk : e.kind <;> rw [hk] at h1 h2 h3 <;> simp only [other] at h3 <;> omega
    have hkey : ∀ e' ∈ (headOf e.src c' e.kind).toList, g < e'.kt.key := by
      intro e' he'
      rw [Option.mem_toList] at he'
      change headOf e.src c' e.kind = some e' at he'
      refine lt_of_le_of_ne ?_ (Ne.symm (r6 e' he'))
      rw [headOf_rem] at he'
      cases hr' : rem c' e.kind with
      | nil => rw [hr'] at he'; cases he'
      | cons y t' =>
        rw [hr'] at he'
        simp only [List.head?_cons, Option.map_some, Option.some.injEq] at he'
        rw [← he']
        have hy : y ∈ (pend c e.kind).tail := r3.subset (by rw [pend, hr']; simp)
        have hs' := hsort e.kind
        rw [hpe] at hs' hy
        have := (List.pairwise_cons.1 hs').1 y hy
        rw [← he e List.mem_cons_self, ← hxe]
        exact kt_key_le this
    have hpart := List.pairwise_append.1 ha
    have hpe' := List.pairwise_cons.1 hpart.2.1
    obtain ⟨srcs', heap', f1, f2, f3, f4, f5⟩ := refillAll_weak es (srcs.set e.src c')
      ((headOf e.src c' e.kind).toList ++ heap)
      (by
        intro d hd
        rcases List.mem_or_eq_of_mem_set hd with hd | rfl
        · exact hs d hd
        · exact fun k => (hsort k).sublist (hsub k))
      (by
        intro e' he'
        have hlt : e.src < srcs.length := (List.getElem?_eq_some_iff.1 hc).1
        rw [List.append_assoc] at he'
        rcases List.mem_append.1 he' with h | h
        · rw [Option.mem_toList] at h
          obtain ⟨q1, q2, _⟩ := headOf_src h
          refine ⟨c', ?_, by rw [q1, q2]; exact h⟩
          rw [q1, List.getElem?_set_self hlt]
        · have hap : Apart e' e := by
            rcases List.mem_append.1 h with h | h
            · exact hpart.2.2 e' h e List.mem_cons_self
            · exact apart_symm (hpe'.1 e' h)
          obtain ⟨d, d1, d2⟩ := hv e' (by
            rcases List.mem_append.1 h with h | h
            · exact List.mem_append_left _ h
            · exact List.mem_append_right _ (List.mem_cons_of_mem _ h))
          by_cases hsrc : e'.src = e.src
          · have hk : e'.kind = other e.kind := by
              rcases eq_or_other e'.kind e.kind with h | h
              · exact absurd ⟨hsrc, h⟩ hap
              · exact h
            rw [hsrc, hc] at d1
            cases d1
            refine ⟨c', by rw [hsrc, List.getElem?_set_self hlt], ?_⟩
            rw [hsrc, hk] at d2 ⊢
            exact r5 e' d2
          · exact ⟨d, by rw [List.getElem?_set_ne (Ne.symm hsrc)]; exact d1, d2⟩)
      (by
        rw [List.append_assoc]
        refine List.pairwise_append.2 ⟨?_, ?_, ?_⟩
        · cases headOf e.src c' e.kind <;> simp
        · exact List.pairwise_append.2 ⟨hpart.1, hpe'.2,
            fun a ha b hb => hpart.2.2 a ha b (List.mem_cons_of_mem _ hb)⟩
        · intro a ha' b hb
          rw [Option.mem_toList] at ha'
          obtain ⟨q1, q2, _⟩ := headOf_src ha'
          have hap : Apart e b := by
            rcases List.mem_append.1 hb with h | h
            · exact apart_symm (hpart.2.2 b h e List.mem_cons_self)
            · exact hpe'.1 b h
          unfold Apart at hap ⊢
          rw [q1, q2]
          exact hap)
      (fun e' h' => he e' (List.mem_cons_of_mem _ h'))
      (by
        intro e' he'
        rcases List.mem_append.1 he' with h | h
        · exact hkey e' h
        · exact hh e' h)
    refine ⟨srcs', heap', ?_, f2, f3, ?_, ?_⟩
    · simp only [refillAll, refill, hc, r1, f1]
    · exact forall₂_trans (fun _ _ _ h1 h2 k => (h2 k).trans (h1 k))
        (forall₂_set (fun _ _ => List.Sublist.refl _) srcs e.src c c' hc hsub) f4
    · have := total_set srcs e.src c c' hc hlen
      simp only [List.length_cons]
      omega

/-- The weak invariant is kept; what is emitted comes from the sources. -/
theorem steps_weak (H : Heap K) : Steps H (Weak (R := R))
    (fun srcs heap L => (∀ w ∈ L, Left srcs w) ∧ (heap ≠ [] → L ≠ [])) := by
  refine ⟨?_, fun _ => ⟨by simp, by simp⟩⟩
  intro srcs heap h' e hi h2 h3
  have hem : e ∈ heap := h2.mem_iff.2 List.mem_cons_self
  obtain ⟨c, x, t, hc, hhead, hr, hxe, hrow⟩ := valid_head (hi.valid e hem)
  obtain ⟨t1, t2, t3⟩ := takeGroup_spec H (g := e.kt.key) h'.length h' (Nat.le_refl _)
    (fun x hx => kt_key_le (ge_le (h3 x hx)))
  have hperm : ((takeGroup H e.kt.key h'.length h').2 ++
      (e :: (takeGroup H e.kt.key h'.length h').1)).Perm heap :=
    List.perm_middle.trans (((List.perm_cons e).2 t1).trans h2.symm)
  obtain ⟨srcs', heap', f1, f2, f3, f4, f5⟩ := refillAll_weak (g := e.kt.key)
    (e :: (takeGroup H e.kt.key h'.length h').1) srcs (takeGroup H e.kt.key h'.length h').2
    hi.sorted (fun y hy => hi.valid y (hperm.mem_iff.1 hy))
    ((hperm.pairwise_iff (fun h => apart_symm h)).2 hi.apart)
    (by
      intro e' he'
      rcases List.mem_cons.1 he' with rfl | h
      · rfl
      · exact t2 e' h)
    (by
      intro y hy
      have hy' : y ∈ h' := t1.mem_iff.1 (List.mem_append_left _ hy)
      exact lt_of_le_of_ne (kt_key_le (ge_le (h3 y hy'))) (Ne.symm (t3 y hy)))
  refine ⟨c, x, t, hc, hr, hrow, hxe, srcs', heap', f1, f2, ?_, f3, ?_⟩
  · simp only [List.length_cons] at f5; omega
  · rintro L ⟨hL, _⟩
    refine ⟨?_, fun _ => by simp⟩
    intro w hw
    rcases List.mem_cons.1 hw with rfl | hw
    · exact ⟨c, List.mem_of_getElem? hc, e.kind, by rw [pend, hr]; simp⟩
    · obtain ⟨d, hd, k, hp⟩ := hL w hw
      obtain ⟨d0, hd0, hs⟩ := forall₂_mem_r f4 d hd
      exact ⟨d0, hd0, k, (hs k).subset hp⟩

theorem entries_src_le {e : HEntry K} : ∀ {cs : List (Cursor K R)} {j : Nat}, e ∈ entries j cs → j ≤ e.src :=
  fun h => (mem_entries h).choose_spec.1

theorem entries_apart : ∀ (cs : List (Cursor K R)) (j : Nat), (entries j cs).Pairwise Apart
  | [], _ => List.Pairwise.nil
  | c :: cs, j => by
    refine List.pairwise_append.2 ⟨List.pairwise_append.2 ⟨?_, ?_, ?_⟩, entries_apart cs (j + 1), ?_⟩
    · cases headOf j c .data <;> simp
    · cases headOf j c .del <;> simp
    · intro a ha b hb
      rw [Option.mem_toList] at ha hb
      have h1 := (headOf_src ha).2.1
      have h2 := (headOf_src hb).2.1
      rintro ⟨_, h⟩
      rw [h1, h2] at h
      cases h
    · intro a ha b hb
      have hsrc : a.src = j := by
        rcases List.mem_append.1 ha with h | h <;> rw [Option.mem_toList] at h <;> exact (headOf_src h).1
      have := entries_src_le hb
      rintro ⟨h, _⟩
      omega

/-- A merge of sorted sources, whatever they deliver. -/
theorem execute_weak (cfg : Cfg K R) (H : Heap K) (next : Option Nat) (inputs : List (List (Batch K R)))
    (hs : ∀ bs ∈ inputs, ∀ k, (allItems bs k).Pairwise (fun a b => a.1 ≤ b.1)) :
    ∃ L, (∀ w ∈ L, InInputs inputs w) ∧
      ((L = [] ∧ execute cfg H next inputs = .error .emptyInput) ∨
       (L ≠ [] ∧ ∃ tables parts, execute cfg H next inputs = .ok tables ∧
          List.Forall₂ (TableRep cfg) tables parts ∧ parts.flatten = L ∧ Asc L ∧
          tables.map (·.id) = idsFrom cfg.target next (tables.length - 1) ∧ tables ≠ [] ∧
          (∀ t ∈ tables, RowCap cfg t.stats.rows)) ∨
       ∃ e, execute cfg H next inputs = .error e ∧ Excuse cfg next L.length e) := by
  have hsrc : Weak (inputs.map (fun bs => (Cursor.new bs).ensure))
      (entries 0 (inputs.map (fun bs => (Cursor.new bs).ensure))) := by
    refine ⟨?_, ?_, entries_apart _ _⟩
    · intro c hc
      obtain ⟨bs, hbs, rfl⟩ := List.mem_map.1 hc
      exact fun k => by rw [pend_new]; exact hs bs hbs k
    · intro e he
      obtain ⟨c, _, h1, h2⟩ := mem_entries he
      exact ⟨c, h1, h2⟩
  obtain ⟨L, hL, hres⟩ := execute_gen (steps_weak H) cfg next inputs hsrc
    (fun srcs heap _ hne hL => hL.2 hne rfl)
  exact ⟨L, fun w hw => (left_inputs inputs w).1 (hL.1 w hw), hres⟩

/-! ## The batches of a file -/

theorem chunks_flatten {α : Type} {n : Nat} (hn : 0 < n) : ∀ (m : Nat) (l : List α), l.length ≤ m →
    (chunks n m l).flatten = l
  | 0, l, h => by
    have : l = [] := List.length_eq_zero_iff.1 (by omega)
    subst this; rfl
  | m + 1, [], _ => rfl
  | m + 1, a :: l, h => by
    rw [chunks, List.flatten_cons, chunks_flatten hn m _ (by simp at h ⊢; omega), List.take_append_drop]

theorem chunks_ne {α : Type} {n : Nat} (hn : 0 < n) : ∀ (m : Nat) (l : List α), ∀ c ∈ chunks n m l, c ≠ []
  | 0, l, c, h => by cases h
  | m + 1, [], c, h => by cases h
  | m + 1, a :: l, c, h => by
    rcases List.mem_cons.1 h with rfl | h
    · obtain ⟨n', rfl⟩ : ∃ n', n = n' + 1 := ⟨n - 1, by omega⟩
      simp
    · exact chunks_ne hn m _ c h

/-- A list that fits in one batch. -/
theorem chunks_one {α : Type} {n : Nat} {m : Nat} {l : List α} (hne : l ≠ []) (hm : l.length ≤ m)
    (h : l.length ≤ n) : chunks n m l = [l] := by
  cases l with
  | nil => exact absurd rfl hne
  | cons a l =>
    obtain ⟨m', rfl⟩ : ∃ m', m = m' + 1 := ⟨m - 1, by simp at hm; omega⟩
    rw [chunks, List.take_of_length_le h, List.drop_eq_nil_of_le h]
    cases m' <;> rfl

theorem zip_data : ∀ (ds : List (List (KT K × R))) (xs : List (List (KT K))),
    allItems (zipBatches ds xs) .data = ds.flatten.map (fun p => (p.1, some p.2))
  | [], xs => by
    simp only [zipBatches, allItems, List.flatMap_map]
    exact List.flatMap_eq_nil_iff.2 (fun _ _ => rfl)
  | d :: ds, [] => by
    have := zip_data ds []
    simp only [zipBatches, allItems, List.flatMap_cons] at this ⊢
    rw [this, List.flatten_cons, List.map_append]
    rfl
  | d :: ds, x :: xs => by
    have := zip_data ds xs
    simp only [zipBatches, allItems, List.flatMap_cons] at this ⊢
    rw [this, List.flatten_cons, List.map_append]
    rfl

theorem zip_del : ∀ (ds : List (List (KT K × R))) (xs : List (List (KT K))),
    allItems (zipBatches ds xs) .del = xs.flatten.map (fun kt => (kt, none))
  | [], xs => by
    simp only [zipBatches, allItems, List.flatMap_map]
    rw [List.map_flatten, ← List.flatMap_def]
    rfl
  | d :: ds, [] => by
    have := zip_del ds []
    simp only [zipBatches, allItems, List.flatMap_cons] at this ⊢
    rw [this]
    rfl
  | d :: ds, x :: xs => by
    have := zip_del ds xs
    simp only [zipBatches, allItems, List.flatMap_cons] at this ⊢
    rw [this, List.flatten_cons, List.map_append]
    rfl

theorem fileBatches_data {n : Nat} (hn : 0 < n) (f : File K R) :
    allItems (fileBatches n f) .data = f.data.map (fun p => (p.1, some p.2)) := by
  rw [fileBatches, zip_data, chunks_flatten hn _ _ (Nat.le_refl _)]

theorem fileBatches_del {n : Nat} (hn : 0 < n) (f : File K R) :
    allItems (fileBatches n f) .del = f.dels.map (fun kt => (kt, none)) := by
  rw [fileBatches, zip_del, chunks_flatten hn _ _ (Nat.le_refl _)]

theorem fileBatches_sorted {n : Nat} (hn : 0 < n) {f : File K R} (hf : FileSorted f) (k : Kind) :
    (allItems (fileBatches n f) k).Pairwise (fun a b => a.1 ≤ b.1) := by
  cases k
  · rw [fileBatches_data hn]
    exact List.pairwise_map.2 hf.1
  · rw [fileBatches_del hn]
    exact List.pairwise_map.2 hf.2

theorem zip_nil_right : ∀ (ds : List (List (KT K × R))),
    zipBatches ds [] = ds.map (fun d => (⟨d, none⟩ : Batch K R))
  | [] => rfl
  | d :: ds => by rw [zipBatches, zip_nil_right ds]; rfl

theorem zip_nil_left (xs : List (List (KT K))) :
    zipBatches ([] : List (List (KT K × R))) xs = xs.map (fun x => ⟨[], some x⟩) := rfl

theorem delivers_cons {b : Batch K R} {r : List (Batch K R)} (h1 : ∃ k, items b k ≠ [])
    (h2 : r = [] ∨ ∃ k l, (items b k).getLast? = some l ∧ (∀ x ∈ items b (other k), x.1.key < l.1.key) ∧
      ∀ b' ∈ r, items b' k ≠ [] ∧ items b' (other k) = []) : Delivers (b :: r) := by
  have hrem : ∀ k', rem (Cursor.new (b :: r)).ensure k' = items b k' := by
    intro k'; cases k' <;> simp [Cursor.new, Cursor.ensure, rem, Cursor.idx]
  unfold Delivers CurOk
  change (∃ k, rem (Cursor.new (b :: r)).ensure k ≠ []) ∧ (r = [] ∨ ∃ k, Ends (Cursor.new (b :: r)).ensure k)
  refine ⟨?_, ?_⟩
  · obtain ⟨k, hk⟩ := h1
    exact ⟨k, by rw [hrem]; exact hk⟩
  · rcases h2 with h2 | ⟨k, l, e1, e2, e3⟩
    · exact .inl h2
    · exact .inr ⟨k, l, by rw [hrem]; exact e1, by rw [hrem]; exact e2, e3⟩

theorem delivers_data : ∀ (ds : List (List (KT K × R))), (∀ d ∈ ds, d ≠ []) →
    Delivers (ds.map (fun d => (⟨d, none⟩ : Batch K R)))
  | [], _ => ⟨rfl, rfl, rfl⟩
  | d :: ds, h => by
    have hd : items (⟨d, none⟩ : Batch K R) .data ≠ [] := by
      simpa [items] using h d List.mem_cons_self
    refine delivers_cons ⟨.data, hd⟩ (.inr ⟨.data, _, List.getLast?_eq_some_getLast hd, ?_, ?_⟩)
    · intro x hx; simp [other, items] at hx
    · intro b hb
      obtain ⟨d', hd', rfl⟩ := List.mem_map.1 hb
      exact ⟨by simpa [items] using h d' (List.mem_cons_of_mem _ hd'), by simp [other, items]⟩

theorem delivers_del : ∀ (xs : List (List (KT K))), (∀ x ∈ xs, x ≠ []) →
    Delivers (xs.map (fun x => (⟨[], some x⟩ : Batch K R)))
  | [], _ => ⟨rfl, rfl, rfl⟩
  | d :: ds, h => by
    have hd : items (⟨[], some d⟩ : Batch K R) .del ≠ [] := by
      simpa [items] using h d List.mem_cons_self
    refine delivers_cons ⟨.del, hd⟩ (.inr ⟨.del, _, List.getLast?_eq_some_getLast hd, ?_, ?_⟩)
    · intro x hx; simp [other, items] at hx
    · intro b hb
      obtain ⟨d', hd', rfl⟩ := List.mem_map.1 hb
      exact ⟨by simpa [items] using h d' (List.mem_cons_of_mem _ hd'), by simp [other, items]⟩

theorem take_getLast? {α : Type} : ∀ {n : Nat} {l : List α} {p : α}, 0 < n → l[n - 1]? = some p →
    (l.take n).getLast? = some p := by
  intro n l p hn h
  rw [List.getLast?_eq_getElem?, List.length_take]
  have hlt := (List.getElem?_eq_some_iff.1 h).1
  rw [Nat.min_eq_left (by omega), List.getElem?_take]
  rw [if_pos (by omega)]
  exact h

end Tonbo.Lemmas.Compact
