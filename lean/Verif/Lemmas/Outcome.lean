import Verif.Spec.OutcomeView
import Verif.Lemmas.Manifest

/-!
# The segments, edits and GC plan of a compaction
-/

set_option linter.unusedSectionVars false

namespace Tonbo.Lemmas.Outcome
open Tonbo.Model.Manifest Tonbo.Model.Planner Tonbo.Model.Outcome Tonbo.Spec Tonbo.Lemmas.Manifest

variable {K : Type}

theorem hasGaps_iff : ∀ (l : List WalRef), hasGaps l = true ↔ Gap l
  | [] => by simp [hasGaps, Gap]
  | [a] => by simp [hasGaps, Gap]
  | a :: b :: l => by
    have ih := hasGaps_iff (b :: l)
    unfold hasGaps
    rw [Bool.or_eq_true, ih, decide_eq_true_eq]
    constructor
    · rintro (h | ⟨i, x, y, h1, h2, h3⟩)
      · exact ⟨0, a, b, rfl, rfl, h⟩
      · exact ⟨i + 1, x, y, by simpa using h1, by simpa using h2, h3⟩
    · rintro ⟨i, x, y, h1, h2, h3⟩
      cases i with
      | zero => simp at h1 h2; subst h1 h2; exact .inl h3
      | succ i => exact .inr ⟨i, x, y, by simpa using h1, by simpa using h2, h3⟩

theorem mapM_id_none {α : Type} : ∀ (l : List (Option α)), l.mapM id = none ↔ none ∈ l
  | [] => by simp
  | none :: l => by simp [List.mapM_cons]
  | some a :: l => by
    have ih := mapM_id_none l
    simp only [List.mapM_cons, id_eq, Option.bind_eq_bind, Option.bind_some, List.mem_cons, reduceCtorEq, false_or]
    rw [← ih]
    cases l.mapM id <;> simp

theorem mapM_id_some {α : Type} : ∀ (l : List (Option α)) (r : List α), l.mapM id = some r → l = r.map some
  | [], r, h => by simp at h; subst h; rfl
  | none :: l, r, h => by simp [List.mapM_cons] at h
  | some a :: l, r, h => by
    simp only [List.mapM_cons, id_eq, Option.bind_eq_bind, Option.bind_some] at h
    cases hl : l.mapM id with
    | none => rw [hl] at h; simp at h
    | some r' =>
      rw [hl] at h
      simp at h
      subst h
      rw [mapM_id_some l r' hl]; rfl

/-- The list the identifiers are collected from. -/
theorem tableWal_iff (v : Version (Info K)) (o : Outcome K) (w : Option (List Nat)) :
    w ∈ (v.ssts.flatten.filter (fun e => decide (e.id ∉ o.remove.map (·.id)))).map (·.wal) ++ o.outputs.map (·.wal) ↔
      TableWal v o w := by
  rw [List.mem_append, List.mem_map, List.mem_map]
  unfold TableWal
  refine or_congr ?_ Iff.rfl
  constructor
  · rintro ⟨e, he, rfl⟩
    rw [List.mem_filter, List.mem_flatten] at he
    obtain ⟨⟨b, hb, heb⟩, hr⟩ := he
    obtain ⟨l, hl⟩ := List.mem_iff_getElem?.1 hb
    refine ⟨l, e, ?_, ?_, rfl⟩
    · rw [List.getD_eq_getElem?_getD, hl]; exact heb
    · intro d hd hid
      simp only [decide_eq_true_eq] at hr
      exact hr (List.mem_map.2 ⟨d, hd, hid⟩)
  · rintro ⟨l, e, he, hr, rfl⟩
    refine ⟨e, ?_, rfl⟩
    rw [List.mem_filter, List.mem_flatten]
    refine ⟨⟨_, lists_getD rfl (List.ne_nil_of_mem he), he⟩, ?_⟩
    simp only [decide_eq_true_eq, List.mem_map, not_exists, not_and]
    exact hr

theorem remainingWal_none (v : Version (Info K)) (o : Outcome K) :
    remainingWal v (o.remove.map (·.id)) o.outputs = none ↔ ¬ AllKnown v o := by
  unfold remainingWal AllKnown
  simp only [not_not]
  rw [← tableWal_iff, ← mapM_id_none]
  cases List.mapM id (List.map (fun x => x.wal)
    (List.filter (fun e => decide (e.id ∉ o.remove.map (·.id))) v.ssts.flatten) ++ List.map (fun x => x.wal) o.outputs) <;> simp

theorem remainingWal_some {v : Version (Info K)} {o : Outcome K} {ids : List Nat}
    (h : remainingWal v (o.remove.map (·.id)) o.outputs = some ids) :
    AllKnown v o ∧ ∀ f, f ∈ ids ↔ Needed v o f := by
  refine ⟨?_, ?_⟩
  · by_contra hc
    rw [(remainingWal_none v o).2 hc] at h; cases h
  · intro f
    unfold remainingWal at h
    simp only at h
    split at h
    · cases h
    · rename_i ls hls
      simp only [Option.some.injEq] at h
      subst h
      have := mapM_id_some _ _ hls
      unfold Needed
      simp only [← tableWal_iff]
      rw [this]
      simp only [List.mem_flatten, List.mem_map, Option.some.injEq, exists_eq_right]

/-- The segments kept when all are known. -/
theorem filter_split {α : Type} (P : α → Bool) : ∀ (l : List α) (a : α) (r : List α), l.filter P = a :: r →
    ∃ pre post, l = pre ++ a :: post ∧ (∀ x ∈ pre, P x = false) ∧ P a = true ∧ post.filter P = r
  | [], a, r, h => by simp at h
  | x :: l, a, r, h => by
    cases hx : P x with
    | true =>
      rw [List.filter_cons_of_pos hx] at h
      simp only [List.cons.injEq] at h
      obtain ⟨rfl, rfl⟩ := h
      exact ⟨[], l, rfl, by simp, hx, rfl⟩
    | false =>
      rw [List.filter_cons_of_neg (by simp [hx])] at h
      obtain ⟨pre, post, rfl, h2, h3, h4⟩ := filter_split P l a r h
      exact ⟨x :: pre, post, rfl, by simpa [hx] using h2, h3, h4⟩

theorem findIdx_split {α : Type} (Q : α → Bool) (a : α) (post : List α) : ∀ (pre : List α), (∀ x ∈ pre, Q x = false) →
    Q a = true → (pre ++ a :: post).findIdx? Q = some pre.length
  | [], _, ha => by simp [List.findIdx?_cons, ha]
  | x :: pre, hp, ha => by
    have := findIdx_split Q a post pre (fun y hy => hp y (List.mem_cons_of_mem _ hy)) ha
    simp [List.findIdx?_cons, hp x List.mem_cons_self, this]

/-- What `walAfterCompaction` returns, read as the list that gets published. -/
theorem walAfter_spec (v : Version (Info K)) (o : Outcome K) :
    (walAfterCompaction v o.remove o.outputs = none ∧ (AllKnown v o → ∀ s ∈ v.wal, Needed v o s.file)) ∨
    ∃ L, walAfterCompaction v o.remove o.outputs = some L ∧ AllKnown v o ∧ L.Sublist v.wal ∧
      ((∀ s ∈ v.wal, ¬ Needed v o s.file) ∧ L = [] ∨
       ∃ pre s post, v.wal = pre ++ s :: post ∧ (∀ t ∈ pre, ¬ Needed v o t.file) ∧ Needed v o s.file ∧
        (¬ Gap v.wal → ∀ t ∈ L, Needed v o t.file) ∧ (∀ t ∈ v.wal, Needed v o t.file → t ∈ L) ∧
        (Gap v.wal → ∀ t ∈ pre, t ∈ L)) := by
  unfold walAfterCompaction
  cases hr : remainingWal v (o.remove.map (·.id)) o.outputs with
  | none =>
    left
    exact ⟨rfl, fun h => absurd h ((remainingWal_none v o).1 hr)⟩
  | some ids =>
    obtain ⟨hk, hn⟩ := remainingWal_some hr
    simp only
    by_cases he : v.wal = []
    · rw [if_pos he]
      left
      exact ⟨rfl, by simp [he]⟩
    · rw [if_neg he]
      have hP : ∀ s : WalRef, (decide (s.file ∈ ids)) = true ↔ Needed v o s.file := by
        intro s; rw [decide_eq_true_eq]; exact hn s.file
      by_cases hall : v.wal.filter (fun s => decide (s.file ∈ ids)) = v.wal
      · rw [if_pos hall]
        left
        refine ⟨rfl, fun _ s hs => ?_⟩
        rw [← hall] at hs
        exact (hP s).1 (List.mem_filter.1 hs).2
      · rw [if_neg hall]
        right
        cases hf : v.wal.filter (fun s => decide (s.file ∈ ids)) with
        | nil =>
          refine ⟨[], rfl, hk, List.nil_sublist _, .inl ⟨?_, rfl⟩⟩
          intro s hs hneed
          have : s ∈ v.wal.filter (fun s => decide (s.file ∈ ids)) := List.mem_filter.2 ⟨hs, (hP s).2 hneed⟩
          rw [hf] at this; cases this
        | cons a r =>
          obtain ⟨pre, post, hw, h2, h3, h4⟩ := filter_split _ _ _ _ hf
          have h2' : ∀ t ∈ pre, ¬ Needed v o t.file := by
            intro t ht hneed
            have := h2 t ht
            rw [(hP t).2 hneed] at this; cases this
          have hidx : v.wal.findIdx? (fun s => decide (s.file = a.file)) = some pre.length := by
            rw [hw]
            apply findIdx_split
            · intro x hx
              rw [decide_eq_false_iff_not]
              intro e
              have h := h2 x hx
              rw [e] at h
              rw [h] at h3; cases h3
            · simp
          have hin : ∀ t ∈ v.wal, Needed v o t.file → t ∈ a :: r := by
            intro t ht hneed
            rw [← hf]
            exact List.mem_filter.2 ⟨ht, (hP t).2 hneed⟩
          have hout : ∀ t ∈ a :: r, Needed v o t.file := by
            intro t ht
            rw [← hf] at ht
            exact (hP t).1 (List.mem_filter.1 ht).2
          by_cases hg : hasGaps v.wal = true
          · simp only [hg, if_true, hidx]
            by_cases h0 : 0 < pre.length
            · rw [if_pos h0]
              have htake : v.wal.take pre.length = pre := by rw [hw]; simp
              refine ⟨_, rfl, hk, ?_, .inr ⟨pre, a, post, hw, h2', (hP a).1 h3, ?_, ?_, ?_⟩⟩
              · rw [htake]
                conv_rhs => rw [hw]
                refine List.Sublist.append_left ?_ pre
                rw [← h4]
                exact List.Sublist.cons₂ a List.filter_sublist
              · intro h
                exact absurd ((hasGaps_iff _).1 hg) h
              · intro t ht hneed
                exact List.mem_append_right _ (hin t ht hneed)
              · intro _ t ht
                rw [htake]
                exact List.mem_append_left _ ht
            · rw [if_neg h0]
              have hp : pre = [] := List.length_eq_zero_iff.1 (by omega)
              subst hp
              -- everything is kept, though some later segments are not needed
              exact ⟨v.wal, rfl, hk, List.Sublist.refl _, .inr ⟨[], a, post, hw, by simp, (hP a).1 h3,
                fun h => absurd ((hasGaps_iff _).1 hg) h, fun t ht _ => ht, fun _ t ht => by cases ht⟩⟩
          · simp only [hg, Bool.false_eq_true, if_false]
            refine ⟨_, rfl, hk, ?_, .inr ⟨pre, a, post, hw, h2', (hP a).1 h3, fun _ => hout, hin, ?_⟩⟩
            · rw [← hf]; exact List.filter_sublist
            · intro hgap
              exact absurd ((hasGaps_iff _).2 hgap) hg

/-- The segments published and declared obsolete. -/
theorem reconcile_spec (v : Version (Info K)) (hv : VersionOk v) (floor : Option WalRef) (o : Outcome K) :
    ∃ L, (reconcile v floor o).wal = some L ∧ SegmentsOk v o L (reconcile v floor o).obsoleteWal := by
  rcases walAfter_spec v o with ⟨h, hall⟩ | ⟨L, h, hk, hsub, hL⟩
  · refine ⟨v.wal, by simp [reconcile, h], List.Sublist.refl _, fun s hs _ => hs, ?_, ?_, ?_, ?_, ?_⟩
    · intro f hf s hs _
      cases hw : v.wal with
      | nil => rw [hw] at hf; cases hf
      | cons a l =>
        rw [hw] at hf hs
        simp only [List.head?_cons, Option.some.injEq] at hf
        subst hf
        rcases List.mem_cons.1 hs with rfl | hs
        · exact Nat.le_refl _
        · have := hv.walAsc
          rw [hw] at this
          exact (List.pairwise_cons.1 this).1 s hs
    · intro _ pre s post hw _ _ t ht
      rw [hw]; exact List.mem_append_left _ ht
    · intro _ hk s hs
      exact hall hk s hs
    · intro _; rfl
    · intro s; simp [reconcile, h]
  · refine ⟨L, by simp [reconcile, h], hsub, ?_, ?_, ?_, ?_, fun hc => absurd hk hc, ?_⟩
    · intro s hs hneed
      rcases hL with ⟨h1, _⟩ | ⟨pre, a, post, _, _, _, _, h5, _⟩
      · exact absurd hneed (h1 s hs)
      · exact h5 s hs hneed
    · intro f hf s hs hneed
      rcases hL with ⟨_, h1⟩ | ⟨pre, a, post, _, _, _, _, h5, _⟩
      · rw [h1] at hf; cases hf
      · have hs' := h5 s hs hneed
        cases hc : L with
        | nil => rw [hc] at hf; cases hf
        | cons b l =>
          rw [hc] at hf hs'
          simp only [List.head?_cons, Option.some.injEq] at hf
          subst hf
          have hp := hv.walAsc.sublist hsub
          rw [hc] at hp
          rcases List.mem_cons.1 hs' with rfl | hs'
          · exact Nat.le_refl _
          · exact (List.pairwise_cons.1 hp).1 s hs'
    · intro hg pre s post hw hneed hpre t ht
      rcases hL with ⟨h1, _⟩ | ⟨pre', a, post', hw', h2, h3, _, h5, h6⟩
      · exact absurd hneed (h1 s (by rw [hw]; simp))
      · -- both splits are at the first needed segment
        have : pre = pre' := by
          have hsplit : ∀ (p q : List WalRef) (x y : WalRef) (r u : List WalRef), p ++ x :: r = q ++ y :: u →
              (∀ t ∈ p, ¬ Needed v o t.file) → Needed v o x.file → (∀ t ∈ q, ¬ Needed v o t.file) →
              Needed v o y.file → p = q := by
            intro p
            induction p with
            | nil =>
              intro q x y r u he _ hx hq _
              cases q with
              | nil => rfl
              | cons z q =>
                simp only [List.nil_append, List.cons_append, List.cons.injEq] at he
                rw [he.1] at hx
                exact absurd hx (hq z List.mem_cons_self)
            | cons z p ih =>
              intro q x y r u he hp hx hq hy
              cases q with
              | nil =>
                simp only [List.nil_append, List.cons_append, List.cons.injEq] at he
                rw [← he.1] at hy
                exact absurd hy (hp z List.mem_cons_self)
              | cons z' q =>
                simp only [List.cons_append, List.cons.injEq] at he
                rw [he.1, ih q x y r u he.2 (fun t ht => hp t (List.mem_cons_of_mem _ ht)) hx
                  (fun t ht => hq t (List.mem_cons_of_mem _ ht)) hy]
          exact hsplit pre pre' s a post post' (by rw [← hw, ← hw']) hpre hneed h2 h3
        exact h6 hg t (by rw [← this]; exact ht)
    · intro hg _ s hs
      rcases hL with ⟨_, h1⟩ | ⟨pre, a, post, _, _, _, h4, _⟩
      · rw [h1] at hs; cases hs
      · exact h4 hg s hs
    · intro s; simp [reconcile, h]

theorem reconcile_keeps (v : Version (Info K)) (floor : Option WalRef) (o : Outcome K) :
    (reconcile v floor o).add = o.add ∧ (reconcile v floor o).remove = o.remove ∧
    (reconcile v floor o).target = o.target ∧ (reconcile v floor o).watermark = o.watermark ∧
    (reconcile v floor o).outputs = o.outputs ∧ (reconcile v floor o).obsolete = o.obsolete := by
  unfold reconcile
  split <;> exact ⟨rfl, rfl, rfl, rfl, rfl, rfl⟩

/-- `addEntries` on descriptors with data paths. -/
theorem addEntries_some : ∀ {ds : List (Desc K)} {es : List (Entry (Info K))}, addEntries ds = some es →
    es.map (·.id) = ds.map (·.id) ∧ ∀ e, e ∈ es ↔ ∃ d ∈ ds, ∃ p, d.data = some p ∧ e = ⟨d.id, d.wal, ⟨d.stats, p, d.del⟩⟩
  | [], es, h => by simp [addEntries] at h; subst h; simp
  | d :: ds, es, h => by
    unfold addEntries at h
    cases hd : d.data with
    | none => rw [hd] at h; cases h
    | some p =>
      rw [hd] at h
      simp only at h
      cases hr : addEntries ds with
      | none => rw [hr] at h; cases h
      | some es' =>
        rw [hr] at h
        simp only [Option.some.injEq] at h
        subst h
        obtain ⟨i1, i2⟩ := addEntries_some hr
        refine ⟨by simp [i1], fun e => ?_⟩
        rw [List.mem_cons, i2]
        constructor
        · rintro (rfl | ⟨d', h1, h2⟩)
          · exact ⟨d, List.mem_cons_self, p, hd, rfl⟩
          · exact ⟨d', List.mem_cons_of_mem _ h1, h2⟩
        · rintro ⟨d', h1, p', h2, h3⟩
          rcases List.mem_cons.1 h1 with rfl | h1
          · rw [hd] at h2; cases h2; exact .inl h3
          · exact .inr ⟨d', h1, p', h2, h3⟩

theorem gcRefs_some : ∀ {ds : List (Desc K)} {rs : List GcSst}, gcRefs ds = some rs →
    rs.map (fun r => (r.level, r.id)) = ds.map (fun d => (d.level, d.id)) ∧
    ∀ r ∈ rs, ∃ d ∈ ds, r.id = d.id ∧ r.level = d.level ∧ d.data = some r.data ∧ r.del = d.del
  | [], rs, h => by simp [gcRefs] at h; subst h; simp
  | d :: ds, rs, h => by
    unfold gcRefs at h
    cases hd : d.data with
    | none => rw [hd] at h; cases h
    | some p =>
      rw [hd] at h
      simp only at h
      cases hr : gcRefs ds with
      | none => rw [hr] at h; cases h
      | some rs' =>
        rw [hr] at h
        simp only [Option.some.injEq] at h
        subst h
        obtain ⟨i1, i2⟩ := gcRefs_some hr
        refine ⟨by simp [i1], fun r hr' => ?_⟩
        rcases List.mem_cons.1 hr' with rfl | hr'
        · exact ⟨d, List.mem_cons_self, rfl, rfl, hd, rfl⟩
        · obtain ⟨d', h1, h2⟩ := i2 r hr'
          exact ⟨d', List.mem_cons_of_mem _ h1, h2⟩

/-! ## The edits of an outcome -/

/-- The identifiers collected for a level. -/
def InLevels (m : List (Nat × List Nat)) (l i : Nat) : Prop := ∃ ids, (l, ids) ∈ m ∧ i ∈ ids

theorem inLevels_push (l id : Nat) : ∀ (m : List (Nat × List Nat)) (l' i : Nat),
    InLevels (pushLevel l id m) l' i ↔ InLevels m l' i ∨ (l' = l ∧ i = id)
  | [], l', i => by simp [pushLevel, InLevels]
  | (k, ids) :: r, l', i => by
    have ih := inLevels_push l id r l' i
    unfold pushLevel
    unfold InLevels at ih ⊢
    split_ifs with hk
    · subst hk
      simp only [List.mem_cons, Prod.mk.injEq]
      constructor
      · rintro ⟨js, ⟨rfl, rfl⟩ | h, hi⟩
        · rcases List.mem_append.1 hi with hi | hi
          · exact .inl ⟨ids, .inl ⟨rfl, rfl⟩, hi⟩
          · exact .inr ⟨rfl, by simpa using hi⟩
        · exact .inl ⟨js, .inr h, hi⟩
      · rintro (⟨js, ⟨rfl, rfl⟩ | h, hi⟩ | ⟨rfl, rfl⟩)
        · exact ⟨_, .inl ⟨rfl, rfl⟩, List.mem_append_left _ hi⟩
        · exact ⟨js, .inr h, hi⟩
        · exact ⟨_, .inl ⟨rfl, rfl⟩, by simp⟩
    · simp only [List.mem_cons, Prod.mk.injEq]
      constructor
      · rintro ⟨js, ⟨rfl, rfl⟩ | h, hi⟩
        · exact .inl ⟨_, .inl ⟨rfl, rfl⟩, hi⟩
        · rcases ih.1 ⟨js, h, hi⟩ with ⟨js', h', hi'⟩ | h'
          · exact .inl ⟨js', .inr h', hi'⟩
          · exact .inr h'
      · rintro (⟨js, ⟨rfl, rfl⟩ | h, hi⟩ | h)
        · exact ⟨_, .inl ⟨rfl, rfl⟩, hi⟩
        · obtain ⟨js', h', hi'⟩ := ih.2 (.inl ⟨js, h, hi⟩)
          exact ⟨js', .inr h', hi'⟩
        · obtain ⟨js', h', hi'⟩ := ih.2 (.inr h)
          exact ⟨js', .inr h', hi'⟩

theorem levelFor_some {ds : List (Desc K)} {id l : Nat} (h : levelFor ds id = some l) :
    ∃ d ∈ ds, d.id = id ∧ d.level = l := by
  unfold levelFor at h
  cases hf : ds.reverse.find? (fun d => decide (d.id = id)) with
  | none => rw [hf] at h; cases h
  | some d =>
    rw [hf] at h
    simp only [Option.map_some, Option.some.injEq] at h
    exact ⟨d, by simpa using List.mem_of_find?_eq_some hf, by simpa using List.find?_some hf, h⟩

theorem inLevels_remove (o : Outcome K) (l i : Nat) :
    InLevels (removeByLevel o) l i ↔ ∃ d ∈ o.remove, d.level = l ∧ d.id = i := by
  unfold removeByLevel
  have h1 : ∀ (ds : List (Desc K)) (m : List (Nat × List Nat)),
      InLevels (ds.foldl (fun m d => pushLevel d.level d.id m) m) l i ↔
        InLevels m l i ∨ ∃ d ∈ ds, d.level = l ∧ d.id = i := by
    intro ds
    induction ds with
    | nil => intro m; simp
    | cons d ds ih =>
      intro m
      rw [List.foldl_cons, ih, inLevels_push]
      constructor
      · rintro ((h | ⟨rfl, rfl⟩) | ⟨d', h, h'⟩)
        · exact .inl h
        · exact .inr ⟨d, List.mem_cons_self, rfl, rfl⟩
        · exact .inr ⟨d', List.mem_cons_of_mem _ h, h'⟩
      · rintro (h | ⟨d', h, h1, h2⟩)
        · exact .inl (.inl h)
        · rcases List.mem_cons.1 h with rfl | h
          · exact .inl (.inr ⟨h1.symm, h2.symm⟩)
          · exact .inr ⟨d', h, h1, h2⟩
  have h2 : ∀ (ids : List Nat) (m : List (Nat × List Nat)),
      (InLevels m l i ↔ ∃ d ∈ o.remove, d.level = l ∧ d.id = i) →
      (InLevels (ids.foldl (fun m id => match levelFor o.remove id with
        | some l => pushLevel l id m
        | none => m) m) l i ↔ ∃ d ∈ o.remove, d.level = l ∧ d.id = i) := by
    intro ids
    induction ids with
    | nil => intro m h; exact h
    | cons id ids ih =>
      intro m h
      rw [List.foldl_cons]
      apply ih
      cases hl : levelFor o.remove id with
      | none => exact h
      | some k =>
        simp only
        rw [inLevels_push, h]
        constructor
        · rintro (h | ⟨rfl, rfl⟩)
          · exact h
          · obtain ⟨d, h1, h2, h3⟩ := levelFor_some hl
            exact ⟨d, h1, h3, h2⟩
        · exact .inl
  apply h2
  rw [h1]
  simp [InLevels]

theorem mem_dedup : ∀ (l : List Nat) (x : Nat), x ∈ dedup l ↔ x ∈ l
  | [], x => by simp [dedup]
  | [a], x => by simp [dedup]
  | a :: b :: l, x => by
    have ih := mem_dedup (b :: l) x
    unfold dedup
    split_ifs with h
    · subst h; rw [ih]; simp
    · rw [List.mem_cons, ih, List.mem_cons, List.mem_cons, List.mem_cons]

/-- What the removals of a list of levels mean. -/
theorem removeEdits_spec : ∀ (m : List (Nat × List Nat)) (f : LevelMap (Info K)) (n : Nat) (r : List (Edit (Info K))),
    (∀ l i, InLevels m l i → l < n) →
    (Refused n (removeEdits m ++ r) ↔ Refused n r) ∧
    ∀ l i, (InLevels m l i → (removeEdits m).foldl editMeans f l i = none) ∧
      (¬ InLevels m l i → (removeEdits m).foldl editMeans f l i = f l i)
  | [], f, n, r, _ => ⟨by simp [removeEdits], fun l i => ⟨(by rintro ⟨_, h, _⟩; cases h), fun _ => rfl⟩⟩
  | (k, ids) :: m, f, n, r, hm => by
    have hm' : ∀ l i, InLevels m l i → l < n := by
      rintro l i ⟨js, h, hi⟩; exact hm l i ⟨js, List.mem_cons_of_mem _ h, hi⟩
    have hmem : ∀ i, i ∈ dedup (ids.insertionSort (· ≤ ·)) ↔ i ∈ ids := by
      intro i; rw [mem_dedup]; exact (List.perm_insertionSort _ _).mem_iff
    have hsplit : ∀ l i, InLevels ((k, ids) :: m) l i ↔ (l = k ∧ i ∈ ids) ∨ InLevels m l i := by
      intro l i
      unfold InLevels
      constructor
      · rintro ⟨js, h, hi⟩
        rcases List.mem_cons.1 h with h | h
        · simp only [Prod.mk.injEq] at h
          obtain ⟨rfl, rfl⟩ := h
          exact .inl ⟨rfl, hi⟩
        · exact .inr ⟨js, h, hi⟩
      · rintro (⟨rfl, hi⟩ | ⟨js, h, hi⟩)
        · exact ⟨_, List.mem_cons_self, hi⟩
        · exact ⟨js, List.mem_cons_of_mem _ h, hi⟩
    by_cases he : dedup (ids.insertionSort (· ≤ ·)) = []
    · have hids : ids = [] := by
        apply List.eq_nil_iff_forall_not_mem.2
        intro i hi
        have := (hmem i).2 hi
        rw [he] at this; cases this
      have e : removeEdits (K := K) ((k, ids) :: m) = removeEdits m := by
        unfold removeEdits
        rw [List.filterMap_cons]
        simp [he]
      obtain ⟨i1, i2⟩ := removeEdits_spec m f n r hm'
      rw [e]
      refine ⟨i1, fun l i => ?_⟩
      have : InLevels ((k, ids) :: m) l i ↔ InLevels m l i := by
        rw [hsplit, hids]; simp
      rw [this]
      exact i2 l i
    · have hids : ids ≠ [] := by
        rintro rfl; exact he rfl
      have e : removeEdits (K := K) ((k, ids) :: m) = .removeSsts k (dedup (ids.insertionSort (· ≤ ·))) :: removeEdits m := by
        unfold removeEdits
        rw [List.filterMap_cons]
        simp [he]
      obtain ⟨i0, hi0⟩ := List.exists_mem_of_ne_nil _ hids
      have hk : k < n := hm k i0 ((hsplit _ _).2 (.inl ⟨rfl, hi0⟩))
      obtain ⟨i1, i2⟩ := removeEdits_spec m (editMeans f (.removeSsts k (dedup (ids.insertionSort (· ≤ ·))))) n r hm'
      rw [e]
      refine ⟨?_, fun l i => ?_⟩
      · rw [List.cons_append, Refused, i1]
        constructor
        · rintro (⟨_, h⟩ | h)
          · omega
          · exact h
        · exact .inr
      · rw [List.foldl_cons, hsplit]
        obtain ⟨j1, j2⟩ := i2 l i
        constructor
        · rintro (⟨rfl, hi⟩ | h)
          · by_cases hin : InLevels m l i
            · exact j1 hin
            · rw [j2 hin]
              simp only [editMeans]
              exact if_pos ⟨trivial, (hmem i).2 hi⟩
          · exact j1 h
        · intro hn
          rw [not_or] at hn
          rw [j2 hn.2]
          simp only [editMeans]
          rw [if_neg]
          rintro ⟨rfl, hi⟩
          exact hn.1 ⟨rfl, (hmem i).1 hi⟩

theorem inLevels_perm {m m' : List (Nat × List Nat)} (h : m'.Perm m) (l i : Nat) :
    InLevels m' l i ↔ InLevels m l i := by
  unfold InLevels
  simp only [h.mem_iff]

theorem walAfter_append (w : List WalRef) : ∀ (es r : List (Edit (Info K))),
    walAfter w (es ++ r) = walAfter (walAfter w es) r
  | [], r => rfl
  | e :: es, r => by
    rw [List.cons_append, walAfter_cons, walAfter_cons w e es, walAfter_append]

theorem watermarkAfter_append (w : Option Nat) : ∀ (es r : List (Edit (Info K))),
    watermarkAfter w (es ++ r) = watermarkAfter (watermarkAfter w es) r
  | [], r => rfl
  | e :: es, r => by
    rw [List.cons_append, watermarkAfter_cons, watermarkAfter_cons w e es, watermarkAfter_append]

theorem removeEdits_wal (w : List WalRef) (x : Option Nat) : ∀ (m : List (Nat × List Nat)),
    walAfter w (removeEdits (K := K) m) = w ∧ watermarkAfter x (removeEdits (K := K) m) = x
  | [] => ⟨rfl, rfl⟩
  | (k, ids) :: m => by
    obtain ⟨h1, h2⟩ := removeEdits_wal w x m
    unfold removeEdits at h1 h2 ⊢
    rw [List.filterMap_cons]
    by_cases he : dedup (ids.insertionSort (· ≤ ·)) = []
    · simp only [he, if_true]
      exact ⟨h1, h2⟩
    · simp only [he, if_false]
      exact ⟨h1, h2⟩

/-- What the edits of an outcome do to a version whose levels hold the removed tables. -/
theorem toEdits_spec {order : List (Nat × List Nat) → List (Nat × List Nat)} (ho : ∀ l, (order l).Perm l)
    (o : Outcome K) (n : Nat) (hlev : ∀ d ∈ o.remove, d.level < n) (f : LevelMap (Info K)) (L : List WalRef)
    (hL : o.wal = some L) :
    ¬ Refused n (toEdits order o) ∧
    (∀ w, walAfter w (toEdits order o) = L) ∧
    (∀ w, watermarkAfter w (toEdits order o) = o.watermark.or w) ∧
    (∀ l i, (toEdits order o).foldl editMeans f l i =
      if l = o.target ∧ (lastEntry o.add i) ≠ none then lastEntry o.add i
      else if ∃ d ∈ o.remove, d.level = l ∧ d.id = i then none else f l i) := by
  have hin : ∀ l i, InLevels (order (removeByLevel o)) l i ↔ ∃ d ∈ o.remove, d.level = l ∧ d.id = i := by
    intro l i; rw [inLevels_perm (ho _), inLevels_remove]
  have hlt : ∀ l i, InLevels (order (removeByLevel o)) l i → l < n := by
    intro l i h
    obtain ⟨d, h1, h2, _⟩ := (hin l i).1 h
    rw [← h2]; exact hlev d h1
  have hw : o.wal.or (o.floor.map (fun f => [f])) = some L := by rw [hL]; rfl
  unfold toEdits
  rw [hw, List.append_assoc, List.append_assoc]
  refine ⟨?_, ?_, ?_, ?_⟩
  · rw [(removeEdits_spec _ f n _ hlt).1]
    by_cases ha : o.add = []
    · simp only [ha, if_true]
      cases o.watermark <;> simp [Refused]
    · simp only [ha, if_false]
      cases o.watermark <;> simp [Refused]
  · intro w
    rw [walAfter_append, (removeEdits_wal w none _).1]
    by_cases ha : o.add = []
    · simp only [ha, if_true]
      cases o.watermark <;> rfl
    · simp only [ha, if_false]
      cases o.watermark <;> rfl
  · intro w
    rw [watermarkAfter_append, (removeEdits_wal [] w _).2]
    by_cases ha : o.add = []
    · simp only [ha, if_true]
      cases o.watermark <;> rfl
    · simp only [ha, if_false]
      cases o.watermark <;> rfl
  · intro l i
    obtain ⟨r1, r2⟩ := (removeEdits_spec (order (removeByLevel o)) f n [] hlt).2 l i
    rw [List.foldl_append]
    have hbase : (removeEdits (order (removeByLevel o))).foldl editMeans f l i =
        if ∃ d ∈ o.remove, d.level = l ∧ d.id = i then none else f l i := by
      split_ifs with h
      · exact r1 ((hin l i).2 h)
      · exact r2 (fun hc => h ((hin l i).1 hc))
    have hgoal : editMeans ((removeEdits (order (removeByLevel o))).foldl editMeans f) (.addSsts o.target o.add) l i =
        if l = o.target ∧ (lastEntry o.add i) ≠ none then lastEntry o.add i
        else if ∃ d ∈ o.remove, d.level = l ∧ d.id = i then none else f l i := by
      simp only [editMeans]
      by_cases hl : l = o.target
      · cases hx : lastEntry o.add i with
        | none =>
          subst hl
          simpa using hbase
        | some e => simp [hl]
      · simp only [hl, if_false, false_and]
        exact hbase
    by_cases ha : o.add = []
    · have h0 : editMeans ((removeEdits (order (removeByLevel o))).foldl editMeans f) (.addSsts o.target o.add) l i =
          (removeEdits (order (removeByLevel o))).foldl editMeans f l i := by
        simp [editMeans, ha, lastEntry]
      rw [h0] at hgoal
      rw [← hgoal]
      cases o.watermark <;> simp only [ha, if_true] <;> rfl
    · rw [← hgoal]
      cases o.watermark <;> simp only [ha, if_false] <;> rfl

end Tonbo.Lemmas.Outcome
