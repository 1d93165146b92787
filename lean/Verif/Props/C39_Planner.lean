import Verif.Lemmas.Planner
import Verif.Spec.ManifestView

/-!
# C39: compaction plans are well-formed
-/

namespace Tonbo.Props.C39
open Tonbo.Model.Manifest Tonbo.Model.Planner Tonbo.Spec Tonbo.Lemmas.Planner

variable {K : Type} [LinearOrder K]

/-- The limits that make the planner act, in its own terms. -/
private theorem due_iff (cfg : PCfg) (v : Version (Info K)) (l : Nat) (hl : 1 ≤ l) :
    due cfg ⟨l, (v.ssts.getD l []).map toL⟩ = true ↔ OverLimit cfg v l := by
  unfold due OverLimit levelSize
  rw [if_neg (by omega)]
  cases h : cfg.thresholds[l - 1]? with
  | none => simp
  | some limit =>
    have : cfg.maxBytes[l - 1]?.join = cfg.maxBytes.getD (l - 1) none := by
      rw [List.getD_eq_getElem?_getD]
      cases cfg.maxBytes[l - 1]? with
      | none => rfl
      | some x => cases x <;> rfl
    simp only [this, Bool.or_eq_true, decide_eq_true_eq, List.length_map, overBytes_iff, Option.some.injEq,
      exists_eq_left']

private theorem planL0_iff (S : Sorter K) (cfg : PCfg) (v : Version (Info K)) (hne : v.ssts.getD 0 [] ≠ []) :
    (OverLimit cfg v 0 → ∃ src : List (Entry (Info K)), planL0 S cfg (levelsFrom 0 v.ssts) =
        some ⟨0, 1, (src.map toL).map (fun f => ⟨0, f.id⟩), keyRange (src.map toL)⟩ ∧
        select S ((v.ssts.getD 0 []).map toL) (max (min cfg.l0MaxInputs (v.ssts.getD 0 []).length) 1)
          cfg.maxTaskBytes = src.map toL) ∧
    (¬ OverLimit cfg v 0 → planL0 S cfg (levelsFrom 0 v.ssts) = none) := by
  have hover : OverLimit cfg v 0 ↔ ¬ ((v.ssts.getD 0 []).length < cfg.l0Trigger ∧
      overBytes cfg.l0MaxBytes ((v.ssts.getD 0 []).map toL) = false) := by
    have := overBytes_iff cfg.l0MaxBytes (v.ssts.getD 0 [])
    unfold OverLimit levelSize
    rw [if_pos rfl, ← this]
    cases overBytes cfg.l0MaxBytes ((v.ssts.getD 0 []).map toL) <;> simp
  rw [hover]
  unfold planL0
  rw [levelOf_spec, if_neg hne]
  simp only [List.length_map]
  constructor
  · intro h
    rw [if_neg h]
    obtain ⟨src, _, h1, _⟩ := select_spec S (v.ssts.getD 0 [])
      (max (min cfg.l0MaxInputs (v.ssts.getD 0 []).length) 1) cfg.maxTaskBytes (by omega) hne
    exact ⟨src, by rw [h1], h1⟩
  · intro h
    rw [not_not] at h
    rw [if_pos h]

/-- The first clauses of `PlanOk`, for a run selected on one level. -/
private theorem selected {S : Sorter K} {b : List (Entry (Info K))} {lim : Nat} {cap : Option Nat}
    (hb : b ≠ []) (hid : b.Pairwise (fun a c => a.id < c.id)) {src : List (Entry (Info K))}
    (h : select S (b.map toL) (max (min lim b.length) 1) cap = src.map toL) :
    ∃ src' : List (Entry (Info K)), src'.map toL = src.map toL ∧ src' ≠ [] ∧ (∀ e ∈ src', e ∈ b) ∧ (src'.map (·.id)).Nodup ∧
      src'.length ≤ max 1 lim ∧ (∀ c, cap = some c → src'.length = 1 ∨ (src'.map sizeOf').sum ≤ c) ∧
      ((∀ e ∈ b, loKey e ≠ none) → ∀ a ∈ src', ∀ e ∈ b, e ∉ src' → ∀ x y, loKey a = some x → loKey e = some y →
        x ≤ y) := by
  obtain ⟨src', rest, h1, h2, h3, h4, h5, h6⟩ := select_spec S b (max (min lim b.length) 1) cap (by omega) hb
  refine ⟨src', by rw [← h, h1], h3, fun e he => h2.subset (List.mem_append_left _ he), ?_, by omega, h5, ?_⟩
  · have hn : ((src' ++ rest).map (·.id)).Nodup := ((h2.map (·.id)).nodup_iff).2 (nodup_of_asc hid)
    rw [List.map_append] at hn
    exact hn.of_append_left
  · intro hk a ha e he hne x y hx hy
    rcases List.mem_append.1 (h2.symm.subset he) with h | h
    · exact absurd h hne
    · exact h6 hk a ha e h x y hx hy

private theorem nodup_tag {K : Type} {l : Nat} {b : List (Entry (Info K))} (h : (b.map (·.id)).Nodup) :
    (b.map (fun e => (⟨l, e.id⟩ : Input))).Nodup := by
  have : b.map (fun e => (⟨l, e.id⟩ : Input)) = (b.map (·.id)).map (fun i => (⟨l, i⟩ : Input)) := by simp
  rw [this]
  exact h.map (fun a b hab => by simpa using hab)

private theorem planLevel_ok (S : Sorter K) (cfg : PCfg) (v : Version (Info K)) (hv : VersionOk v) (l : Nat)
    (hl : 1 ≤ l) (hne : v.ssts.getD l [] ≠ []) :
    ∃ t src more, planLevel S cfg (levelsFrom 0 v.ssts) ⟨l, (v.ssts.getD l []).map toL⟩ = some t ∧
      t.source = l ∧ PlanOk cfg v t src more := by
  have hasc : ∀ l, (v.ssts.getD l []).Pairwise (fun a c => a.id < c.id) := by
    intro l
    cases hb : v.ssts[l]? with
    | none => rw [List.getD_eq_getElem?_getD, hb]; exact List.Pairwise.nil
    | some b => rw [List.getD_eq_getElem?_getD, hb]; exact hv.asc b (List.mem_of_getElem? hb)
  obtain ⟨src0, _, h0, _⟩ := select_spec S (v.ssts.getD l [])
    (max (min cfg.maxInputs (v.ssts.getD l []).length) 1) cfg.maxTaskBytes (by omega) hne
  obtain ⟨src, e1, e2, e3, e4, e5, e6, e7⟩ := selected hne (hasc l) h0
  have hsel : select S ((v.ssts.getD l []).map toL) (max (min cfg.maxInputs (v.ssts.getD l []).length) 1)
      cfg.maxTaskBytes = src.map toL := by rw [h0, e1]
  -- the pulled tables
  have hpull : ∃ more : List (Entry (Info K)), pulled (levelsFrom 0 v.ssts) l (keyRange (src.map toL)) = more.map toL ∧
      more = (match keyRange (src.map toL) with
        | none => []
        | some (lo, hi) => (v.ssts.getD (l + 1) []).filter (fun e => overlaps lo hi (toL e))) := by
    refine ⟨_, ?_, rfl⟩
    unfold pulled
    rw [levelOf_spec]
    cases keyRange (src.map toL) with
    | none => split_ifs <;> rfl
    | some p =>
      obtain ⟨lo, hi⟩ := p
      split_ifs with hc
      · simp only [hc, List.filter_nil, List.map_nil]
      · simp only [List.filter_map]
        rfl
  obtain ⟨more, hp, hmore⟩ := hpull
  have hmoreIn : ∀ e ∈ more, e ∈ v.ssts.getD (l + 1) [] := by
    intro e he
    rw [hmore] at he
    split at he
    · cases he
    · exact (List.mem_filter.1 he).1
  refine ⟨⟨l, l + 1, src.map (fun e => ⟨l, e.id⟩) ++ more.map (fun e => ⟨l + 1, e.id⟩),
      if more = [] then keyRange (src.map toL) else keyRange ((src ++ more).map toL)⟩, src, more, ?_, rfl, ?_⟩
  · unfold planLevel
    simp only [List.length_map, hsel]
    rw [if_neg (by simpa using e2), hp]
    simp [toL, Function.comp_def]
  · have hnd : (more.map (·.id)).Nodup := by
      rw [hmore]
      split
      · simp
      · exact ((List.filter_sublist).map _).nodup (nodup_of_asc (hasc _))
    constructor
    · rfl
    · rfl
    · exact e2
    · exact e3
    · exact hmoreIn
    · refine List.nodup_append.2 ⟨nodup_tag e4, nodup_tag hnd, ?_⟩
      intro a ha b hb hab
      obtain ⟨x, _, rfl⟩ := List.mem_map.1 ha
      obtain ⟨y, _, rfl⟩ := List.mem_map.1 hb
      have := congrArg Input.level hab
      simp at this
    · simp only; rw [if_neg (by omega)]; exact e5
    · exact e6
    · exact e7
    · intro _ hst a ha b hb e he lo hi x y ha1 hb1 hx hy h1 h2
      obtain ⟨⟨lo', hi'⟩, hr⟩ := keyRange_ne_none (fs := src.map toL)
        (by intro f hf; obtain ⟨g, hg, rfl⟩ := List.mem_map.1 hf; exact hst g hg)
        (List.mem_map_of_mem ha) (List.mem_map_of_mem hb) ha1 hb1
      obtain ⟨_, _, hcov⟩ := keyRange_some hr
      rw [hmore, hr]
      refine List.mem_filter.2 ⟨he, (overlaps_iff _ _ _).2 ⟨x, y, hx, hy, ?_, ?_⟩⟩
      · exact le_trans h1 ((hcov _ (List.mem_map_of_mem hb)).2 _ hb1)
      · exact le_trans ((hcov _ (List.mem_map_of_mem ha)).1 _ ha1) h2
    · intro e he
      refine ⟨hl, ?_⟩
      rw [hmore] at he
      split at he
      · cases he
      · rename_i lo hi hr
        obtain ⟨x, y, hx, hy, h1, h2⟩ := (overlaps_iff _ _ _).1 (List.mem_filter.1 he).2
        obtain ⟨⟨f, hf, hf1⟩, ⟨g, hg, hg1⟩, _⟩ := keyRange_some hr
        obtain ⟨a, ha, rfl⟩ := List.mem_map.1 hf
        obtain ⟨b, hb, rfl⟩ := List.mem_map.1 hg
        exact ⟨a, ha, b, hb, lo, hi, x, y, hf1, hg1, hx, hy, h1, h2⟩
    · intro lo hi hr e he
      have hr' : keyRange ((src ++ more).map toL) = some (lo, hi) := by
        simp only at hr
        split_ifs at hr with hm
        · rw [hm]; simpa using hr
        · exact hr
      obtain ⟨_, _, hcov⟩ := keyRange_some hr'
      exact hcov _ (List.mem_map_of_mem he)

/-- **C39.** Every plan made for a published version is well-formed, and its source level is over its
limits and at least the level asked for. -/
theorem plans_are_well_formed (S : Sorter K) (cfg : PCfg) (v : Version (Info K)) (hv : VersionOk v)
    (minLevel : Nat) (t : PTask K) (h : planVersion S cfg v minLevel = some t) :
    (∃ src more, PlanOk cfg v t src more) ∧ OverLimit cfg v t.source ∧ minLevel ≤ t.source := by
  have leveled : ∀ (m : Nat), planLeveled S cfg (levelsFrom 0 v.ssts) m = some t →
      (∃ src more, PlanOk cfg v t src more) ∧ OverLimit cfg v t.source ∧ max m 1 ≤ t.source := by
    intro m h
    unfold planLeveled at h
    have hall : ∀ i ∈ (levelsFrom 0 v.ssts).filter (fun i => decide (max m 1 ≤ i.level)),
        max m 1 ≤ i.level ∧ v.ssts.getD i.level [] ≠ [] ∧ i = ⟨i.level, (v.ssts.getD i.level []).map toL⟩ := by
      intro i hi
      rw [List.mem_filter, mem_levelsFrom] at hi
      obtain ⟨⟨k, b, h1, h2, rfl⟩, h3⟩ := hi
      have : v.ssts.getD k [] = b := by rw [List.getD_eq_getElem?_getD, h1]; rfl
      simp at h3
      simp only [Nat.zero_add, this]
      exact ⟨by omega, h2, trivial⟩
    generalize (levelsFrom 0 v.ssts).filter (fun i => decide (max m 1 ≤ i.level)) = L at h hall
    induction L with
    | nil => simp [leveledLoop] at h
    | cons i is ih =>
      have hrest := fun h => ih h (fun j hj => hall j (List.mem_cons_of_mem _ hj))
      unfold leveledLoop at h
      obtain ⟨i1, i2, i3⟩ := hall i List.mem_cons_self
      by_cases hd : due cfg i = true
      · rw [if_pos hd] at h
        obtain ⟨t', src, more, p1, p2, p3⟩ := planLevel_ok S cfg v hv i.level (by omega) i2
        rw [← i3] at p1
        rw [p1] at h
        cases h
        refine ⟨⟨src, more, p3⟩, ?_, by omega⟩
        rw [p2]
        rw [i3] at hd
        exact (due_iff cfg v i.level (by omega)).1 hd
      · rw [if_neg hd] at h
        exact hrest h
  have full : ∀ h : plan S cfg (levelsFrom 0 v.ssts) = some t,
      (∃ src more, PlanOk cfg v t src more) ∧ OverLimit cfg v t.source := by
    intro h
    unfold plan at h
    by_cases hne : v.ssts.getD 0 [] = []
    · have : planL0 S cfg (levelsFrom 0 v.ssts) = none := by
        unfold planL0; rw [levelOf_spec, if_pos hne]
      rw [this] at h
      exact ⟨(leveled 1 h).1, (leveled 1 h).2.1⟩
    · obtain ⟨q1, q2⟩ := planL0_iff S cfg v hne
      by_cases ho : OverLimit cfg v 0
      · obtain ⟨src0, e0, es⟩ := q1 ho
        rw [e0] at h
        cases h
        refine ⟨?_, ho⟩
        have hasc : (v.ssts.getD 0 []).Pairwise (fun a c => a.id < c.id) := by
          cases hb : v.ssts[0]? with
          | none => rw [List.getD_eq_getElem?_getD, hb]; exact List.Pairwise.nil
          | some b => rw [List.getD_eq_getElem?_getD, hb]; exact hv.asc b (List.mem_of_getElem? hb)
        obtain ⟨src, e1, e2, e3, e4, e5, e6, e7⟩ := selected hne hasc es
        refine ⟨src, [], ?_⟩
        rw [← e1]
        constructor
        · simp [toL, Function.comp_def]
        · rfl
        · exact e2
        · exact e3
        · simp
        · simpa [toL, Function.comp_def] using nodup_tag (l := 0) e4
        · simpa using e5
        · exact e6
        · exact e7
        · intro h; simp at h
        · simp
        · intro lo hi hr e he
          rw [List.append_nil] at he
          exact (keyRange_some hr).2.2 _ (List.mem_map_of_mem he)
      · rw [q2 ho] at h
        exact ⟨(leveled 1 h).1, (leveled 1 h).2.1⟩
  unfold planVersion at h
  simp only at h
  split_ifs at h with hE
  unfold planMin at h
  split_ifs at h with hm
  · obtain ⟨a, b⟩ := full h
    exact ⟨a, b, by omega⟩
  · obtain ⟨a, b, c⟩ := leveled minLevel h
    exact ⟨a, b, by omega⟩

/-- **C39.** A plan is made exactly when some level that holds tables is over its limits. -/
theorem plan_iff_over_limit (S : Sorter K) (cfg : PCfg) (v : Version (Info K)) (hv : VersionOk v) (minLevel : Nat) :
    planVersion S cfg v minLevel ≠ none ↔
      ∃ l, minLevel ≤ l ∧ v.ssts.getD l [] ≠ [] ∧ OverLimit cfg v l := by
  constructor
  · intro h
    obtain ⟨t, ht⟩ := Option.ne_none_iff_exists'.1 h
    obtain ⟨⟨src, more, hok⟩, h2, h3⟩ := plans_are_well_formed S cfg v hv minLevel t ht
    refine ⟨t.source, h3, ?_, h2⟩
    obtain ⟨e, he⟩ := List.exists_mem_of_ne_nil _ hok.nonempty
    exact List.ne_nil_of_mem (hok.srcListed e he)
  · rintro ⟨l, h1, h2, h3⟩
    have hmem : (⟨l, (v.ssts.getD l []).map toL⟩ : LInfo K) ∈ levelsFrom 0 v.ssts := by
      rw [mem_levelsFrom]
      refine ⟨l, v.ssts.getD l [], ?_, h2, by simp⟩
      cases hb : v.ssts[l]? with
      | none => rw [List.getD_eq_getElem?_getD, hb] at h2; exact absurd rfl h2
      | some b => rw [List.getD_eq_getElem?_getD, hb]; rfl
    have hE : isEmpty (levelsFrom 0 v.ssts) = false := by
      cases hc : isEmpty (levelsFrom 0 v.ssts) with
      | false => rfl
      | true =>
        unfold isEmpty at hc
        have := List.all_eq_true.1 hc _ hmem
        simp at this
        exact absurd (by simp [this] : v.ssts.getD l [] = []) h2
    have leveled : ∀ m, max m 1 ≤ l → planLeveled S cfg (levelsFrom 0 v.ssts) m ≠ none := by
      intro m hm
      unfold planLeveled
      have hin : (⟨l, (v.ssts.getD l []).map toL⟩ : LInfo K) ∈
          (levelsFrom 0 v.ssts).filter (fun i => decide (max m 1 ≤ i.level)) :=
        List.mem_filter.2 ⟨hmem, by simpa using hm⟩
      generalize (levelsFrom 0 v.ssts).filter (fun i => decide (max m 1 ≤ i.level)) = L at hin
      induction L with
      | nil => cases hin
      | cons i is ih =>
        unfold leveledLoop
        rcases List.mem_cons.1 hin with rfl | hin
        · rw [if_pos ((due_iff cfg v l (by omega)).2 h3)]
          obtain ⟨t, _, _, e, _⟩ := planLevel_ok S cfg v hv l (by omega) h2
          rw [e]
          simp
        · split_ifs
          · split
            · simp
            · exact ih hin
          · exact ih hin
    unfold planVersion
    simp only [hE]
    unfold planMin plan
    by_cases hm : minLevel = 0
    · rw [if_neg (by simp), if_pos hm]
      by_cases hl : l = 0
      · subst hl
        obtain ⟨src, e, _⟩ := (planL0_iff S cfg v h2).1 h3
        rw [e]; simp
      · split
        · simp
        · exact leveled 1 (by omega)
    · rw [if_neg (by simp), if_neg hm]
      exact leveled minLevel (by omega)

/-- **C39.** The inputs of a well-formed plan resolve in its version, in order, to exactly the listed
tables. -/
theorem plan_resolves (cfg : PCfg) (v : Version (Info K)) (hv : VersionOk v) (t : PTask K)
    (src more : List (Entry (Info K))) (hok : PlanOk cfg v t src more) :
    resolve v t.input = .ok
      (src.map (fun e => ⟨e.id, t.source, e.info.stats, e.wal, some e.info.data, e.info.del⟩) ++
       more.map (fun e => ⟨e.id, t.source + 1, e.info.stats, e.wal, some e.info.data, e.info.del⟩)) := by
  have key : ∀ (l : Nat) (es : List (Entry (Info K))) (rest : List Input) (ds : List (Desc K)),
      (∀ e ∈ es, e ∈ v.ssts.getD l []) → resolve v rest = .ok ds →
      resolve v (es.map (fun e => ⟨l, e.id⟩) ++ rest) = .ok
        (es.map (fun e => ⟨e.id, l, e.info.stats, e.wal, some e.info.data, e.info.del⟩) ++ ds) := by
    intro l es rest ds h hr
    induction es with
    | nil => simpa using hr
    | cons e es ih =>
      have ih := ih (fun x hx => h x (List.mem_cons_of_mem _ hx))
      have he := h e List.mem_cons_self
      rw [List.map_cons, List.cons_append]
      unfold resolve
      cases hb : v.ssts[l]? with
      | none => rw [List.getD_eq_getElem?_getD, hb] at he; cases he
      | some b =>
        have hgd : v.ssts.getD l [] = b := by rw [List.getD_eq_getElem?_getD, hb]; rfl
        rw [hgd] at he
        have hasc := hv.asc b (List.mem_of_getElem? hb)
        have hf : b.find? (fun x => decide (x.id = e.id)) = some e := by
          cases hf : b.find? (fun x => decide (x.id = e.id)) with
          | none => have := List.find?_eq_none.1 hf e he; simp at this
          | some x =>
            have hx := List.mem_of_find?_eq_some hf
            have hid : x.id = e.id := by simpa using List.find?_some hf
            have := List.inj_on_of_nodup_map (nodup_of_asc hasc) hx he hid
            rw [this]
        simp only [hf, ih]
        rfl
  rw [hok.input]
  refine key _ _ _ _ hok.srcListed ?_
  have := key (t.source + 1) more [] [] hok.moreListed rfl
  simpa using this

/-! A concrete case: level 1 is over its limit, the two tables with the smallest keys are taken, and of
level 2 the one that overlaps them. -/
section Example

def exSorter : Sorter Nat where
  sort l := l.insertionSort keyLe
  perm l := List.perm_insertionSort keyLe l
  sorted l h := by
    induction l with
    | nil => exact List.Pairwise.nil
    | cons a l ih =>
      have ih := ih (fun f hf => h f (List.mem_cons_of_mem _ hf))
      have hl : ∀ f ∈ l.insertionSort keyLe, f.minKey ≠ none := fun f hf =>
        h f (List.mem_cons_of_mem _ ((List.perm_insertionSort keyLe l).subset hf))
      have ha := h a List.mem_cons_self
      rw [List.insertionSort_cons]
      clear h
      generalize l.insertionSort keyLe = m at ih hl
      induction m with
      | nil => simp
      | cons b m ihm =>
        rw [List.orderedInsert_cons]
        have hb := hl b List.mem_cons_self
        obtain ⟨x, hx⟩ := Option.ne_none_iff_exists'.1 ha
        obtain ⟨y, hy⟩ := Option.ne_none_iff_exists'.1 hb
        split_ifs with hab
        · refine List.pairwise_cons.2 ⟨?_, ih⟩
          intro c hc
          rcases List.mem_cons.1 hc with rfl | hc
          · exact hab
          · have hbc := (List.pairwise_cons.1 ih).1 c hc
            obtain ⟨z, hz⟩ := Option.ne_none_iff_exists'.1 (hl c (List.mem_cons_of_mem _ hc))
            simp only [keyLe, hx, hy, hz] at hab hbc ⊢
            omega
        · refine List.pairwise_cons.2 ⟨?_, ihm (List.pairwise_cons.1 ih).2
            (fun f hf => hl f (List.mem_cons_of_mem _ hf))⟩
          intro c hc
          rcases (List.mem_orderedInsert keyLe).1 hc with rfl | hc
          · simp only [keyLe, hx, hy] at hab ⊢
            omega
          · exact (List.pairwise_cons.1 ih).1 c hc

def exEntry (id lo hi : Nat) : Entry (Info Nat) :=
  ⟨id, some [], ⟨some ⟨1, 10, 0, some lo, some hi, some 1, some 1⟩, ⟨1, id⟩, none⟩⟩

def exVersion : Version (Info Nat) :=
  ⟨1, 5, [[], [exEntry 3 50 60, exEntry 5 10 20, exEntry 8 30 40], [exEntry 6 35 45, exEntry 7 70 90]], [], none, none⟩

def exCfg : PCfg := ⟨8, 6, none, [2, 12], [], 2, none⟩

example : VersionOk exVersion :=
  ⟨by decide, by decide, by decide, by decide, by simp [exVersion]⟩
example : planVersion exSorter exCfg exVersion 0 =
    some ⟨1, 2, [⟨1, 5⟩, ⟨1, 8⟩, ⟨2, 6⟩], some (10, 45)⟩ := by decide
example : OverLimit exCfg exVersion 1 := ⟨2, rfl, .inl (by decide)⟩
example : ¬ OverLimit exCfg exVersion 2 := by
  rintro ⟨l, h, h'⟩
  simp [exCfg] at h
  subst h
  rcases h' with h' | ⟨c, h', _⟩
  · exact absurd h' (by decide)
  · cases h'

end Example

end Tonbo.Props.C39
