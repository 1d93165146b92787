import Verif.Model.Projection
import Verif.Spec.ColumnsView

/-! Helper lemmas for C61: columns are found by name. -/

namespace Tonbo.Lemmas.Proj
open Tonbo.Model Tonbo.Model.Mem Tonbo.Model.Pred Tonbo.Model.Plan Tonbo.Model.Proj Tonbo.Spec

/-- The names of a schema. -/
abbrev names (s : Schema) : List String := s.map (·.1)

/-! ## Cells by name -/

theorem findIdx_cell : ∀ (s : Schema) (r : Row) (n : String) (i : Nat), r.length = s.length →
    s.findIdx? (fun g => g.1 == n) = some i → (r[i]?).join = cellOf s r n := by
  intro s
  induction s with
  | nil => intro r n i _ h; simp at h
  | cons f s ih =>
    intro r n i hl h
    cases r with
    | nil => simp at hl
    | cons a r =>
      rw [List.findIdx?_cons] at h
      by_cases hf : f.1 == n
      · rw [if_pos hf] at h
        obtain rfl := Option.some.inj h
        simp [cellOf, hf]
      · rw [if_neg hf] at h
        obtain ⟨j, hj, rfl⟩ := Option.map_eq_some_iff.1 h
        have := ih r n j (by simpa using hl) hj
        simp only [List.getElem?_cons_succ, this, cellOf, List.zip_cons_cons, List.find?_cons, hf]

theorem findIdx_some {s : Schema} {n : String} (h : n ∈ names s) : ∃ i, s.findIdx? (fun g => g.1 == n) = some i := by
  cases hf : s.findIdx? (fun g => g.1 == n) with
  | some i => exact ⟨i, rfl⟩
  | none =>
    rw [List.findIdx?_eq_none_iff] at hf
    obtain ⟨f, hf1, rfl⟩ := List.mem_map.1 h
    simpa using hf f hf1

theorem findIdx_none {s : Schema} {n : String} (h : n ∉ names s) : s.findIdx? (fun g => g.1 == n) = none := by
  rw [List.findIdx?_eq_none_iff]
  intro f hf
  simp only [beq_eq_false_iff_ne, ne_eq]
  rintro rfl
  exact h (List.mem_map_of_mem hf)

theorem indices_ok {base : Schema} : ∀ {target : Schema}, (∀ f ∈ target, f.1 ∈ names base) →
    ∃ is, indices base target = .ok is ∧ ∀ r : Row, r.length = base.length → project is r = columns base (names target) r := by
  intro target
  have key : (∀ f ∈ target, f.1 ∈ names base) → ∃ is, target.mapM (fun f => base.findIdx? (fun g => g.1 == f.1)) = some is ∧
      ∀ r : Row, r.length = base.length → project is r = columns base (names target) r := by
    induction target with
    | nil => intro _; exact ⟨[], by simp, fun r _ => rfl⟩
    | cons f t ih =>
      intro h
      obtain ⟨is, h1, h2⟩ := ih (fun g hg => h g (List.mem_cons_of_mem _ hg))
      obtain ⟨i, hi⟩ := findIdx_some (h f List.mem_cons_self)
      refine ⟨i :: is, by simp [List.mapM_cons, hi, h1], ?_⟩
      intro r hr
      have := h2 r hr
      simp only [project, columns, List.map_cons] at this ⊢
      rw [findIdx_cell base r f.1 i hr hi, this]
  intro h
  obtain ⟨is, h1, h2⟩ := key h
  exact ⟨is, by simp [indices, h1], h2⟩

theorem indices_error {base : Schema} : ∀ {target : Schema}, (∃ f ∈ target, f.1 ∉ names base) →
    indices base target = .error .noSuchField := by
  intro target
  have key : (∃ f ∈ target, f.1 ∉ names base) → target.mapM (fun f => base.findIdx? (fun g => g.1 == f.1)) = none := by
    induction target with
    | nil => rintro ⟨f, hf, _⟩; cases hf
    | cons f t ih =>
      rintro ⟨g, hg, hn⟩
      rcases List.mem_cons.1 hg with rfl | hg
      · simp [List.mapM_cons, findIdx_none hn]
      · rw [List.mapM_cons]
        cases base.findIdx? (fun g => g.1 == f.1) with
        | none => rfl
        | some i => rw [ih ⟨g, hg, hn⟩]; rfl
  intro h
  simp [indices, key h]

theorem columns_length (s : Schema) (ns : List String) (r : Row) : (columns s ns r).length = ns.length := by simp [columns]

/-- Columns of columns. -/
theorem cellOf_columns {base : Schema} {r : Row} {n : String} : ∀ {s : Schema}, n ∈ names s →
    cellOf s (columns base (names s) r) n = cellOf base r n := by
  intro s
  induction s with
  | nil => intro h; cases h
  | cons f s ih =>
    intro h
    by_cases hf : f.1 = n
    · subst hf; simp [cellOf, columns]
    · have hn : n ∈ names s := by
        rcases List.mem_cons.1 h with h | h
        · exact absurd h.symm hf
        · exact h
      have := ih hn
      simp only [cellOf, columns, List.map_cons, List.zip_cons_cons, List.find?_cons] at this ⊢
      rw [show (f.1 == n) = false from by simpa using hf]
      exact this

theorem columns_columns {base s : Schema} {r : Row} {ns : List String} (h : ∀ n ∈ ns, n ∈ names s) :
    columns s ns (columns base (names s) r) = columns base ns r := by
  unfold columns
  exact List.map_congr_left (fun n hn => cellOf_columns (h n hn))

theorem columns_all : ∀ (base : Schema) (r : Row), (names base).Nodup → r.length = base.length →
    columns base (names base) r = r := by
  intro base
  induction base with
  | nil => intro r _ h; cases r with | nil => rfl | cons => simp at h
  | cons f s ih =>
    intro r hn hl
    cases r with
    | nil => simp at hl
    | cons a r =>
      rw [names, List.map_cons, List.nodup_cons] at hn
      have := ih r hn.2 (by simpa using hl)
      simp only [names, columns, List.map_cons, List.cons.injEq]
      refine ⟨by simp [cellOf], ?_⟩
      conv_rhs => rw [← this]
      unfold columns
      apply List.map_congr_left
      intro n hn'
      have : (f.1 == n) = false := by
        rw [beq_eq_false_iff_ne]; rintro rfl; exact hn.1 hn'
      simp [cellOf, this]

/-- A stored row in the columns of its table. -/
theorem cellOf_stored {base : Schema} {r : Row} {ts : Nat} {n : String} (hl : r.length = base.length)
    (h : n ∈ names base) : cellOf (base ++ [commitField]) (stored ts r) n = cellOf base r n := by
  unfold cellOf stored
  rw [List.zip_append hl.symm, List.find?_append]
  have : ((base.zip r).find? (fun q => q.1.1 == n)).isSome := by
    rw [List.find?_isSome]
    obtain ⟨f, hf, rfl⟩ := List.mem_map.1 h
    obtain ⟨i, hi, rfl⟩ := List.getElem_of_mem hf
    exact ⟨(base[i], r[i]'(by omega)), by
      rw [← List.getElem_zip (h := by simp; omega)]; exact List.getElem_mem _, by simp⟩
  obtain ⟨q, hq⟩ := Option.isSome_iff_exists.1 this
  rw [hq]; rfl

theorem cellOf_commit {base : Schema} {r : Row} {ts : Nat} (hl : r.length = base.length)
    (h : commitField.1 ∉ names base) :
    cellOf (base ++ [commitField]) (stored ts r) commitField.1 = some (.int .u64 (ts : Int)) := by
  unfold cellOf stored
  rw [List.zip_append hl.symm, List.find?_append]
  have : (base.zip r).find? (fun q => q.1.1 == commitField.1) = none := by
    rw [List.find?_eq_none]
    rintro ⟨f, a⟩ hq
    simp only [beq_iff_eq]
    intro hf
    exact h (List.mem_map.2 ⟨f, (List.of_mem_zip hq).1, hf⟩)
  rw [this]
  simp

/-! ## The columns that are picked -/

/-- What `pickNeeded` returns. -/
theorem pickNeeded_spec : ∀ (s : Schema) (i : Nat) (needed : List String),
    (∀ n, n ∈ (pickNeeded i s needed).2 ↔ n ∈ needed ∧ n ∉ names s) ∧
    (∀ n, n ∈ (pickNeeded i s needed).1.map (·.2.1) ↔ n ∈ needed ∧ n ∈ names s) ∧
    (∀ q ∈ (pickNeeded i s needed).1, q.2 ∈ s ∧ i ≤ q.1 ∧ s.findIdx? (fun g => g.1 == q.2.1) = some (q.1 - i)) ∧
    ((pickNeeded i s needed).1.map (·.2.1)).Nodup := by
  intro s
  induction s with
  | nil => intro i needed; simp [pickNeeded]
  | cons f s ih =>
    intro i needed
    unfold pickNeeded
    by_cases hf : f.1 ∈ needed
    · rw [if_pos hf]
      obtain ⟨h1, h2, h3, h4⟩ := ih (i + 1) (needed.filter (fun n => decide (n ≠ f.1)))
      refine ⟨?_, ?_, ?_, ?_⟩
      · intro n
        rw [h1 n, List.mem_filter]
        simp only [decide_eq_true_eq, names, List.map_cons, List.mem_cons, not_or]
        tauto
      · intro n
        rw [List.map_cons, List.mem_cons, h2 n, List.mem_filter]
        simp only [decide_eq_true_eq, names, List.map_cons, List.mem_cons]
        by_cases hn : n = f.1
        · subst hn; simp [hf]
        · simp [hn]
      · intro q hq
        rcases List.mem_cons.1 hq with rfl | hq
        · simp [List.findIdx?_cons]
        · obtain ⟨g1, g2, g3⟩ := h3 q hq
          refine ⟨List.mem_cons_of_mem _ g1, by omega, ?_⟩
          have hne : q.2.1 ≠ f.1 := by
            have := (h2 q.2.1).1 (List.mem_map.2 ⟨q, hq, rfl⟩)
            simpa using (List.mem_filter.1 this.1).2
          rw [List.findIdx?_cons, if_neg (by simpa using fun h => hne h.symm), g3]
          simp only [Option.map_some, Option.some.injEq]
          omega
      · rw [List.map_cons, List.nodup_cons]
        refine ⟨?_, h4⟩
        rw [h2]
        simp [List.mem_filter]
    · rw [if_neg hf]
      obtain ⟨h1, h2, h3, h4⟩ := ih (i + 1) needed
      refine ⟨?_, ?_, ?_, h4⟩
      · intro n
        rw [h1 n]
        simp only [names, List.map_cons, List.mem_cons, not_or]
        constructor
        · rintro ⟨a, b⟩; exact ⟨a, by rintro rfl; exact hf a, b⟩
        · rintro ⟨a, _, b⟩; exact ⟨a, b⟩
      · intro n
        rw [h2 n]
        simp only [names, List.map_cons, List.mem_cons]
        constructor
        · rintro ⟨a, b⟩; exact ⟨a, .inr b⟩
        · rintro ⟨a, rfl | b⟩
          · exact absurd a hf
          · exact ⟨a, b⟩
      · intro q hq
        obtain ⟨g1, g2, g3⟩ := h3 q hq
        refine ⟨List.mem_cons_of_mem _ g1, by omega, ?_⟩
        have hne : q.2.1 ≠ f.1 := by
          have := (h2 q.2.1).1 (List.mem_map.2 ⟨q, hq, rfl⟩)
          rintro h
          rw [h] at this
          exact hf this.1
        rw [List.findIdx?_cons, if_neg (by simpa using fun h => hne h.symm), g3]
        simp only [Option.map_some, Option.some.injEq]
        omega

theorem pick_project {s : Schema} {needed : List String} {r : Row} (hl : r.length = s.length) :
    project ((pickNeeded 0 s needed).1.map (·.1)) r = columns s ((pickNeeded 0 s needed).1.map (·.2.1)) r := by
  unfold project columns
  rw [List.map_map, List.map_map]
  apply List.map_congr_left
  intro q hq
  obtain ⟨_, _, h⟩ := (pickNeeded_spec s 0 needed).2.2.1 q hq
  exact findIdx_cell s r q.2.1 q.1 hl (by simpa using h)

/-- A projection can be extended by the columns of a predicate. -/
theorem extend_ok {base proj : Schema} {required : List String} (hp : ∀ f ∈ proj, f ∈ base)
    (hr : ∀ n ∈ required, n ∈ names base) :
    ∃ w, extend base proj required = .ok w ∧ (∀ f ∈ w, f ∈ base) ∧ (∀ f ∈ proj, f.1 ∈ names w) ∧ (∀ n ∈ required, n ∈ names w) ∧
      (proj = base → w = base) ∧ (proj ≠ [] → w ≠ []) := by
  unfold extend
  by_cases h : required.all (fun n => proj.any (fun f => f.1 == n)) = true
  · rw [if_pos h]
    refine ⟨proj, rfl, hp, fun f hf => List.mem_map_of_mem hf, ?_, id, id⟩
    intro n hn
    have := List.all_eq_true.1 h n hn
    obtain ⟨f, hf, he⟩ := List.any_eq_true.1 this
    exact List.mem_map.2 ⟨f, hf, by simpa using he⟩
  · rw [if_neg h]
    obtain ⟨h1, h2, h3, _⟩ := pickNeeded_spec base 0 (proj.map (·.1) ++ required)
    have hall : ∀ n ∈ proj.map (·.1) ++ required, n ∈ names base := by
      intro n hn
      rcases List.mem_append.1 hn with hn | hn
      · obtain ⟨f, hf, rfl⟩ := List.mem_map.1 hn
        exact List.mem_map_of_mem (hp f hf)
      · exact hr n hn
    have he : (pickNeeded 0 base (proj.map (·.1) ++ required)).2 = [] := by
      rw [List.eq_nil_iff_forall_not_mem]
      intro n hn
      exact ((h1 n).1 hn).2 (hall n ((h1 n).1 hn).1)
    rw [if_pos he]
    have hin : ∀ n ∈ proj.map (·.1) ++ required, n ∈ names ((pickNeeded 0 base (proj.map (·.1) ++ required)).1.map (·.2)) := by
      intro n hn
      have := (h2 n).2 ⟨hn, hall n hn⟩
      rwa [names, List.map_map]
    refine ⟨_, rfl, ?_, fun f hf => hin _ (List.mem_append_left _ (List.mem_map_of_mem hf)),
      fun n hn => hin _ (List.mem_append_right _ hn), ?_, ?_⟩
    · intro f hf
      obtain ⟨q, hq, rfl⟩ := List.mem_map.1 hf
      exact (h3 q hq).1
    · rintro rfl
      exfalso
      apply h
      rw [List.all_eq_true]
      intro n hn
      rw [List.any_eq_true]
      obtain ⟨f, hf, hfn⟩ := List.mem_map.1 (hr n hn)
      exact ⟨f, hf, by simpa using hfn⟩
    · intro hne hw
      obtain ⟨f, hf⟩ := List.exists_mem_of_ne_nil _ hne
      have := hin f.1 (List.mem_append_left _ (List.mem_map_of_mem hf))
      rw [hw] at this
      cases this

theorem extend_error {base proj : Schema} {required : List String} (h : ∃ n ∈ required, n ∉ names base ∧ n ∉ names proj) :
    extend base proj required = .error .noSuchField := by
  obtain ⟨n, hn, hb, hp⟩ := h
  unfold extend
  rw [if_neg, if_neg]
  · intro he
    have := ((pickNeeded_spec base 0 (proj.map (·.1) ++ required)).1 n).2 ⟨List.mem_append_right _ hn, hb⟩
    rw [he] at this; cases this
  · intro hall
    obtain ⟨f, hf, he⟩ := List.any_eq_true.1 (List.all_eq_true.1 hall n hn)
    exact hp (List.mem_map.2 ⟨f, hf, by simpa using he⟩)

/-- The scan of a file finds its columns by name. -/
theorem sstMap_ok {base scan keys : Schema} (hs : ∀ f ∈ scan, f.1 ∈ names base)
    (hk : ∀ f ∈ keys, f.1 ∈ names base) :
    ∃ fields roots m k, sstProjection (base ++ [commitField]) scan keys = .ok (fields, roots) ∧
      sstMap (base ++ [commitField]) scan keys = .ok (m, k) ∧
      ∀ (ts : Nat) (r : Row), r.length = base.length →
        m (stored ts r) = columns base (names scan) r ∧ k (stored ts r) = columns base (names keys) r ∧
        project roots (stored ts r) = columns (base ++ [commitField]) (names fields) (stored ts r) ∧
        commitField.1 ∈ names fields ∧ (∀ f ∈ fields, f ∈ base ++ [commitField]) ∧ (names fields).Nodup := by
  obtain ⟨h1, h2, h3, h4⟩ := pickNeeded_spec (base ++ [commitField]) 0 (scan.map (·.1) ++ keys.map (·.1) ++ [commitField.1])
  have hall : ∀ n ∈ scan.map (·.1) ++ keys.map (·.1) ++ [commitField.1], n ∈ names (base ++ [commitField]) := by
    intro n hn
    rw [names, List.map_append, List.mem_append]
    rcases List.mem_append.1 hn with hn | hn
    · left
      rcases List.mem_append.1 hn with hn | hn
      · obtain ⟨f, hf, rfl⟩ := List.mem_map.1 hn; exact hs f hf
      · obtain ⟨f, hf, rfl⟩ := List.mem_map.1 hn; exact hk f hf
    · right; simpa using hn
  have he : (pickNeeded 0 (base ++ [commitField]) (scan.map (·.1) ++ keys.map (·.1) ++ [commitField.1])).2 = [] := by
    rw [List.eq_nil_iff_forall_not_mem]
    intro n hn
    exact ((h1 n).1 hn).2 (hall n ((h1 n).1 hn).1)
  generalize hq : pickNeeded 0 (base ++ [commitField]) (scan.map (·.1) ++ keys.map (·.1) ++ [commitField.1]) = q at *
  have hnames : ∀ n ∈ scan.map (·.1) ++ keys.map (·.1) ++ [commitField.1], n ∈ names (q.1.map (·.2)) := by
    intro n hn
    have := (h2 n).2 ⟨hn, hall n hn⟩
    rwa [names, List.map_map]
  obtain ⟨is, i1, i2⟩ := indices_ok (base := q.1.map (·.2)) (target := scan)
    (fun f hf => hnames _ (List.mem_append_left _ (List.mem_append_left _ (List.mem_map_of_mem hf))))
  obtain ⟨ks, k1, k2⟩ := indices_ok (base := q.1.map (·.2)) (target := keys)
    (fun f hf => hnames _ (List.mem_append_left _ (List.mem_append_right _ (List.mem_map_of_mem hf))))
  have hproj : sstProjection (base ++ [commitField]) scan keys = .ok (q.1.map (·.2), q.1.map (·.1)) := by
    unfold sstProjection; rw [hq]; simp only [he, if_true]
  refine ⟨_, _, fun r => project is (project (q.1.map (·.1)) r), fun r => project ks (project (q.1.map (·.1)) r), hproj, ?_, ?_⟩
  · unfold sstMap; rw [hproj]; simp only [i1, k1]
  · intro ts r hr
    have hst : (stored ts r).length = (base ++ [commitField]).length := by simp [stored, hr]
    have hroots : project (q.1.map (·.1)) (stored ts r) = columns (base ++ [commitField]) (names (q.1.map (·.2))) (stored ts r) := by
      have := pick_project (needed := scan.map (·.1) ++ keys.map (·.1) ++ [commitField.1]) hst
      rw [hq] at this
      rw [this, names, List.map_map]; rfl
    have hcol : ∀ t : Schema, (∀ f ∈ t, f.1 ∈ names base) →
        columns (base ++ [commitField]) (names t) (stored ts r) = columns base (names t) r := by
      intro t ht
      unfold columns
      apply List.map_congr_left
      intro n hn
      obtain ⟨f, hf, rfl⟩ := List.mem_map.1 hn
      exact cellOf_stored hr (ht f hf)
    refine ⟨?_, ?_, hroots, hnames _ (List.mem_append_right _ (by simp)), ?_, by rw [names, List.map_map]; exact h4⟩
    · simp only
      rw [hroots, i2 _ (by rw [columns_length]; simp), columns_columns, hcol scan hs]
      intro n hn
      exact hnames n (List.mem_append_left _ (List.mem_append_left _ hn))
    · simp only
      rw [hroots, k2 _ (by rw [columns_length]; simp), columns_columns, hcol keys hk]
      intro n hn
      exact hnames n (List.mem_append_left _ (List.mem_append_right _ hn))
    · intro f hf
      obtain ⟨x, hx, rfl⟩ := List.mem_map.1 hf
      exact (h3 x hx).1

end Tonbo.Lemmas.Proj
