import Verif.Lemmas.Catalog

/-!
# C51: table registration
-/

namespace Tonbo.Props.C51
open Tonbo.Model Tonbo.Model.Catalog Tonbo.Spec.CatalogView Tonbo.Lemmas.Catalog
open Tonbo.Lemmas.Manifest (snapshotLatest_spec)

variable {P : Type}

/-- **C51.** What a registration answers, after any history of registrations (complete or stopped half
way), catalog set-ups and edits of versions, if no identifier is drawn twice: a name never seen gets a new
table; a name seen before gets the table of its first registration if the definition is the same in every
field; any other definition is refused and changes nothing in either manifest. -/
theorem register_answers (ops : List (Op P)) (hids : (idsOf ops).Nodup) (d : Def) (id : Nat) :
    match first ops d.name with
    | none => (Catalog.register (run ops) d id).2 = .ok (tableOf d id)
    | some (d0, id0) =>
      (Catalog.register (run ops) d id).1.cat = (run ops).cat ∧
      if d = d0 then (Catalog.register (run ops) d id).2 = .ok (tableOf d0 id0)
      else (Catalog.register (run ops) d id).2 = .error .conflict ∧
        (Catalog.register (run ops) d id).1 = run ops := by
  have hi := inv_run ops hids
  rcases registerCatalog_spec hi d id with ⟨i0, hf, e⟩ | ⟨d0, i0, hf, hne, e⟩ | ⟨s, hf, _, e⟩
  · rw [hf]
    simp only [if_true]
    unfold Catalog.register
    rw [e]
    exact ⟨rfl, rfl⟩
  · rw [hf]
    simp only [if_neg hne]
    unfold Catalog.register
    rw [e]
    exact ⟨rfl, rfl, rfl⟩
  · rw [hf]
    simp only
    unfold Catalog.register
    rw [e]
    rfl

/-- **C51.** Registering the same definition again, whatever happened in between, gives the same table. -/
theorem register_is_idempotent (ops more : List (Op P)) (d : Def) (id id' : Nat) (t : Meta)
    (hids : (idsOf (ops ++ [Op.register d id] ++ more)).Nodup)
    (h : (Catalog.register (run ops) d id).2 = .ok t) :
    (Catalog.register (run (ops ++ [.register d id] ++ more)) d id').2 = .ok t := by
  have h1 : (idsOf ops).Nodup := by
    rw [idsOf_append, idsOf_append] at hids
    exact (List.Nodup.of_append_left hids).of_append_left
  have a := register_answers ops h1 d id
  have b := register_answers _ hids d id'
  have hf : first (ops ++ [Op.register d id] ++ more) d.name =
      ((first ops d.name).or (some (d, id))).or (first more d.name) := by
    rw [first_append, first_append]
    congr 2
    simp [first, attempt]
  rw [hf] at b
  cases hf0 : first ops d.name with
  | none =>
    rw [hf0] at a b
    simp only [Option.or, if_true] at a b
    rw [b.2, ← h, a]
  | some q =>
    obtain ⟨d0, i0⟩ := q
    rw [hf0] at a b
    simp only [Option.or] at a b
    by_cases hd : d = d0
    · rw [if_pos hd] at a b
      rw [b.2, ← h, a.2]
    · rw [if_neg hd] at a
      rw [a.2.1] at h; cases h

/-- **C51.** Two successful registrations give the same table exactly if the names are equal. -/
theorem distinct_names_distinct_tables (ops : List (Op P)) (d d' : Def) (id id' : Nat) (t t' : Meta)
    (hids : (idsOf (ops ++ [Op.register d id, .register d' id'])).Nodup)
    (h : (Catalog.register (run ops) d id).2 = .ok t)
    (h' : (Catalog.register (run (ops ++ [.register d id])) d' id').2 = .ok t') :
    t.id = t'.id ↔ d.name = d'.name := by
  have hids2 : (idsOf (ops ++ [Op.register d id])).Nodup := by
    have : ops ++ [Op.register d id, .register d' id'] = ops ++ [Op.register d id] ++ [.register d' id'] := by simp
    rw [this, idsOf_append] at hids
    exact List.Nodup.of_append_left hids
  have h1 : (idsOf ops).Nodup := by
    rw [idsOf_append] at hids2
    exact List.Nodup.of_append_left hids2
  have hno : id' ∉ idsOf (ops ++ [Op.register d id]) := by
    have : ops ++ [Op.register d id, .register d' id'] = ops ++ [Op.register d id] ++ [.register d' id'] := by simp
    rw [this, idsOf_append] at hids
    intro hc
    exact (List.nodup_append.1 hids).2.2 id' hc id' (by simp [idsOf]) rfl
  have a := register_answers ops h1 d id
  have b := register_answers _ hids2 d' id'
  -- the table a name has after the first registration
  have key : ∃ e, first (ops ++ [Op.register d id]) d.name = some (e, t.id) := by
    have e : first (ops ++ [Op.register d id]) d.name = (first ops d.name).or (some (d, id)) := by
      rw [first_append]; congr 1; simp [first, attempt]
    rw [e]
    cases hf : first ops d.name with
    | none => rw [hf] at a; rw [h] at a; cases a; exact ⟨d, rfl⟩
    | some q =>
      obtain ⟨d0, i0⟩ := q
      rw [hf] at a
      by_cases hd : d = d0
      · simp only [if_pos hd, h] at a
        cases a.2; exact ⟨d0, rfl⟩
      · simp only [if_neg hd, h] at a
        cases a.2.1
  obtain ⟨e, he⟩ := key
  have hi := inv_run _ hids2
  constructor
  · intro ht
    cases hf : first (ops ++ [Op.register d id]) d'.name with
    | none =>
      rw [hf] at b
      rw [h'] at b
      cases b
      exfalso
      have hm := (first_id he).1
      rw [ht] at hm
      exact hno hm
    | some q =>
      obtain ⟨d0, i0⟩ := q
      rw [hf] at b
      have hi0 : i0 = t'.id := by
        by_cases hd : d' = d0
        · simp only [if_pos hd, h'] at b
          cases b.2; rfl
        · simp only [if_neg hd, h'] at b
          cases b.2.1
      rw [hi0, ← ht] at hf
      obtain ⟨s, _, hs, hm, _⟩ := hi.root
      have m1 := (hm t.id d.name).2 ⟨_, he⟩
      have m2 := (hm t.id d'.name).2 ⟨_, hf⟩
      exact congrArg Prod.snd (SMap.sorted_unique hs m1 m2 rfl)
  · intro hn
    rw [← hn, he] at b
    by_cases hd : d' = e
    · simp only [if_pos hd, h'] at b
      cases b.2; rfl
    · simp only [if_neg hd, h'] at b
      cases b.2.1

/-- **C51.** A registered table can be used from then on, whatever is called later: its definition can be
read back, and its latest version can be read. -/
theorem registered_tables_are_usable (ops more : List (Op P)) (d : Def) (id : Nat) (t : Meta)
    (hids : (idsOf (ops ++ [Op.register d id] ++ more)).Nodup)
    (h : (Catalog.register (run ops) d id).2 = .ok t) :
    tableMeta (run (ops ++ [.register d id] ++ more)).cat t.id = .ok t ∧ t = tableOf d t.id ∧
    ∃ hd v, Manifest.snapshotLatest (run (ops ++ [.register d id] ++ more)).ver t.id = .ok (hd, v) := by
  have h1 : (idsOf ops).Nodup := by
    rw [idsOf_append, idsOf_append] at hids
    exact (List.Nodup.of_append_left hids).of_append_left
  have a := register_answers ops h1 d id
  have hf : first (ops ++ [Op.register d id] ++ more) d.name =
      ((first ops d.name).or (some (d, id))).or (first more d.name) := by
    rw [first_append, first_append]
    congr 2
    simp [first, attempt]
  have key : first (ops ++ [Op.register d id] ++ more) d.name = some (d, t.id) ∧ t = tableOf d t.id := by
    rw [hf]
    cases hf0 : first ops d.name with
    | none => rw [hf0] at a; rw [h] at a; cases a; exact ⟨rfl, rfl⟩
    | some q =>
      obtain ⟨d0, i0⟩ := q
      rw [hf0] at a
      by_cases hd : d = d0
      · simp only [if_pos hd, h] at a
        cases a.2; exact ⟨by rw [hd]; rfl, by rw [hd]; rfl⟩
      · simp only [if_neg hd, h] at a
        cases a.2.1
  obtain ⟨hfd, ht⟩ := key
  refine ⟨?_, ht, ?_⟩
  · have hi := inv_run _ hids
    unfold tableMeta readMeta
    rcases hi.metas t.id with ⟨n, d', hd', hg⟩ | ⟨hno, _⟩
    · obtain ⟨s, _, hs, hm, _⟩ := hi.root
      have m1 := (hm t.id d.name).2 ⟨_, hfd⟩
      have m2 := (hm t.id n).2 ⟨_, hd'⟩
      have hn : d.name = n := congrArg Prod.snd (SMap.sorted_unique hs m1 m2 rfl)
      subst hn
      rw [hfd] at hd'
      cases hd'
      rw [hg]
      exact congrArg Except.ok ht.symm
    · exact absurd hfd (hno _ _)
  · have hg0 : Tonbo.Lemmas.Manifest.Good (run ops).ver := good_ver ops _ Tonbo.Lemmas.Manifest.good_nil
    have hrun : run (ops ++ [.register d id] ++ more) = more.foldl step (Catalog.register (run ops) d id).1 := by
      unfold run
      rw [List.foldl_append, List.foldl_append]; rfl
    rcases ver_register (run ops) d id with ⟨t', ht', hv⟩ | ⟨e, he, _⟩
    · rw [h] at ht'; cases ht'
      obtain ⟨n, hd, hok⟩ := init_ok hg0 t.id t.version
      rw [← hv] at hok
      obtain ⟨n', hd', _, hok'⟩ := ver_keeps more _ (by rw [hv]; exact good_step hg0 _) hok
      rw [hrun]
      rcases snapshotLatest_spec hok' with ⟨_, e⟩ | ⟨_, v, _, _, e⟩
      · exact ⟨_, _, e⟩
      · exact ⟨_, _, e⟩
    · rw [h] at he; cases he

/-- **C51.** The counter of the catalog is the number of its tables (as far as 64 bits go), and these are the names that
were ever registered. -/
theorem ordinal_counts_tables (ops : List (Op P)) (hids : (idsOf ops).Nodup) :
    ∃ s, readRoot (run ops).cat = .ok s ∧ s.ordinal = min s.tables.length (2 ^ 64 - 1) ∧
      (∀ i n, (i, n) ∈ s.tables ↔ ∃ d, first ops n = some (d, i)) ∧ (s.tables.map (·.1)).Nodup := by
  obtain ⟨s, h1, h2, h3, h4⟩ := (inv_run ops hids).root
  refine ⟨s, h1, h4, h3, ?_⟩
  unfold SMap.Sorted at h2
  rw [List.Nodup, List.pairwise_map]
  exact h2.imp (fun h => h.ne)

/-- **C51.** A table that was never registered under a number is reported as missing under it, with this error. -/
theorem unknown_tables_are_missing (ops : List (Op P)) (hids : (idsOf ops).Nodup) (id : Nat)
    (h : ∀ n d, first ops n ≠ some (d, id)) : tableMeta (run ops).cat id = .error .missingMeta := by
  rcases (inv_run ops hids).metas id with ⟨n, d, hf, _⟩ | ⟨_, hg⟩
  · exact absurd hf (h n d)
  · unfold tableMeta readMeta
    rw [hg]

/-- **C51.** A damaged catalog is refused and left as it is. Whatever is stored: if the root holds something that is no
catalog, or the table found under the name has no record, or one that is no table, a registration fails with the error of
that kind and changes nothing in either manifest. -/
theorem damaged_catalogs_are_refused (b : Both P) (d : Def) (id : Nat) :
    (∀ t, cget b.cat .root = some (.table t) → Catalog.register b d id = (b, .error .mismatch)) ∧
    (∀ s t, cget b.cat .root = some (.catalog s) → s.tables = [(t, d.name)] → cget b.cat (.table t) = none →
      Catalog.register b d id = (b, .error .missingMeta)) ∧
    (∀ s t x, cget b.cat .root = some (.catalog s) → s.tables = [(t, d.name)] → cget b.cat (.table t) = some (.catalog x) →
      Catalog.register b d id = (b, .error .mismatch)) := by
  refine ⟨fun t h => ?_, fun s t h hs hn => ?_, fun s t x h hs hn => ?_⟩
  · simp [Catalog.register, registerCatalog, readRoot, h, asState]
  · simp [Catalog.register, registerCatalog, readRoot, h, asState, findByName, hs, readMeta, hn]
  · simp [Catalog.register, registerCatalog, readRoot, h, asState, findByName, hs, readMeta, hn, asMeta]

/-- Two users of one store. -/
def exD : Def := ⟨"a", "f1", ["id"], none, 1⟩
def exD2 : Def := ⟨"b", "f1", ["id"], none, 1⟩
def exD3 : Def := ⟨"a", "f1", ["id"], some (5, 3), 1⟩

/-- The hypotheses hold for a history with a registration stopped half way, and the three answers occur. -/
example : (idsOf ([.init, .half exD 7, .register exD2 3, .register exD 9] : List (Op Unit))).Nodup ∧
    (Catalog.register (run ([.init, .half exD 7, .register exD2 3] : List (Op Unit))) exD 9).2 = .ok (tableOf exD 7) ∧
    (Catalog.register (run ([.init, .half exD 7, .register exD2 3] : List (Op Unit))) exD3 9).2 = .error .conflict ∧
    (Catalog.register (run ([.init, .half exD 7] : List (Op Unit))) exD2 3).2 = .ok (tableOf exD2 3) := by
  decide

/-- Number 4 was never given out; and a root that is no catalog. -/
example : (∀ n d, first ([.init, .half exD 7, .register exD2 3] : List (Op Unit)) n ≠ some (d, 4)) ∧
    tableMeta (run ([.init, .half exD 7, .register exD2 3] : List (Op Unit))).cat 4 = .error .missingMeta ∧
    cget [(Key.root, Val.table (tableOf exD 7))] .root = some (.table (tableOf exD 7)) := by
  refine ⟨fun n d h => ?_, by decide, by decide⟩
  have := (first_id h).1
  revert this
  decide

/-- A registration stopped between its two sessions leaves a table that cannot be read until it is
registered again. -/
theorem half_registered_tables_have_no_head :
    ∃ ops : List (Op Unit), tableMeta (run ops).cat 7 = .ok (tableOf exD 7) ∧
      Manifest.snapshotLatest (run ops).ver 7 = .error .noHead ∧
      Manifest.snapshotLatest (run (ops ++ [.register exD 8])).ver 7 = .ok (Manifest.newHead 7 1, none) :=
  ⟨[.init, .half exD 7], by decide⟩

end Tonbo.Props.C51
