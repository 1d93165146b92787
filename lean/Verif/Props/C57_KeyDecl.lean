import Verif.Lemmas.KeyDecl
import Verif.Lemmas.SegName
import Mathlib.Data.List.Nodup

/-!
# C57: the primary key of a table is the one that was declared
-/

namespace Tonbo.Props.C57
open Tonbo.Model.KeyDecl Tonbo.Spec.KeyDecl Tonbo.Lemmas.KeyDecl

/-! ## The builder -/

/-- `SchemaBuilder::build` succeeds exactly when at least one name was given, every name is that of a
field and the fields have types a key may have; the key columns are then the fields with these names,
in the order given. -/
theorem builder_selects_the_named_columns (b : Builder) (c : Config) :
    b.build = .ok c ↔
      b.parts ≠ [] ∧ Usable b.schema c.cols ∧ NamedColumns b.schema b.parts c.cols ∧ c.schema = b.outSchema := by
  have hu : ∀ cols, Usable b.outSchema cols ↔ Usable b.schema cols := by
    intro cols
    unfold Usable Builder.outSchema
    split <;> rfl
  unfold Builder.build
  by_cases hp : b.parts = []
  · rw [if_pos hp]
    exact ⟨(fun h => by cases h), (fun h => absurd hp h.1)⟩
  rw [if_neg hp]
  cases hl : lookupAll b.schema b.parts with
  | error e =>
    simp only
    refine ⟨(fun h => by cases h), (fun h => ?_)⟩
    rw [lookupAll_ok.2 h.2.2.1] at hl
    cases hl
  | ok is =>
    simp only
    have hn := lookupAll_ok.1 hl
    rw [configFor_ok, hu]
    constructor
    · rintro ⟨-, h2, rfl⟩
      exact ⟨hp, h2, hn, rfl⟩
    · rintro ⟨-, h2, h3, h4⟩
      have he : c.cols = is := by
        have := lookupAll_ok.2 h3
        rw [hl] at this
        cases this; rfl
      have hne : is ≠ [] := by
        rintro rfl
        exact hp (List.forall₂_nil_right_iff.1 hn)
      refine ⟨hne, by rw [← he]; exact h2, ?_⟩
      cases c
      simp only at he h4
      rw [he, h4]

/-- When it fails because of a name, there is no field with that name. -/
theorem builder_refuses_unknown_names (b : Builder) (n : List Char) (hne : b.parts ≠ [])
    (h : b.build = .error (.noSuchField n)) : n ∈ b.parts ∧ ∀ f ∈ b.schema.fields, f.name ≠ n := by
  unfold Builder.build at h
  rw [if_neg hne] at h
  cases hl : lookupAll b.schema b.parts with
  | error e =>
    rw [hl] at h
    simp only [Except.error.injEq] at h
    obtain ⟨m, hm, he, hf⟩ := lookupAll_error hl
    rw [h] at he
    cases he
    exact ⟨hm, hf⟩
  | ok is =>
    rw [hl] at h
    simp only [configFor] at h
    split at h
    · cases h
    · cases hc : checkTypes b.outSchema is with
      | error e =>
        rw [hc] at h
        simp only [Except.error.injEq] at h
        exfalso
        subst h
        clear hl
        induction is with
        | nil => cases hc
        | cons i is ih =>
          simp only [checkTypes] at hc
          split at hc
          · cases hc
          · split at hc
            · exact ih (by
                rename_i hh _
                intro e
                subst e
                simp [checkTypes] at hc) hc
            · cases hc
      | ok u => rw [hc] at h; cases h

/-- The names recorded for the table are the names given, in the order given. -/
theorem recorded_key_columns (b : Builder) (c : Config) (h : b.build = .ok c) : primaryKeyColumns c = b.parts := by
  obtain ⟨-, -, h1, h2⟩ := (builder_selects_the_named_columns b c).1 h
  have hf : c.schema.fields = b.schema.fields := by
    rw [h2]
    unfold Builder.outSchema
    split <;> rfl
  unfold primaryKeyColumns
  rw [hf]
  generalize b.parts = ns at h1
  generalize c.cols = is at h1
  unfold NamedColumns at h1
  induction h1 with
  | nil => rfl
  | cons a _ ih =>
    obtain ⟨⟨f, hf, rfl⟩, -⟩ := a
    rw [List.filterMap_cons, hf]
    simp only [Option.map_some]
    rw [ih]

/-! ## Reading the declaration back -/

/-- A declaration written into the schema by `with_metadata` is read back as the same key exactly when
no name contains a comma, a quote, a backslash or a control character and none is empty, provided
that no field carries a marker. -/
theorem declaration_survives_partial (b : Builder) (c : Config) (h : b.withMetadata.build = .ok c)
    (hm : Unmarked b.schema) :
    fromMetadata c.schema = .ok c ↔ ∀ n ∈ b.parts, Plain n := by
  obtain ⟨hp, hu, hn, hs⟩ := (builder_selects_the_named_columns _ c).1 h
  change b.parts ≠ [] at hp
  change Usable b.schema c.cols at hu
  change NamedColumns b.schema b.parts c.cols at hn
  have hs : c.schema = { b.schema with keys := some (jsonNames b.parts) } := hs
  have hm' : marksFrom 0 c.schema.fields = [] := by
    rw [hs]
    exact unmarked_iff.2 hm
  have hk : c.schema.keys = some (jsonNames b.parts) := by rw [hs]
  have hnc : ∀ ns is, NamedColumns c.schema ns is ↔ NamedColumns b.schema ns is := by
    intro ns is
    unfold NamedColumns IsFirst
    rw [hs]
  have huc : Usable c.schema c.cols := by
    unfold Usable
    rw [hs]
    exact hu
  have hne : c.cols ≠ [] := by
    intro e
    rw [e] at hn
    exact hp (List.forall₂_nil_right_iff.1 hn)
  unfold fromMetadata
  rw [hm', hk]
  simp only [ne_eq, not_true, if_false]
  rw [← names_round_trip]
  constructor
  · intro h'
    generalize parseNamesList (jsonNames b.parts) = ns at h'
    have hns : ns ≠ [] := by
      rintro rfl
      cases h'
    rw [fromNames_eq _ _ hns] at h'
    cases hl : lookupAll c.schema ns with
    | error e => rw [hl] at h'; cases h'
    | ok is =>
      rw [hl] at h'
      simp only at h'
      obtain ⟨-, -, he⟩ := configFor_ok.1 h'
      have : is = c.cols := by rw [he]
      subst this
      exact namedColumns_inj ((hnc _ _).1 (lookupAll_ok.1 hl)) hn
  · intro h'
    rw [h', fromNames_eq _ _ hp, lookupAll_ok.2 ((hnc _ _).2 hn)]
    exact configFor_ok.2 ⟨hne, huc, rfl⟩

/-! ## Markers -/

theorem numbered_mem {marks : List (Option Nat × Nat)} {o i : Nat} :
    (o, i) ∈ numbered marks ↔ (some o, i) ∈ marks := by
  unfold numbered
  rw [List.mem_filterMap]
  constructor
  · rintro ⟨⟨m, j⟩, hm, h⟩
    cases m with
    | none => cases h
    | some m =>
      simp only [Option.map_some, Option.some.injEq, Prod.mk.injEq] at h
      obtain ⟨rfl, rfl⟩ := h
      exact hm
  · exact fun h => ⟨(some o, i), h, rfl⟩

theorem numbered_sorted {marks : List (Option Nat × Nat)} (h : marks.Pairwise (fun a b => a.2 < b.2)) :
    (numbered marks).Pairwise (fun a b => a.2 < b.2) := by
  unfold numbered
  rw [List.pairwise_filterMap]
  refine h.imp ?_
  rintro ⟨a, i⟩ ⟨b, j⟩ hij x hx y hy
  cases a <;> cases b <;> simp_all
  subst hx hy
  exact hij

theorem pair_or {α : Type} {a b : α} : ∀ {l : List α}, a ∈ l → b ∈ l → a ≠ b → [a, b].Sublist l ∨ [b, a].Sublist l
  | [], h, _, _ => by cases h
  | x :: l, ha, hb, hne => by
    rcases List.mem_cons.1 ha with rfl | ha'
    · rcases List.mem_cons.1 hb with rfl | hb
      · exact absurd rfl hne
      · exact Or.inl ((List.singleton_sublist.2 hb).cons_cons _)
    · rcases List.mem_cons.1 hb with rfl | hb
      · exact Or.inr ((List.singleton_sublist.2 ha').cons_cons _)
      · exact (pair_or ha' hb hne).imp (·.cons _) (·.cons _)

theorem not_both {α : Type} {a b : α} : ∀ {l : List α}, l.Nodup → [a, b].Sublist l → [b, a].Sublist l → False
  | [], _, h, _ => by cases h
  | x :: l, hn, h1, h2 => by
    rw [List.nodup_cons] at hn
    cases h1 with
    | cons _ h1 =>
      cases h2 with
      | cons _ h2 => exact not_both hn.2 h1 h2
      | cons_cons _ h2 => exact hn.1 (h1.subset (by simp))
    | cons_cons _ h1 =>
      cases h2 with
      | cons _ h2 => exact hn.1 (h2.subset (by simp))
      | cons_cons _ h2 => exact hn.1 (h1.subset (by simp))

/-- A stable sort by ordinal of a list in field order. -/
theorem stable_sort (l : List (Nat × Nat)) (h : l.Pairwise (fun a b => a.2 < b.2)) :
    (l.insertionSort (fun a b => a.1 ≤ b.1)).Pairwise (fun a b => a.1 < b.1 ∨ (a.1 = b.1 ∧ a.2 < b.2)) := by
  have : IsTrans (Nat × Nat) (fun a b => a.1 ≤ b.1) := ⟨fun a b c h1 h2 => Nat.le_trans h1 h2⟩
  have : Std.Total (fun a b : Nat × Nat => a.1 ≤ b.1) := ⟨fun a b => Nat.le_total _ _⟩
  have hs := List.pairwise_insertionSort (fun a b : Nat × Nat => a.1 ≤ b.1) l
  have hp := List.perm_insertionSort (fun a b : Nat × Nat => a.1 ≤ b.1) l
  have hnd : l.Nodup := h.imp (fun {a b} h e => by subst e; omega)
  have hnd' := hp.nodup_iff.2 hnd
  rw [List.pairwise_iff_forall_sublist]
  intro a b hab
  have hle := List.pairwise_iff_forall_sublist.1 hs hab
  rcases Nat.lt_or_eq_of_le hle with hlt | heq
  · exact Or.inl hlt
  · right
    refine ⟨heq, ?_⟩
    by_contra hc
    have hne : a ≠ b := List.pairwise_iff_forall_sublist.1 hnd' hab
    have ha : a ∈ l := hp.mem_iff.1 (hab.subset (by simp))
    have hb : b ∈ l := hp.mem_iff.1 (hab.subset (by simp))
    have hba : [b, a].Sublist l := by
      rcases pair_or ha hb hne with h' | h'
      · exact absurd (List.pairwise_iff_forall_sublist.1 h h') hc
      · exact h'
    have hba' := List.pair_sublist_insertionSort (r := fun a b : Nat × Nat => a.1 ≤ b.1) (by omega) hba
    exact not_both hnd' hab hba'

/-- Field markers decide when there are any: the key columns are exactly the marked fields, ordered
by their numbers and, among equal numbers, by their position in the schema. The list of names in the
schema plays no part. -/
theorem marked_columns (s : Schema) (c : Config) (hm : ¬ Unmarked s) (h : fromMetadata s = .ok c) :
    c.schema = s ∧ (∀ i, i ∈ c.cols ↔ ∃ o, Marked s i o) ∧ Usable s c.cols ∧
    c.cols.Pairwise (fun i j => ∃ a b, Marked s i (some a) ∧ Marked s j (some b) ∧ (a < b ∨ (a = b ∧ i < j))) := by
  have hne : marksFrom 0 s.fields ≠ [] := fun e => hm (unmarked_iff.1 e)
  unfold fromMetadata at h
  rw [if_pos hne] at h
  have hsorted := marksFrom_sorted s.fields 0
  have hmem : ∀ o j, (o, j) ∈ marksFrom 0 s.fields ↔ Marked s j o := fun o j => marks_mem
  generalize marksFrom 0 s.fields = marks at *
  match marks, hne with
  | [(o, i)], _ =>
    simp only [fromMarks, fromKeyCol] at h
    split at h
    · cases h
    · obtain ⟨-, hu, rfl⟩ := configFor_ok.1 h
      refine ⟨rfl, ?_, hu, by simp⟩
      intro j
      simp only [List.mem_singleton]
      constructor
      · rintro rfl
        exact ⟨o, (hmem _ _).1 (by simp)⟩
      · rintro ⟨o', ho⟩
        have := (hmem _ _).2 ho
        simp only [List.mem_singleton, Prod.mk.injEq] at this
        exact this.2
  | a :: b :: r, _ =>
    simp only [fromMarks] at h
    split at h
    · cases h
    · rename_i hany
      obtain ⟨-, hu, rfl⟩ := configFor_ok.1 h
      have hall : ∀ o i, (o, i) ∈ a :: b :: r → ∃ n, o = some n := by
        intro o i hi
        cases o with
        | some n => exact ⟨n, rfl⟩
        | none =>
          exfalso
          apply hany
          rw [List.any_eq_true]
          exact ⟨(none, i), hi, rfl⟩
      refine ⟨rfl, ?_, hu, ?_⟩
      · intro i
        simp only [List.mem_map, List.mem_insertionSort, Prod.exists, exists_eq_right]
        constructor
        · rintro ⟨o, ho⟩
          exact ⟨some o, (hmem _ _).1 (numbered_mem.1 ho)⟩
        · rintro ⟨o, ho⟩
          have ho := (hmem _ _).2 ho
          obtain ⟨n, rfl⟩ := hall o i ho
          exact ⟨n, numbered_mem.2 ho⟩
      · rw [List.pairwise_map]
        refine (List.Pairwise.imp_of_mem ?_ (stable_sort _ (numbered_sorted hsorted)))
        rintro ⟨x, i⟩ ⟨y, j⟩ hx hy hxy
        rw [List.mem_insertionSort] at hx hy
        exact ⟨x, y, (hmem _ _).1 (numbered_mem.1 hx), (hmem _ _).1 (numbered_mem.1 hy), hxy⟩

/-- Several markers, one of them without a number, are refused. -/
theorem several_markers_need_numbers (s : Schema) (i j : Nat) (o : Option Nat) (hi : Marked s i none)
    (hj : Marked s j o) (hne : i ≠ j) : ∃ e, fromMetadata s = .error e := by
  cases h : fromMetadata s with
  | error e => exact ⟨e, rfl⟩
  | ok c =>
    exfalso
    have hm : ¬ Unmarked s := by
      intro hu
      obtain ⟨f, hf, hm⟩ := hi
      rw [hu f (List.mem_of_getElem? hf)] at hm
      cases hm
    obtain ⟨-, hc, -, hp⟩ := marked_columns s c hm h
    have h1 := (hc i).2 ⟨_, hi⟩
    have h2 := (hc j).2 ⟨_, hj⟩
    have uniq : ∀ a, Marked s i (some a) → False := by
      rintro a ⟨g, hg, hga⟩
      obtain ⟨f, hf, hfa⟩ := hi
      rw [hf] at hg
      cases hg
      rw [hfa] at hga
      cases hga
    rcases pair_or h1 h2 hne with hs | hs
    · obtain ⟨a, b, ha, -, -⟩ := List.pairwise_iff_forall_sublist.1 hp hs
      exact uniq a ha
    · obtain ⟨a, b, -, hb, -⟩ := List.pairwise_iff_forall_sublist.1 hp hs
      exact uniq b hb

/-- A marker that is a decimal number below 2^32, with any number of leading zeros, is read as that
number. -/
theorem numeric_marker (f : Field) (w n : Nat) (hw : n < 10 ^ (w + 1)) (hn : n < 2 ^ 32)
    (h : f.mark = some (Tonbo.Model.Wal.decDigits (w + 1) n)) : markOf f = some (some n) := by
  have hd : ∀ (w n : Nat) (c : Char), c ∈ Tonbo.Model.Wal.decDigits w n → ∃ d, d < 10 ∧ c = Tonbo.Model.Wal.digitChar d := by
    intro w
    induction w with
    | zero => intro n c hc; cases hc
    | succ w ih =>
      intro n c hc
      simp only [Tonbo.Model.Wal.decDigits, List.mem_append, List.mem_singleton] at hc
      rcases hc with hc | rfl
      · exact ih _ _ hc
      · exact ⟨n % 10, Nat.mod_lt _ (by omega), rfl⟩
  have hws : ∀ d, d < 10 → isWs (Tonbo.Model.Wal.digitChar d) = false := by decide
  have ht : trim (Tonbo.Model.Wal.decDigits (w + 1) n) = Tonbo.Model.Wal.decDigits (w + 1) n := by
    apply trimBy_id
    · intro c hc
      obtain ⟨d, hd, rfl⟩ := hd _ _ c (List.mem_of_mem_head? hc)
      exact hws d hd
    · intro c hc
      obtain ⟨d, hd, rfl⟩ := hd _ _ c (List.mem_of_getLast? hc)
      exact hws d hd
  have hlen := Tonbo.Lemmas.SegName.dec_len (w + 1) n
  have hplus : Tonbo.Model.Wal.dropPlus (Tonbo.Model.Wal.decDigits (w + 1) n) = Tonbo.Model.Wal.decDigits (w + 1) n := by
    cases hc : Tonbo.Model.Wal.decDigits (w + 1) n with
    | nil => rfl
    | cons c cs =>
      obtain ⟨d, hd, rfl⟩ := hd _ _ c (by rw [hc]; simp)
      have := Tonbo.Lemmas.SegName.digit_ne_plus d hd
      unfold Tonbo.Model.Wal.dropPlus
      split
      · rename_i heq
        rw [List.cons.injEq] at heq
        exact absurd heq.1 this
      · rfl
  have hp : parseU32 (Tonbo.Model.Wal.decDigits (w + 1) n) = some n := by
    unfold parseU32
    rw [hplus, if_neg (by intro e; rw [e] at hlen; simp at hlen), Tonbo.Lemmas.SegName.value_dec,
      Nat.mod_eq_of_lt hw]
    simp only
    rw [if_pos (by simpa using hn)]
  unfold markOf
  rw [h]
  simp only
  rw [ht, hp]

/-! ## Where the declaration is not honoured -/

def col (name : String) (mark : Option String := none) : Field := ⟨name.toList, .utf8, mark.map (·.toList)⟩

/-- A table whose key is the column `a,b` becomes, when its schema is read back, one with the key
`(a, b)`. -/
theorem a_comma_changes_the_key : ∃ (b : Builder) (c c' : Config), b.withMetadata.build = .ok c ∧
    Unmarked b.schema ∧ fromMetadata c.schema = .ok c' ∧
    primaryKeyColumns c = ["a,b".toList] ∧ primaryKeyColumns c' = ["a".toList, "b".toList] :=
  ⟨(Builder.new ⟨[col "a,b", col "a", col "b"], none⟩).primaryKey "a,b".toList,
    ⟨⟨[col "a,b", col "a", col "b"], some "[\"a,b\"]".toList⟩, [0]⟩,
    ⟨⟨[col "a,b", col "a", col "b"], some "[\"a,b\"]".toList⟩, [1, 2]⟩, by decide +kernel, by unfold Unmarked; decide +kernel,
    by decide +kernel, by decide +kernel, by decide +kernel⟩

/-- A marker on another field wins over the key that was declared with the builder. -/
theorem a_marker_changes_the_key : ∃ (b : Builder) (c c' : Config), b.withMetadata.build = .ok c ∧
    (∀ n ∈ b.parts, Plain n) ∧ fromMetadata c.schema = .ok c' ∧
    primaryKeyColumns c = ["id".toList] ∧ primaryKeyColumns c' = ["ts".toList] :=
  ⟨(Builder.new ⟨[col "id", col "ts" (some "true")], none⟩).primaryKey "id".toList,
    ⟨⟨[col "id", col "ts" (some "true")], some "[\"id\"]".toList⟩, [0]⟩,
    ⟨⟨[col "id", col "ts" (some "true")], some "[\"id\"]".toList⟩, [1]⟩, by decide +kernel, by unfold Plain; decide +kernel,
    by decide +kernel, by decide +kernel, by decide +kernel⟩

/-- A column number that is too large is not refused: the call panics. -/
theorem a_wrong_column_number_panics (s : Schema) (i : Nat) (h : s.fields.length ≤ i) :
    fromKeyIndices s [i] = .error .panic := by
  unfold fromKeyIndices configFor
  rw [if_neg (by simp)]
  simp only [checkTypes]
  rw [List.getElem?_eq_none h]

/-! ## The hypotheses are met -/

example : ((Builder.new ⟨[col "id", col "ts", col "v"], none⟩).compositeKey ["ts".toList, "id".toList]).withMetadata.build =
    .ok ⟨⟨[col "id", col "ts", col "v"], some "[\"ts\",\"id\"]".toList⟩, [1, 0]⟩ := by decide +kernel

example : fromMetadata ⟨[col "id", col "ts", col "v"], some "[\"ts\",\"id\"]".toList⟩ =
    .ok ⟨⟨[col "id", col "ts", col "v"], some "[\"ts\",\"id\"]".toList⟩, [1, 0]⟩ := by decide +kernel

example : fromMetadata ⟨[col "a" (some "2"), col "b", col "c" (some " 1 "), col "d" (some "2")], none⟩ =
    .ok ⟨⟨[col "a" (some "2"), col "b", col "c" (some " 1 "), col "d" (some "2")], none⟩, [2, 0, 3]⟩ := by decide +kernel

example : ¬ Unmarked ⟨[col "a" (some "2"), col "b"], none⟩ := by unfold Unmarked; decide +kernel

example : Marked ⟨[col "a" (some "2"), col "b" (some "yes")], none⟩ 1 none ∧
    Marked ⟨[col "a" (some "2"), col "b" (some "yes")], none⟩ 0 (some 2) :=
  ⟨⟨col "b" (some "yes"), by decide +kernel, by decide +kernel⟩, ⟨col "a" (some "2"), by decide +kernel, by decide +kernel⟩⟩

example : fromMetadata ⟨[col "a" (some "2"), col "b" (some "yes")], none⟩ =
    .error (.noSuchField "multiple tonbo.key markers require numeric ordinals".toList) := by decide +kernel

example : ((Builder.new ⟨[col "id"], none⟩).addKeyPart "key".toList).build = .error (.noSuchField "key".toList) := by
  decide +kernel

example : markOf (col "a" (some "007")) = some (some 7) := by decide +kernel

end Tonbo.Props.C57
