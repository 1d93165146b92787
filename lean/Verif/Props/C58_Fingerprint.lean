import Verif.Lemmas.JsonCanon
import Verif.Lemmas.JsonPrint
import Verif.Props.C51_Catalog

/-!
# C58: the fingerprint of a schema

SHA-256 is not modelled: it is any function, and where a theorem needs it, that it does not send these two
texts to one digest is a hypothesis.
-/

namespace Tonbo.Props.C58
open Tonbo.Model Tonbo.Model.Fingerprint Tonbo.Spec.JsonView Tonbo.Spec.CatalogView Tonbo.Lemmas.JsonCanon
open Tonbo.Lemmas.JsonPrint (print_injective)

/-- **C58.** The text that is hashed is the same for two schemas exactly if the schemas are the same. -/
theorem hashed_text_decides_schema {a b : Json} (ha : Proper a) (hb : Proper b) :
    print (canon a) = print (canon b) ↔ Same a b := by
  rw [← canon_iff ha hb]
  exact ⟨print_injective, fun h => by rw [h]⟩

/-- **C58.** One schema has one fingerprint, in whatever order its members are listed. -/
theorem same_schema_same_fingerprint (sha : List Char → String) {a b : Json} (ha : Proper a) (hb : Proper b)
    (h : Same a b) : fingerprint sha a = fingerprint sha b := by
  unfold fingerprint
  rw [(hashed_text_decides_schema ha hb).2 h]

/-- **C58.** Two schemas have one fingerprint exactly if they are the same, unless the digests of their two
texts collide. -/
theorem fingerprint_decides_schema (sha : List Char → String) {a b : Json} (ha : Proper a) (hb : Proper b)
    (hcol : sha (print (canon a)) = sha (print (canon b)) → print (canon a) = print (canon b)) :
    fingerprint sha a = fingerprint sha b ↔ Same a b :=
  ⟨fun h => (hashed_text_decides_schema ha hb).1 (hcol h), same_schema_same_fingerprint sha ha hb⟩

/-- **C58.** Opening a table again, after any history of the catalog: the table is found if schema and key
columns are the ones it was created with, and the opening is refused, changing nothing, if they are not. -/
theorem reopening {P : Type} (sha : List Char → String) (ops : List (Catalog.Op P)) (hids : (idsOf ops).Nodup)
    (name : String) (a b : Json) (ks ls : List String) (id0 id : Nat) (ha : Proper a) (hb : Proper b)
    (hfirst : first ops name = some (tableDefinition sha name a ks, id0))
    (hcol : sha (print (canon b)) = sha (print (canon a)) → print (canon b) = print (canon a)) :
    (Same b a ∧ ls = ks → (Catalog.register (Catalog.run ops) (tableDefinition sha name b ls) id).2 =
      .ok (tableOf (tableDefinition sha name a ks) id0)) ∧
    (¬ (Same b a ∧ ls = ks) → (Catalog.register (Catalog.run ops) (tableDefinition sha name b ls) id).2 =
      .error .conflict ∧ (Catalog.register (Catalog.run ops) (tableDefinition sha name b ls) id).1 = Catalog.run ops) := by
  have h := C51.register_answers ops hids (tableDefinition sha name b ls) id
  rw [show (tableDefinition sha name b ls).name = name from rfl, hfirst] at h
  simp only at h
  have hiff : tableDefinition sha name b ls = tableDefinition sha name a ks ↔ Same b a ∧ ls = ks := by
    rw [← fingerprint_decides_schema sha hb ha hcol]
    unfold tableDefinition
    simp only [Catalog.Def.mk.injEq, true_and, and_true]
  constructor
  · intro hs
    rw [if_pos (hiff.2 hs)] at h
    exact h.2
  · intro hs
    rw [if_neg (fun e => hs (hiff.1 e))] at h
    exact h.2

/-- The pruner cache holds for every fingerprint what was made for some schema asked for before. -/
theorem cache_entries {P : Type} (sha : List Char → String) (make : Json → Option P) (asked : List Json) :
    ∀ p ∈ asked.foldl (fun c s => (prunerFor sha make c s).1) [], ∃ s ∈ asked, fingerprint sha s = p.1 ∧ make s = some p.2 := by
  have step : ∀ (c : List (String × P)) (l : List Json),
      (∀ p ∈ c, ∃ s ∈ asked, fingerprint sha s = p.1 ∧ make s = some p.2) → (∀ s ∈ l, s ∈ asked) →
      ∀ p ∈ l.foldl (fun c s => (prunerFor sha make c s).1) c, ∃ s ∈ asked, fingerprint sha s = p.1 ∧ make s = some p.2 := by
    intro c l
    induction l generalizing c with
    | nil => intro hc _; exact hc
    | cons s l ih =>
      intro hc hl
      rw [List.foldl_cons]
      refine ih _ ?_ (fun x hx => hl x (List.mem_cons_of_mem _ hx))
      intro p hp
      unfold prunerFor at hp
      cases hf : (c.find? (fun p => decide (p.1 = fingerprint sha s))).map (·.2) with
      | some q => rw [hf] at hp; exact hc p hp
      | none =>
        rw [hf] at hp
        cases hm : make s with
        | none => rw [hm] at hp; exact hc p hp
        | some q =>
          rw [hm] at hp
          rcases List.mem_cons.1 hp with rfl | hp
          · exact ⟨s, hl s List.mem_cons_self, rfl, hm⟩
          · exact hc p hp
  exact step [] asked (fun p hp => by cases hp) (fun s hs => hs)

/-- **C58.** A scan is pruned with a pruner made for the schema it asks for, whatever scans came before on the
handle, and it is pruned whenever such a pruner can be made. -/
theorem pruner_fits_schema {P : Type} (sha : List Char → String) (make : Json → Option P) (asked : List Json) (s : Json)
    (hp : ∀ a ∈ s :: asked, Proper a)
    (hcol : ∀ a ∈ asked, sha (print (canon a)) = sha (print (canon s)) → print (canon a) = print (canon s)) :
    let answer := (prunerFor sha make (asked.foldl (fun c s => (prunerFor sha make c s).1) []) s).2
    (∀ p, answer = some p → ∃ s', Same s' s ∧ make s' = some p) ∧ (make s ≠ none → answer ≠ none) := by
  have hc := cache_entries sha make asked
  generalize asked.foldl (fun c s => (prunerFor sha make c s).1) [] = c at hc ⊢
  intro answer
  have he : answer = match (c.find? (fun p => decide (p.1 = fingerprint sha s))).map (·.2) with
      | some p => some p
      | none => make s := by
    change (prunerFor sha make c s).2 = _
    unfold prunerFor
    cases (c.find? (fun p => decide (p.1 = fingerprint sha s))).map (·.2) with
    | some p => rfl
    | none => cases hm : make s <;> simp only
  cases hf : (c.find? (fun p => decide (p.1 = fingerprint sha s))).map (·.2) with
  | none =>
    rw [hf] at he
    simp only at he
    exact ⟨fun p h => ⟨s, fun _ => rfl, by rw [← he, h]⟩, fun h => by rw [he]; exact h⟩
  | some q =>
    rw [hf] at he
    simp only at he
    refine ⟨fun p h => ?_, fun _ => by rw [he]; exact fun h => by cases h⟩
    rw [he] at h
    cases h
    obtain ⟨e, hfe, rfl⟩ := Option.map_eq_some_iff.1 hf
    obtain ⟨s', hs', h1, h2⟩ := hc e (List.mem_of_find?_eq_some hfe)
    have h3 : e.1 = fingerprint sha s := by simpa using List.find?_some hfe
    rw [h3] at h1
    exact ⟨s', (fingerprint_decides_schema sha (hp s' (List.mem_cons_of_mem _ hs')) (hp s List.mem_cons_self)
      (hcol s' hs')).1 h1, h2⟩

/-! ## Examples -/

/-- A schema of two fields, and the same with the members listed differently. -/
def exA : Json := .obj [("fields".toList, .arr [.obj [("name".toList, .str "id".toList), ("nullable".toList, .bool false),
    ("data_type".toList, .str "Utf8".toList), ("dict_id".toList, .num 0)],
  .obj [("name".toList, .str "v\"1\n".toList), ("data_type".toList, .obj [("FixedSizeBinary".toList, .num 16)]), ("nullable".toList, .bool true)]]),
  ("metadata".toList, .obj [])]
def exB : Json := .obj [("metadata".toList, .obj []),
  ("fields".toList, .arr [.obj [("data_type".toList, .str "Utf8".toList), ("dict_id".toList, .num 0), ("nullable".toList, .bool false),
    ("name".toList, .str "id".toList)],
  .obj [("nullable".toList, .bool true), ("name".toList, .str "v\"1\n".toList), ("data_type".toList, .obj [("FixedSizeBinary".toList, .num 16)])]])]
/-- The fields of `exA` in the other order: not the same schema. -/
def exC : Json := .obj [("fields".toList, .arr [.obj [("name".toList, .str "v\"1\n".toList), ("data_type".toList, .obj [("FixedSizeBinary".toList, .num 16)]), ("nullable".toList, .bool true)],
  .obj [("name".toList, .str "id".toList), ("nullable".toList, .bool false),
    ("data_type".toList, .str "Utf8".toList), ("dict_id".toList, .num 0)]]),
  ("metadata".toList, .obj [])]

theorem exA_proper : Proper exA := by
  simp only [exA, Proper, ProperMembers, ProperItems]; decide
theorem exB_proper : Proper exB := by
  simp only [exB, Proper, ProperMembers, ProperItems]; decide
theorem exC_proper : Proper exC := by
  simp only [exC, Proper, ProperMembers, ProperItems]; decide

/-- What is hashed for both. -/
theorem exA_text : print (canon exA) = ("{\"fields\":[{\"data_type\":\"Utf8\",\"dict_id\":0,\"name\":\"id\",\"nullable\":false}," ++
    "{\"data_type\":{\"FixedSizeBinary\":16},\"name\":\"v\\\"1\\n\",\"nullable\":true}],\"metadata\":{}}").toList := by
  decide +kernel

example : Same exA exB := (hashed_text_decides_schema exA_proper exB_proper).1 (by decide +kernel)

/-- The order of the fields is part of a schema. -/
example : ¬ Same exA exC := fun h =>
  absurd ((hashed_text_decides_schema exA_proper exC_proper).2 h) (by decide +kernel)

/-- Opening again with the members listed differently finds the table, whatever the hash; with the fields in
the other order the opening is refused, here with the text itself for its digest. -/
example : let d := tableDefinition String.ofList "t" exA ["id"]
    let ops : List (Catalog.Op Unit) := [.init, .register d 7]
    (idsOf ops).Nodup ∧ first ops "t" = some (d, 7) ∧
    (Catalog.register (Catalog.run ops) (tableDefinition String.ofList "t" exB ["id"]) 9).2 = .ok (tableOf d 7) ∧
    (Catalog.register (Catalog.run ops) (tableDefinition String.ofList "t" exC ["id"]) 9).2 = .error .conflict := by
  decide +kernel

end Tonbo.Props.C58
