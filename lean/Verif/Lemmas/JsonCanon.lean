import Verif.Spec.JsonView
import Mathlib.Data.List.Sort
import Mathlib.Data.List.Nodup

/-! # Canonical JSON values -/

namespace Tonbo.Lemmas.JsonCanon
open Tonbo.Model.Fingerprint Tonbo.Spec.JsonView

abbrev Member := List Char × Json

theorem canonItems_eq : ∀ l : List Json, canonItems l = l.map canon
  | [] => by rw [canonItems]; rfl
  | j :: js => by rw [canonItems, canonItems_eq js]; rfl

theorem canonMembers_eq : ∀ l : List Member, canonMembers l = l.map (fun m => (m.1, canon m.2))
  | [] => by rw [canonMembers]; rfl
  | (k, j) :: r => by rw [canonMembers, canonMembers_eq r]; rfl

theorem properItems_iff : ∀ {l : List Json}, ProperItems l ↔ ∀ j ∈ l, Proper j
  | [] => by simp [ProperItems]
  | j :: js => by simp [ProperItems, properItems_iff]

theorem properMembers_iff : ∀ {l : List Member}, ProperMembers l ↔ ∀ m ∈ l, Proper m.2
  | [] => by simp [ProperMembers]
  | (k, j) :: r => by simp only [ProperMembers, properMembers_iff, List.forall_mem_cons]

theorem find_iff {l : List Member} (h : (l.map (·.1)).Nodup) {k : List Char} {m : Member} :
    l.find? (fun m => decide (m.1 = k)) = some m ↔ m ∈ l ∧ m.1 = k := by
  constructor
  · intro hf
    exact ⟨List.mem_of_find?_eq_some hf, by simpa using List.find?_some hf⟩
  · rintro ⟨hm, hk⟩
    induction l with
    | nil => cases hm
    | cons a l ih =>
      rw [List.map_cons, List.nodup_cons] at h
      rw [List.find?_cons]
      rcases List.mem_cons.1 hm with rfl | hm
      · simp [hk]
      · have : a.1 ≠ k := by
          rintro rfl
          exact h.1 (List.mem_map.2 ⟨m, hm, hk⟩)
        simp only [this, decide_false]
        exact ih h.2 hm

theorem find_perm {l l' : List Member} (hp : l.Perm l') (h : (l.map (·.1)).Nodup) (k : List Char) :
    l.find? (fun m => decide (m.1 = k)) = l'.find? (fun m => decide (m.1 = k)) := by
  have h' : (l'.map (·.1)).Nodup := (hp.map _).nodup_iff.1 h
  apply Option.ext
  intro m
  rw [find_iff h, find_iff h', hp.mem_iff]

theorem sort_perm (l : List Member) : (sortMembers l).Perm l := List.perm_insertionSort _ l

theorem keys_canon (l : List Member) : (canonMembers l).map (·.1) = l.map (·.1) := by
  rw [canonMembers_eq, List.map_map]
  rfl

theorem seen_canon (j : Json) : seen (canon j) = seen j := by
  cases j <;> simp [canon, seen, canonItems_eq]

theorem into_canon {j : Json} (h : Proper j) (s : Step) : into (canon j) s = (into j s).map canon := by
  match j, s, h with
  | .obj l, .member k, h =>
    simp only [Proper] at h
    rw [canon]
    simp only [into]
    rw [find_perm (sort_perm _) (by rw [((sort_perm _).map _).nodup_iff, keys_canon]; exact h.1), canonMembers_eq,
      List.find?_map]
    simp only [Option.map_map]
    rfl
  | .arr l, .item i, h =>
    rw [canon]
    simp only [into, canonItems_eq, List.getElem?_map]
  | .obj _, .item _, _ => rw [canon]; rfl
  | .arr _, .member _, _ => rw [canon]; rfl
  | .null, _, _ => rw [canon]; rfl
  | .bool _, _, _ => rw [canon]; rfl
  | .num _, _, _ => rw [canon]; rfl
  | .str _, _, _ => rw [canon]; rfl

theorem proper_into {j j' : Json} (h : Proper j) {s : Step} (hi : into j s = some j') : Proper j' := by
  match j, s, h, hi with
  | .obj l, .member k, h, hi =>
    simp only [Proper] at h
    simp only [into, Option.map_eq_some_iff] at hi
    obtain ⟨m, hm, rfl⟩ := hi
    exact properMembers_iff.1 h.2 m (List.mem_of_find?_eq_some hm)
  | .arr l, .item i, h, hi =>
    simp only [Proper] at h
    exact properItems_iff.1 h j' (List.mem_of_getElem? hi)

/-- A canonical value is the same as the value it was made from. -/
theorem look_canon {j : Json} (h : Proper j) (p : List Step) : look (canon j) p = look j p := by
  induction p generalizing j with
  | nil => simp only [look, seen_canon]
  | cons s p ih =>
    simp only [look]
    rw [into_canon h]
    cases hi : into j s with
    | none => rfl
    | some j' =>
      simp only [Option.map_some, Option.bind_some]
      exact ih (proper_into h hi)

theorem same_into {a b : Json} (h : Same a b) (s : Step) :
    (into a s = none ∧ into b s = none) ∨ ∃ a' b', into a s = some a' ∧ into b s = some b' ∧ Same a' b' := by
  cases ha : into a s with
  | none =>
    cases hb : into b s with
    | none => exact Or.inl ⟨rfl, rfl⟩
    | some b' =>
      have := h [s]
      simp [look, ha, hb] at this
  | some a' =>
    cases hb : into b s with
    | none =>
      have := h [s]
      simp [look, ha, hb] at this
    | some b' =>
      refine Or.inr ⟨a', b', rfl, rfl, fun p => ?_⟩
      have := h (s :: p)
      simpa [look, ha, hb] using this

theorem sorted_eq {l l' : List Member} (hp : l.Perm l') (hn : (l.map (·.1)).Nodup) : sortMembers l = sortMembers l' := by
  have : IsTrans Member (fun a b => a.1 ≤ b.1) := ⟨fun a b c h1 h2 => List.le_trans h1 h2⟩
  have : Std.Total (fun a b : Member => a.1 ≤ b.1) := ⟨fun a b => List.le_total a.1 b.1⟩
  refine List.Perm.eq_of_pairwise ?_ (List.pairwise_insertionSort (fun a b : Member => a.1 ≤ b.1) l)
    (List.pairwise_insertionSort (fun a b : Member => a.1 ≤ b.1) l')
    ((List.perm_insertionSort _ l).trans (hp.trans (List.perm_insertionSort _ l').symm))
  intro a b ha hb h1 h2
  have hk : a.1 = b.1 := List.le_antisymm h1 h2
  replace ha := (sort_perm l).mem_iff.1 ha
  replace hb := (sort_perm l').mem_iff.1 hb
  exact List.inj_on_of_nodup_map hn ha (hp.mem_iff.2 hb) hk

mutual
/-- Equal along every path: equal canonical values. -/
theorem canon_of_same : ∀ (a b : Json), Proper a → Proper b → Same a b → canon a = canon b
  | .obj l, b, ha, hb, h => by
    have hs := h []
    simp only [look, Option.some.injEq] at hs
    cases b with
    | obj l' =>
      rw [canon, canon]
      congr 1
      simp only [Proper] at ha hb
      refine sorted_eq ?_ (by rw [keys_canon]; exact ha.1)
      have n1 : (canonMembers l).Nodup := List.Nodup.of_map (·.1) (by rw [keys_canon]; exact ha.1)
      have n2 : (canonMembers l').Nodup := List.Nodup.of_map (·.1) (by rw [keys_canon]; exact hb.1)
      refine (List.perm_ext_iff_of_nodup n1 n2).2 ?_
      have step : ∀ k, (∀ v v', into (.obj l) (.member k) = some v → into (.obj l') (.member k) = some v' → canon v = canon v') := by
        intro k v v' hv hv'
        rcases same_into h (.member k) with ⟨e, -⟩ | ⟨a', b', e1, e2, hsame⟩
        · rw [hv] at e; cases e
        · rw [hv] at e1; rw [hv'] at e2
          cases e1; cases e2
          simp only [into, Option.map_eq_some_iff] at hv
          obtain ⟨m, hm, rfl⟩ := hv
          exact canon_of_same_members l m (List.mem_of_find?_eq_some hm) v' (properMembers_iff.1 ha.2) (proper_into (j := .obj l') (by simp only [Proper]; exact hb) hv') hsame
      rintro ⟨k, w⟩
      rw [canonMembers_eq, canonMembers_eq, List.mem_map, List.mem_map]
      have fi : ∀ v, (k, v) ∈ l → into (.obj l) (.member k) = some v := by
        intro v hv
        simp only [into]
        rw [(find_iff ha.1).2 ⟨hv, rfl⟩]; rfl
      have fi' : ∀ v, (k, v) ∈ l' → into (.obj l') (.member k) = some v := by
        intro v hv
        simp only [into]
        rw [(find_iff hb.1).2 ⟨hv, rfl⟩]; rfl
      constructor
      · rintro ⟨⟨k', v⟩, hm, he⟩
        simp only [Prod.mk.injEq] at he
        obtain ⟨rfl, rfl⟩ := he
        rcases same_into h (.member k') with ⟨e, -⟩ | ⟨a', b', e1, e2, -⟩
        · rw [fi v hm] at e; cases e
        · have e := step k' a' b' e1 e2
          rw [fi v hm] at e1
          cases e1
          simp only [into, Option.map_eq_some_iff] at e2
          obtain ⟨m, hf, rfl⟩ := e2
          obtain ⟨h1, h2⟩ := (find_iff hb.1).1 hf
          exact ⟨m, h1, by rw [h2, e]⟩
      · rintro ⟨⟨k', v⟩, hm, he⟩
        simp only [Prod.mk.injEq] at he
        obtain ⟨rfl, rfl⟩ := he
        rcases same_into h (.member k') with ⟨-, e⟩ | ⟨a', b', e1, e2, -⟩
        · rw [fi' v hm] at e; cases e
        · have e := step k' a' b' e1 e2
          rw [fi' v hm] at e2
          cases e2
          simp only [into, Option.map_eq_some_iff] at e1
          obtain ⟨m, hf, rfl⟩ := e1
          obtain ⟨h1, h2⟩ := (find_iff ha.1).1 hf
          exact ⟨m, h1, by rw [h2, e]⟩
    | null => cases hs
    | bool _ => cases hs
    | num _ => cases hs
    | str _ => cases hs
    | arr _ => cases hs
  | .arr l, b, ha, hb, h => by
    have hs := h []
    simp only [look, Option.some.injEq] at hs
    cases b with
    | arr l' =>
      simp only [seen, Seen.array.injEq] at hs
      rw [canon, canon]
      congr 1
      simp only [Proper] at ha hb
      rw [canonItems_eq, canonItems_eq]
      apply List.ext_getElem (by simpa using hs)
      intro i h1 h2
      rw [List.length_map] at h1 h2
      rw [List.getElem_map, List.getElem_map]
      rcases same_into h (.item i) with ⟨e, -⟩ | ⟨a', b', e1, e2, hsame⟩
      · simp only [into, List.getElem?_eq_getElem h1] at e; cases e
      · simp only [into, List.getElem?_eq_getElem h1, Option.some.injEq] at e1
        simp only [into, List.getElem?_eq_getElem h2, Option.some.injEq] at e2
        rw [e1, e2]
        exact canon_of_same_items l a' (e1 ▸ List.getElem_mem h1) b' (properItems_iff.1 ha)
          (properItems_iff.1 hb b' (e2 ▸ List.getElem_mem h2)) hsame
    | null => cases hs
    | bool _ => cases hs
    | num _ => cases hs
    | str _ => cases hs
    | obj _ => cases hs
  | .null, b, _, _, h => by
    have hs := h []
    simp only [look, Option.some.injEq] at hs
    cases b <;> simp_all [seen]
  | .bool x, b, _, _, h => by
    have hs := h []
    simp only [look, Option.some.injEq] at hs
    cases b <;> simp_all [seen]
  | .num x, b, _, _, h => by
    have hs := h []
    simp only [look, Option.some.injEq] at hs
    cases b <;> simp_all [seen]
  | .str x, b, _, _, h => by
    have hs := h []
    simp only [look, Option.some.injEq] at hs
    cases b <;> simp_all [seen]
theorem canon_of_same_members : ∀ (l : List Member) (m : Member), m ∈ l → ∀ (b : Json), (∀ m ∈ l, Proper m.2) →
    Proper b → Same m.2 b → canon m.2 = canon b
  | [], _, hm, _, _, _, _ => by cases hm
  | (k, j) :: r, m, hm, b, hl, hb, h => by
    by_cases he : m = (k, j)
    · subst he
      exact canon_of_same j b (hl _ List.mem_cons_self) hb h
    · exact canon_of_same_members r m ((List.mem_cons.1 hm).resolve_left he) b
        (fun m hm => hl m (List.mem_cons_of_mem _ hm)) hb h
theorem canon_of_same_items : ∀ (l : List Json) (j : Json), j ∈ l → ∀ (b : Json), (∀ j ∈ l, Proper j) →
    Proper b → Same j b → canon j = canon b
  | [], _, hm, _, _, _, _ => by cases hm
  | i :: r, j, hm, b, hl, hb, h => by
    by_cases he : j = i
    · rw [he] at h ⊢
      exact canon_of_same i b (hl _ List.mem_cons_self) hb h
    · exact canon_of_same_items r j ((List.mem_cons.1 hm).resolve_left he) b
        (fun m hm => hl m (List.mem_cons_of_mem _ hm)) hb h
end

/-- Canonical values decide sameness. -/
theorem canon_iff {a b : Json} (ha : Proper a) (hb : Proper b) : canon a = canon b ↔ Same a b := by
  constructor
  · intro h p
    rw [← look_canon ha, ← look_canon hb, h]
  · exact canon_of_same a b ha hb

end Tonbo.Lemmas.JsonCanon
