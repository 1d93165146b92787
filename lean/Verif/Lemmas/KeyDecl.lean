import Verif.Spec.KeyDeclView
import Mathlib.Data.List.Infix
import Mathlib.Data.List.Perm.Basic
import Mathlib.Tactic.SplitIfs

/-! # Lemmas about key declarations -/

namespace Tonbo.Lemmas.KeyDecl
open Tonbo.Model.KeyDecl Tonbo.Spec.KeyDecl

/-! ## Trimming -/

theorem trimBy_id {p : Char → Bool} {s : List Char} (h1 : ∀ c, s.head? = some c → p c = false)
    (h2 : ∀ c, s.getLast? = some c → p c = false) : trimBy p s = s := by
  have a : s.dropWhile p = s := by
    cases s with
    | nil => rfl
    | cons c cs => rw [List.dropWhile_cons, h1 c rfl]; rfl
  have b : s.reverse.dropWhile p = s.reverse := by
    cases hs : s.reverse with
    | nil => rfl
    | cons c cs =>
      have : s.getLast? = some c := by rw [← List.head?_reverse, hs]; rfl
      rw [List.dropWhile_cons, h2 c this]; rfl
  unfold trimBy
  rw [a, b, List.reverse_reverse]

theorem trimBy_last {p : Char → Bool} {s : List Char} (c : Char) (h : (trimBy p s).getLast? = some c) : p c = false := by
  unfold trimBy at h
  rw [List.getLast?_reverse] at h
  have := List.head?_dropWhile_not p ((s.dropWhile p).reverse)
  rw [h] at this
  simpa using this

theorem dropWhile_sub (p : Char → Bool) (s : List Char) : ∀ c ∈ s.dropWhile p, c ∈ s :=
  fun _ h => (List.dropWhile_suffix p).subset h

theorem trimBy_sub (p : Char → Bool) (s : List Char) : ∀ c ∈ trimBy p s, c ∈ s := by
  intro c h
  unfold trimBy at h
  rw [List.mem_reverse] at h
  have := dropWhile_sub p _ c h
  rw [List.mem_reverse] at this
  exact dropWhile_sub p _ c this

theorem dropWhile_getLast {p : Char → Bool} : ∀ {s : List Char} {c : Char}, s.getLast? = some c → p c = false →
    (s.dropWhile p).getLast? = some c
  | [], _, h, _ => by cases h
  | d :: s, c, h, hc => by
    rw [List.dropWhile_cons]
    split
    · rename_i hd
      cases s with
      | nil =>
        simp only [List.getLast?_singleton, Option.some.injEq] at h
        subst h; rw [hc] at hd; cases hd
      | cons e s => exact dropWhile_getLast (by rw [List.getLast?_cons_cons] at h; exact h) hc
    · exact h

theorem trimBy_head {p : Char → Bool} {s : List Char} (c : Char) (h : (trimBy p s).head? = some c) : p c = false := by
  unfold trimBy at h
  rw [List.head?_reverse] at h
  have hne : (s.dropWhile p).reverse.dropWhile p ≠ [] := by
    intro h'; rw [h'] at h; cases h
  have hsuf := List.dropWhile_suffix (l := (s.dropWhile p).reverse) p
  have : ((s.dropWhile p).reverse).getLast? = some c := by
    obtain ⟨t, ht⟩ := hsuf
    rw [← ht, List.getLast?_append, h]; rfl
  rw [List.getLast?_reverse] at this
  have hx := List.head?_dropWhile_not p s
  rw [this] at hx
  simpa using hx

/-- Between two quotes: what is left when the text does not begin or end with one. -/
theorem trimQuotes_quoted {s : List Char} (hne : s ≠ []) (h1 : s.head? ≠ some '"') (h2 : s.getLast? ≠ some '"') :
    trimQuotes ('"' :: (s ++ ['"'])) = s := by
  have a : ('"' :: (s ++ ['"'])).dropWhile (fun c => c == '"') = s ++ ['"'] := by
    rw [List.dropWhile_cons]
    simp only [beq_self_eq_true, if_true]
    cases s with
    | nil => exact absurd rfl hne
    | cons c cs =>
      have : c ≠ '"' := fun h => h1 (by rw [h]; rfl)
      rw [List.cons_append, List.dropWhile_cons]
      simp [this]
  have b : (s ++ ['"']).reverse.dropWhile (fun c => c == '"') = s.reverse := by
    rw [List.reverse_append]
    simp only [List.reverse_cons, List.reverse_nil, List.nil_append, List.singleton_append]
    rw [List.dropWhile_cons]
    simp only [beq_self_eq_true, if_true]
    cases hs : s.reverse with
    | nil => rfl
    | cons c cs =>
      have : c ≠ '"' := by
        intro h
        apply h2
        rw [← List.head?_reverse, hs, h]; rfl
      rw [List.dropWhile_cons]
      simp [this]
  unfold trimQuotes trimBy
  rw [a, b, List.reverse_reverse]

/-! ## Escapes -/

theorem hexDigit_ne (n : Nat) (h : n < 16) : hexDigit n ≠ ',' ∧ hexDigit n ≠ '"' := by
  have : ∀ n : Fin 16, hexDigit n ≠ ',' ∧ hexDigit n ≠ '"' := by decide
  exact this ⟨n, h⟩

/-- The characters written for one character. -/
theorem jsonChar_cases (c : Char) :
    (jsonChar c = [c] ∧ c ≠ '"' ∧ c ≠ '\\' ∧ 32 ≤ c.toNat) ∨
    (¬ (c ≠ '"' ∧ c ≠ '\\' ∧ 32 ≤ c.toNat) ∧ 2 ≤ (jsonChar c).length ∧ (jsonChar c).head? = some '\\' ∧
      ',' ∉ jsonChar c ∧ ((jsonChar c).getLast? = some '"' → c = '"')) := by
  unfold jsonChar
  by_cases h1 : c = '"'
  · right; rw [if_pos h1]; simp [h1]
  rw [if_neg h1]
  by_cases h2 : c = '\\'
  · right; rw [if_pos h2]; simp [h2]
  rw [if_neg h2]
  by_cases h3 : c.toNat = 8
  · right; rw [if_pos h3]; simp; omega
  rw [if_neg h3]
  by_cases h4 : c.toNat = 12
  · right; rw [if_pos h4]; simp; omega
  rw [if_neg h4]
  by_cases h5 : c.toNat = 10
  · right; rw [if_pos h5]; simp; omega
  rw [if_neg h5]
  by_cases h6 : c.toNat = 13
  · right; rw [if_pos h6]; simp; omega
  rw [if_neg h6]
  by_cases h7 : c.toNat = 9
  · right; rw [if_pos h7]; simp; omega
  rw [if_neg h7]
  by_cases h8 : c.toNat < 32
  · right
    rw [if_pos h8]
    have a := hexDigit_ne (c.toNat / 16) (by omega)
    have b := hexDigit_ne (c.toNat % 16) (by omega)
    simp only [List.length_cons, List.length_nil, List.head?_cons, List.mem_cons, List.not_mem_nil]
    refine ⟨by omega, by omega, trivial, ?_, ?_⟩
    · rintro (h | h | h | h | h | h | h)
      · cases h
      · cases h
      · cases h
      · cases h
      · exact a.1 h.symm
      · exact b.1 h.symm
      · exact h
    · intro h
      simp only [List.getLast?_cons_cons, List.getLast?_singleton, Option.some.injEq] at h
      exact absurd h b.2
  · left
    rw [if_neg h8]
    exact ⟨rfl, h1, h2, by omega⟩

theorem escape_no_comma {s : List Char} (h : ',' ∉ s) : ',' ∉ jsonString s := by
  unfold jsonString
  intro hm
  rcases List.mem_cons.1 hm with h' | h'
  · cases h'
  rcases List.mem_append.1 h' with h' | h'
  · obtain ⟨c, hc, hm⟩ := List.mem_flatMap.1 h'
    rcases jsonChar_cases c with ⟨e, -⟩ | ⟨-, -, -, hn, -⟩
    · rw [e] at hm
      have := List.mem_singleton.1 hm
      subst this
      exact h hc
    · exact hn hm
  · simp at h'

theorem escape_len (s : List Char) : s.length ≤ (s.flatMap jsonChar).length ∧
    ((s.flatMap jsonChar).length = s.length → ∀ c ∈ s, c ≠ '"' ∧ c ≠ '\\' ∧ 32 ≤ c.toNat) := by
  induction s with
  | nil => simp
  | cons c s ih =>
    rw [List.flatMap_cons, List.length_append, List.length_cons]
    rcases jsonChar_cases c with ⟨e, h⟩ | ⟨-, h, -⟩
    · rw [e]
      simp only [List.length_cons, List.length_nil]
      refine ⟨by omega, fun hl => ?_⟩
      intro d hd
      rcases List.mem_cons.1 hd with rfl | hd
      · exact h
      · exact ih.2 (by omega) d hd
    · exact ⟨by omega, fun hl => by omega⟩

theorem escape_plain {s : List Char} (h : ∀ c ∈ s, c ≠ '"' ∧ c ≠ '\\' ∧ 32 ≤ c.toNat) : s.flatMap jsonChar = s := by
  induction s with
  | nil => rfl
  | cons c s ih =>
    rw [List.flatMap_cons, ih (fun d hd => h d (List.mem_cons_of_mem _ hd))]
    rcases jsonChar_cases c with ⟨e, -⟩ | ⟨hn, -⟩
    · rw [e]; rfl
    · exact absurd (h c List.mem_cons_self) hn

theorem escape_head {s : List Char} (h : s.head? ≠ some '"') : (s.flatMap jsonChar).head? ≠ some '"' := by
  cases s with
  | nil => simp
  | cons c s =>
    rw [List.flatMap_cons]
    rcases jsonChar_cases c with ⟨e, h', -⟩ | ⟨-, -, h', -⟩
    · rw [e]; simpa using h'
    · rw [List.head?_append, h']; simp

theorem escape_last {s : List Char} (h : s.getLast? ≠ some '"') : (s.flatMap jsonChar).getLast? ≠ some '"' := by
  rcases List.eq_nil_or_concat s with rfl | ⟨t, c, rfl⟩
  · simp
  · rw [List.concat_eq_append] at h ⊢
    rw [List.flatMap_append, List.getLast?_append]
    simp only [List.getLast?_append, List.getLast?_singleton, ne_eq] at h
    simp only [List.flatMap_cons, List.flatMap_nil, List.append_nil]
    rcases jsonChar_cases c with ⟨e, h', -⟩ | ⟨-, hl, -, -, h'⟩
    · rw [e]; simpa using h'
    · have hne : jsonChar c ≠ [] := by intro e; rw [e] at hl; simp at hl
      cases hg : (jsonChar c).getLast? with
      | none => exact absurd (List.getLast?_eq_none_iff.1 hg) hne
      | some d =>
        simp only [ne_eq]
        simp only [Option.some_or, Option.some.injEq]
        rintro rfl
        exact absurd (h' hg) (by simpa using h)

/-! ## The list of names -/

theorem trim_jsonString (s : List Char) : trim (jsonString s) = jsonString s := by
  apply trimBy_id
  · intro c h
    simp only [jsonString, List.head?_cons, Option.some.injEq] at h
    subst h; decide
  · intro c h
    rw [jsonString, ← List.cons_append, List.getLast?_append] at h
    simp only [List.getLast?_singleton, Option.some_or, Option.some.injEq] at h
    subst h; decide

theorem trim_jsonNames (names : List (List Char)) : trim (jsonNames names) = jsonNames names := by
  apply trimBy_id
  · intro c h
    simp only [jsonNames, List.head?_cons, Option.some.injEq] at h
    subst h; decide
  · intro c h
    rw [jsonNames, ← List.cons_append, List.getLast?_append] at h
    simp only [List.getLast?_singleton, Option.some_or, Option.some.injEq] at h
    subst h; decide

theorem parse_jsonNames (names : List (List Char)) :
    parseNamesList (jsonNames names) = parseInner ([','].intercalate (names.map jsonString)) := by
  unfold parseNamesList
  rw [trim_jsonNames]
  have h1 : (jsonNames names).head? = some '[' := rfl
  have h2 : (jsonNames names).getLast? = some ']' := by
    rw [jsonNames, ← List.cons_append, List.getLast?_append]; rfl
  have h3 : (jsonNames names).tail.dropLast = [','].intercalate (names.map jsonString) := by
    simp only [jsonNames, List.tail_cons, List.dropLast_concat]
  rw [if_pos ⟨h1, h2⟩, h3]

theorem splitOn_no_sep {x : Char} : ∀ (s : List Char), ∀ p ∈ s.splitOn x, x ∉ p := by
  intro s
  induction s with
  | nil => simp
  | cons c s ih =>
    intro p hp
    rw [List.splitOn_cons_eq_if_modifyHead] at hp
    split at hp
    · rcases List.mem_cons.1 hp with rfl | hp
      · simp
      · exact ih p hp
    · rename_i hc
      have hne := List.splitOn_ne_nil x s
      cases hs : s.splitOn x with
      | nil => exact absurd hs hne
      | cons q qs =>
        rw [hs] at hp ih
        simp only [List.modifyHead_cons] at hp
        rcases List.mem_cons.1 hp with rfl | hp
        · have := ih q List.mem_cons_self
          simp only [List.mem_cons, not_or]
          exact ⟨fun h => hc (by rw [h]; simp), this⟩
        · exact ih p (List.mem_cons_of_mem _ hp)

theorem parsePart_sub (s : List Char) : ∀ c ∈ parsePart s, c ∈ s :=
  fun c h => trimBy_sub _ _ c (trimBy_sub _ _ c h)

theorem parseInner_no_comma (s : List Char) : ∀ p ∈ parseInner s, ',' ∉ p := by
  intro p hp hc
  unfold parseInner at hp
  obtain ⟨hp, -⟩ := List.mem_filter.1 hp
  obtain ⟨q, hq, rfl⟩ := List.mem_map.1 hp
  exact splitOn_no_sep s q hq (parsePart_sub q _ hc)

theorem parsePart_plain {n : List Char} (h : Plain n) : parsePart (jsonString n) = n := by
  unfold parsePart
  rw [trim_jsonString, jsonString, escape_plain (fun c hc => (h.2 c hc).2)]
  refine trimQuotes_quoted h.1 ?_ ?_
  · intro e
    exact (h.2 '"' (List.mem_of_mem_head? e)).2.1 rfl
  · intro e
    exact (h.2 '"' (List.mem_of_getLast? e)).2.1 rfl

theorem plain_of_parsePart {n : List Char} (hne : n ≠ []) (hc : ',' ∉ n) (h : parsePart (jsonString n) = n) : Plain n := by
  refine ⟨hne, ?_⟩
  unfold parsePart at h
  rw [trim_jsonString] at h
  have h1 : n.head? ≠ some '"' := by
    intro e
    rw [← h] at e
    have := trimBy_head _ e
    simp at this
  have h2 : n.getLast? ≠ some '"' := by
    intro e
    rw [← h] at e
    have := trimBy_last _ e
    simp at this
  have he : n.flatMap jsonChar ≠ [] := by
    intro e
    have := (escape_len n).1
    rw [e] at this
    simp at this
    exact hne this
  rw [jsonString, trimQuotes_quoted he (escape_head h1) (escape_last h2)] at h
  have := (escape_len n).2 (by rw [h])
  intro c hcn
  exact ⟨fun e => hc (e ▸ hcn), this c hcn⟩

theorem filter_len_eq {α : Type} {p : α → Bool} {l m : List α} (h : l.filter p = m) (hl : m.length = l.length) :
    l = m ∧ ∀ a ∈ l, p a = true := by
  have hlen : (l.filter p).length = l.length := by rw [h, hl]
  have := List.length_filter_eq_length_iff.1 hlen
  exact ⟨by rw [← h, List.filter_eq_self.2 this], this⟩

/-- The list written by the builder reads back as itself exactly when every name is plain. -/
theorem names_round_trip (names : List (List Char)) :
    parseNamesList (jsonNames names) = names ↔ ∀ n ∈ names, Plain n := by
  rw [parse_jsonNames]
  constructor
  · intro h n hn
    have hc : ∀ n ∈ names, ',' ∉ n := by
      intro m hm
      rw [← h] at hm
      exact parseInner_no_comma _ m hm
    have hne : names.map jsonString ≠ [] := by
      intro e
      rw [List.map_eq_nil_iff] at e
      subst e; cases hn
    unfold parseInner at h
    rw [List.splitOn_intercalate (hls := hne)] at h
    · obtain ⟨h, hp⟩ := filter_len_eq h (by simp)
      have hf : parsePart (jsonString n) = n := by
        rw [List.map_map] at h
        have : ∀ l : List (List Char), l.map (parsePart ∘ jsonString) = l → ∀ n ∈ l, parsePart (jsonString n) = n := by
          intro l
          induction l with
          | nil => intro _ n hn; cases hn
          | cons a l ih =>
            intro h n hn
            rw [List.map_cons, List.cons.injEq] at h
            rcases List.mem_cons.1 hn with rfl | hn
            · exact h.1
            · exact ih h.2 n hn
        exact this names h n hn
      have hnn : n ≠ [] := by
        have := hp n (by rw [h]; exact hn)
        simpa using this
      exact plain_of_parsePart hnn (hc n hn) hf
    · intro l hl
      obtain ⟨m, hm, rfl⟩ := List.mem_map.1 hl
      exact escape_no_comma (hc m hm)
  · intro h
    unfold parseInner
    cases names with
    | nil => decide
    | cons a as =>
      rw [List.splitOn_intercalate]
      · rw [List.map_map]
        have : (a :: as).map (parsePart ∘ jsonString) = a :: as := by
          conv => rhs; rw [← List.map_id (a :: as)]
          exact List.map_congr_left (fun n hn => parsePart_plain (h n hn))
        rw [this, List.filter_eq_self]
        intro n hn
        simpa using (h n hn).1
      · intro l hl
        obtain ⟨m, hm, rfl⟩ := List.mem_map.1 hl
        exact escape_no_comma (fun hc => ((h m hm).2 _ hc).1 rfl)
      · simp

/-! ## Columns -/

theorem findField_some {s : Schema} {n : List Char} {i : Nat} : findField s n = some i ↔ IsFirst s n i := by
  unfold findField IsFirst
  rw [List.findIdx?_eq_some_iff_getElem]
  constructor
  · rintro ⟨hi, h1, h2⟩
    refine ⟨⟨s.fields[i], List.getElem?_eq_getElem hi, by simpa using h1⟩, ?_⟩
    intro j hj f hf
    have := h2 j hj
    rw [List.getElem?_eq_getElem (by omega)] at hf
    cases hf
    simpa using this
  · rintro ⟨⟨f, hf, hn⟩, h2⟩
    obtain ⟨hi, rfl⟩ := List.getElem?_eq_some_iff.1 hf
    refine ⟨hi, by simpa using hn, ?_⟩
    intro j hj
    have := h2 j hj _ (List.getElem?_eq_getElem (by omega))
    simpa using this

theorem findField_none {s : Schema} {n : List Char} : findField s n = none ↔ ∀ f ∈ s.fields, f.name ≠ n := by
  unfold findField
  rw [List.findIdx?_eq_none_iff]
  constructor
  · intro h f hf
    simpa using h f hf
  · intro h f hf
    simpa using h f hf

theorem lookupAll_ok {s : Schema} : ∀ {ns : List (List Char)} {is : List Nat},
    lookupAll s ns = .ok is ↔ NamedColumns s ns is
  | [], is => by
    simp only [lookupAll, NamedColumns, Except.ok.injEq, List.forall₂_nil_left_iff]
    exact eq_comm
  | n :: ns, is => by
    unfold NamedColumns
    simp only [lookupAll]
    constructor
    · intro h
      cases hf : findField s n with
      | none => rw [hf] at h; cases h
      | some i =>
        rw [hf] at h
        simp only at h
        cases hl : lookupAll s ns with
        | error e => rw [hl] at h; cases h
        | ok js =>
          rw [hl] at h
          cases h
          exact List.Forall₂.cons (findField_some.1 hf) (lookupAll_ok.1 hl)
    · intro h
      cases h with
      | cons h1 h2 => rw [findField_some.2 h1, lookupAll_ok.2 h2]

theorem lookupAll_error {s : Schema} : ∀ {ns : List (List Char)} {e : Err},
    lookupAll s ns = .error e → ∃ n ∈ ns, e = .noSuchField n ∧ ∀ f ∈ s.fields, f.name ≠ n
  | [], e, h => by cases h
  | n :: ns, e, h => by
    simp only [lookupAll] at h
    cases hf : findField s n with
    | none =>
      rw [hf] at h
      cases h
      exact ⟨n, List.mem_cons_self, rfl, findField_none.1 hf⟩
    | some i =>
      rw [hf] at h
      simp only at h
      cases hl : lookupAll s ns with
      | error e' =>
        rw [hl] at h
        cases h
        obtain ⟨m, hm, h⟩ := lookupAll_error hl
        exact ⟨m, List.mem_cons_of_mem _ hm, h⟩
      | ok js => rw [hl] at h; cases h

theorem checkTypes_ok {s : Schema} : ∀ {cols : List Nat}, checkTypes s cols = .ok () ↔ Usable s cols
  | [] => by simp [checkTypes, Usable]
  | c :: cols => by
    simp only [checkTypes]
    cases hc : s.fields[c]? with
    | none =>
      simp only
      constructor
      · intro h; cases h
      · intro h
        obtain ⟨f, hf, -⟩ := h c List.mem_cons_self
        rw [hc] at hf; cases hf
    | some f =>
      simp only
      by_cases ht : supported f.type
      · rw [if_pos ht, checkTypes_ok]
        constructor
        · intro h i hi
          rcases List.mem_cons.1 hi with rfl | hi
          · refine ⟨f, hc, fun e => ?_⟩
            rw [e] at ht; cases ht
          · exact h i hi
        · exact fun h i hi => h i (List.mem_cons_of_mem _ hi)
      · rw [if_neg ht]
        constructor
        · intro h; cases h
        · intro h
          obtain ⟨g, hg, hn⟩ := h c List.mem_cons_self
          rw [hc] at hg
          cases hg
          exact absurd (by revert hn; cases f.type <;> simp [supported]) ht

theorem configFor_ok {s : Schema} {cols : List Nat} {c : Config} :
    configFor s cols = .ok c ↔ cols ≠ [] ∧ Usable s cols ∧ c = ⟨s, cols⟩ := by
  unfold configFor
  by_cases h : cols = []
  · rw [if_pos h]
    constructor
    · intro h'; cases h'
    · exact fun h' => absurd h h'.1
  · rw [if_neg h]
    cases hc : checkTypes s cols with
    | error e =>
      simp only
      constructor
      · intro h'; cases h'
      · rintro ⟨-, h', -⟩
        rw [checkTypes_ok.2 h'] at hc
        cases hc
    | ok u =>
      cases u
      simp only [Except.ok.injEq]
      exact ⟨fun h' => ⟨h, checkTypes_ok.1 hc, h'.symm⟩, fun h' => h'.2.2.symm⟩

theorem fromKeyCol_eq {s : Schema} {col : Nat} (h : col < s.fields.length) : fromKeyCol s col = configFor s [col] := by
  unfold fromKeyCol
  rw [if_neg (by omega)]

/-- Reading names from the schema is the same as looking them up one by one. -/
theorem fromNames_eq (s : Schema) (names : List (List Char)) (hne : names ≠ []) :
    fromNames s names = match lookupAll s names with
      | .error e => .error e
      | .ok is => configFor s is := by
  match names, hne with
  | [n], _ =>
    simp only [fromNames, fromKeyName, lookupAll]
    cases hf : findField s n with
    | none => rfl
    | some i =>
      simp only
      obtain ⟨⟨f, hf, -⟩, -⟩ := findField_some.1 hf
      obtain ⟨hi, -⟩ := List.getElem?_eq_some_iff.1 hf
      exact fromKeyCol_eq hi
  | a :: b :: r, _ => rfl

theorem isFirst_inj {s : Schema} {m n : List Char} {i : Nat} (h1 : IsFirst s m i) (h2 : IsFirst s n i) : m = n := by
  obtain ⟨⟨f, hf, rfl⟩, -⟩ := h1
  obtain ⟨⟨g, hg, rfl⟩, -⟩ := h2
  rw [hf] at hg
  cases hg; rfl

theorem namedColumns_inj {s : Schema} : ∀ {ms ns : List (List Char)} {is : List Nat},
    NamedColumns s ms is → NamedColumns s ns is → ms = ns
  | [], ns, _, h1, h2 => by
    cases h1
    cases h2
    rfl
  | m :: ms, ns, _, h1, h2 => by
    cases h1 with
    | cons a b =>
      cases h2 with
      | cons c d => rw [isFirst_inj a c, namedColumns_inj b d]

/-! ## Markers -/

theorem marksFrom_mem : ∀ {fs : List Field} {i : Nat} {o : Option Nat} {j : Nat},
    (o, j) ∈ marksFrom i fs ↔ i ≤ j ∧ ∃ f, fs[j - i]? = some f ∧ markOf f = some o
  | [], i, o, j => by simp [marksFrom]
  | f :: fs, i, o, j => by
    have step : (∃ g, (f :: fs)[j - i]? = some g ∧ markOf g = some o) ∧ i ≤ j ↔
        (j = i ∧ markOf f = some o) ∨ (i + 1 ≤ j ∧ ∃ g, fs[j - (i + 1)]? = some g ∧ markOf g = some o) := by
      constructor
      · rintro ⟨⟨g, hg, hm⟩, hle⟩
        rcases Nat.eq_or_lt_of_le hle with rfl | hlt
        · rw [Nat.sub_self] at hg
          cases hg
          exact Or.inl ⟨rfl, hm⟩
        · have : j - i = (j - (i + 1)) + 1 := by omega
          rw [this, List.getElem?_cons_succ] at hg
          exact Or.inr ⟨hlt, g, hg, hm⟩
      · rintro (⟨rfl, hm⟩ | ⟨hle, g, hg, hm⟩)
        · exact ⟨⟨f, by simp, hm⟩, le_refl _⟩
        · refine ⟨⟨g, ?_, hm⟩, by omega⟩
          have : j - i = (j - (i + 1)) + 1 := by omega
          rw [this, List.getElem?_cons_succ]
          exact hg
    rw [and_comm (a := i ≤ j), step]
    simp only [marksFrom]
    cases hf : markOf f with
    | none =>
      simp only [reduceCtorEq, and_false, false_or]
      exact marksFrom_mem
    | some m =>
      simp only [List.mem_cons, Prod.mk.injEq, marksFrom_mem, Option.some.injEq]
      constructor
      · rintro (⟨rfl, rfl⟩ | h)
        · exact Or.inl ⟨rfl, rfl⟩
        · exact Or.inr h
      · rintro (⟨rfl, rfl⟩ | h)
        · exact Or.inl ⟨rfl, rfl⟩
        · exact Or.inr h

theorem marks_mem {s : Schema} {o : Option Nat} {j : Nat} : (o, j) ∈ marksFrom 0 s.fields ↔ Marked s j o := by
  rw [marksFrom_mem]
  simp [Marked]

theorem marksFrom_sorted : ∀ (fs : List Field) (i : Nat), (marksFrom i fs).Pairwise (fun a b => a.2 < b.2)
  | [], _ => List.Pairwise.nil
  | f :: fs, i => by
    simp only [marksFrom]
    cases markOf f with
    | none => exact marksFrom_sorted fs (i + 1)
    | some m =>
      refine List.Pairwise.cons ?_ (marksFrom_sorted fs (i + 1))
      rintro ⟨o, j⟩ hj
      have := (marksFrom_mem.1 hj).1
      exact this

theorem unmarked_iff {s : Schema} : marksFrom 0 s.fields = [] ↔ Unmarked s := by
  rw [List.eq_nil_iff_forall_not_mem]
  constructor
  · intro h f hf
    obtain ⟨i, hi, rfl⟩ := List.mem_iff_getElem.1 hf
    cases hm : markOf s.fields[i] with
    | none => rfl
    | some o => exact absurd (marks_mem.2 ⟨_, List.getElem?_eq_getElem hi, hm⟩) (h (o, i))
  · rintro h ⟨o, j⟩ hm
    obtain ⟨f, hf, hm⟩ := marks_mem.1 hm
    rw [h f (List.mem_of_getElem? hf)] at hm
    cases hm

end Tonbo.Lemmas.KeyDecl
