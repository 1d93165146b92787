import Verif.Spec.KeyMarkView
import Verif.Props.C57_KeyDecl

/-!
# C57: markers, single columns, calls of the builder, delete batches
-/

namespace Tonbo.Props.C57
open Tonbo.Model.KeyDecl Tonbo.Spec.KeyDecl Tonbo.Lemmas.KeyDecl
open Tonbo.Model.Wal (digitsValue dropPlus)

/-! ## Markers -/

theorem isWs_iff (c : Char) : isWs c = true ↔ WhiteSpace c := by
  unfold isWs WhiteSpace
  simp only [Bool.or_eq_true, Bool.and_eq_true, decide_eq_true_eq, beq_iff_eq, List.mem_cons, List.not_mem_nil, or_false]
  constructor
  · intro h
    omega
  · intro h
    omega

private theorem digit_iff (c : Char) : (48 ≤ c.toNat ∧ c.toNat ≤ 57) ↔ ∃ d : Fin 10, c = digits[d] := by
  constructor
  · intro h
    have hc : c = Char.ofNat c.toNat := (Char.ofNat_toNat c).symm
    refine ⟨⟨c.toNat - 48, by omega⟩, ?_⟩
    have : ∀ n : Fin 10, Char.ofNat (48 + n) = digits[n] := by decide
    have h1 := this ⟨c.toNat - 48, by omega⟩
    rw [← h1]
    simp only
    rw [show 48 + (c.toNat - 48) = c.toNat by omega]
    exact hc
  · rintro ⟨d, rfl⟩
    revert d
    decide

private theorem digit_val (d : Fin 10) : (digits[d]).toNat - 48 = d ∧ 48 ≤ (digits[d]).toNat ∧ (digits[d]).toNat ≤ 57 := by
  revert d; decide

private theorem value_iff : ∀ (cs : List Char) (acc n : Nat), digitsValue cs acc = some n ↔
    ∃ ds : List (Fin 10), cs = ds.map (fun d => digits[d]) ∧ n = ds.foldl (fun a d => 10 * a + d.val) acc
  | [], acc, n => by
    unfold digitsValue
    constructor
    · intro h
      cases h
      exact ⟨[], rfl, rfl⟩
    · rintro ⟨ds, h, rfl⟩
      cases ds with
      | nil => rfl
      | cons _ _ => cases h
  | c :: cs, acc, n => by
    unfold digitsValue
    constructor
    · intro h
      split_ifs at h with hc
      obtain ⟨d, rfl⟩ := (digit_iff c).1 hc
      obtain ⟨ds, rfl, h'⟩ := (value_iff cs _ n).1 h
      refine ⟨d :: ds, rfl, ?_⟩
      rw [h', (digit_val d).1]
      simp only [List.foldl_cons]
      congr 1
      omega
    · rintro ⟨ds, h, rfl⟩
      cases ds with
      | nil => cases h
      | cons d ds =>
        simp only [List.map_cons, List.cons.injEq] at h
        obtain ⟨rfl, rfl⟩ := h
        rw [if_pos (digit_val d).2, (value_iff _ _ _).2 ⟨ds, rfl, rfl⟩, (digit_val d).1]
        simp only [List.foldl_cons]
        congr 2
        omega

private theorem parse_iff (t : List Char) (n : Nat) : parseU32 t = some n ↔ Numeral t n ∧ n < 2 ^ 32 := by
  have hplus : ∀ d : Fin 10, digits[d] ≠ '+' := by decide
  have key : ∀ u, dropPlus t = u → (parseU32 t = some n ↔
      (∃ ds : List (Fin 10), ds ≠ [] ∧ u = ds.map (fun d => digits[d]) ∧ n = ds.foldl (fun a d => 10 * a + d.val) 0) ∧ n < 2 ^ 32) := by
    intro u hu'
    unfold parseU32
    rw [hu']
    constructor
    · intro h
      split_ifs at h with hu
      cases hv : digitsValue u 0 with
      | none => rw [hv] at h; cases h
      | some m =>
        rw [hv] at h
        simp only at h
        split_ifs at h with hm
        cases h
        obtain ⟨ds, h1, h2⟩ := (value_iff u 0 n).1 hv
        refine ⟨⟨ds, fun e => hu (by rw [h1, e]; rfl), h1, h2⟩, hm⟩
    · rintro ⟨⟨ds, h0, h1, h2⟩, hn⟩
      rw [if_neg (by intro e; rw [e] at h1; exact h0 (List.map_eq_nil_iff.1 h1.symm)), (value_iff u 0 n).2 ⟨ds, h1, h2⟩]
      simp only
      rw [if_pos hn]
  rw [key _ rfl]
  constructor
  · rintro ⟨⟨ds, h0, h1, h2⟩, hn⟩
    refine ⟨⟨ds, h0, ?_, h2⟩, hn⟩
    unfold dropPlus at h1
    split at h1
    · right; rw [h1]
    · left; exact h1
  · rintro ⟨⟨ds, h0, h1, h2⟩, hn⟩
    refine ⟨⟨ds, h0, ?_, h2⟩, hn⟩
    cases ds with
    | nil => exact absurd rfl h0
    | cons d ds =>
      rcases h1 with rfl | rfl
      · unfold dropPlus
        split
        · rename_i heq
          simp only [List.map_cons, List.cons.injEq] at heq
          exact absurd heq.1 (hplus d)
        · rfl
      · rfl

private theorem truthy_iff (t : List Char) : isTruthy t = true ↔ MarkText t none := by
  unfold isTruthy MarkText
  simp only [Bool.or_eq_true, beq_iff_eq, List.map_cons, List.map_nil, List.mem_cons, List.not_mem_nil, or_false, or_assoc]

private theorem mark_solid {t : List Char} {o : Option Nat} (h : MarkText t o) : t ≠ [] ∧ ∀ c ∈ t, isWs c = false := by
  have hd : ∀ d : Fin 10, isWs digits[d] = false := by decide
  cases o with
  | none =>
    have : ∀ t ∈ ["true", "TRUE", "True", "yes", "YES", "Yes"].map String.toList, t ≠ [] ∧ ∀ c ∈ t, isWs c = false := by
      decide
    exact this t h
  | some n =>
    obtain ⟨⟨ds, h0, h1, _⟩, _⟩ := h
    rcases h1 with rfl | rfl
    · refine ⟨fun e => h0 (List.map_eq_nil_iff.1 e), ?_⟩
      intro c hc
      obtain ⟨d, _, rfl⟩ := List.mem_map.1 hc
      exact hd d
    · refine ⟨List.cons_ne_nil _ _, ?_⟩
      intro c hc
      rcases List.mem_cons.1 hc with rfl | hc
      · decide
      · obtain ⟨d, _, rfl⟩ := List.mem_map.1 hc
        exact hd d

private theorem dropWhile_all {p : Char → Bool} : ∀ {pre s : List Char}, (∀ c ∈ pre, p c = true) →
    (pre ++ s).dropWhile p = s.dropWhile p
  | [], _, _ => rfl
  | c :: pre, s, h => by
    rw [List.cons_append, List.dropWhile_cons, if_pos (h c List.mem_cons_self)]
    exact dropWhile_all (fun d hd => h d (List.mem_cons_of_mem _ hd))

private theorem dropWhile_solid {p : Char → Bool} {t s : List Char} (ht : t ≠ []) (h : ∀ c ∈ t, p c = false) :
    (t ++ s).dropWhile p = t ++ s := by
  cases t with
  | nil => exact absurd rfl ht
  | cons c t =>
    rw [List.cons_append, List.dropWhile_cons, if_neg (by rw [h c List.mem_cons_self]; exact Bool.false_ne_true)]

private theorem trim_solid {pre t post : List Char} (h1 : ∀ c ∈ pre ++ post, isWs c = true) (ht : t ≠ [])
    (h2 : ∀ c ∈ t, isWs c = false) : trim (pre ++ t ++ post) = t := by
  unfold trim trimBy
  rw [List.append_assoc, dropWhile_all (fun c hc => h1 c (List.mem_append_left _ hc)), dropWhile_solid ht h2,
    List.reverse_append, dropWhile_all (fun c hc => h1 c (List.mem_append_right _ (List.mem_reverse.1 hc)))]
  have := dropWhile_solid (p := isWs) (t := t.reverse) (s := []) (by simpa using ht)
    (fun c hc => h2 c (List.mem_reverse.1 hc))
  rw [List.append_nil] at this
  rw [this, List.reverse_reverse]

private theorem trim_parts (v : List Char) : ∃ pre post, v = pre ++ trim v ++ post ∧ ∀ c ∈ pre ++ post, isWs c = true := by
  have hall : ∀ s : List Char, ∀ c ∈ s.takeWhile isWs, isWs c = true := by
    intro s c hc
    exact List.all_eq_true.1 (List.all_takeWhile (l := s) (p := isWs)) c hc
  refine ⟨v.takeWhile isWs, (((v.dropWhile isWs).reverse).takeWhile isWs).reverse, ?_, ?_⟩
  · unfold trim trimBy
    rw [List.append_assoc, ← List.reverse_append, List.takeWhile_append_dropWhile, List.reverse_reverse,
      List.takeWhile_append_dropWhile]
  · intro c hc
    rcases List.mem_append.1 hc with hc | hc
    · exact hall _ c hc
    · exact hall _ c (List.mem_reverse.1 hc)

/-- **C57.** A field is marked exactly when its entry `tonbo.key`, without the white space around it, is a
decimal numeral below 2^32 (which is then its ordinal) or one of six words for "yes". -/
theorem what_marks_a_field (f : Field) (o : Option Nat) :
    markOf f = some o ↔
      ∃ pre text post, f.mark = some (pre ++ text ++ post) ∧ (∀ c ∈ pre ++ post, WhiteSpace c) ∧ MarkText text o := by
  constructor
  · intro h
    unfold markOf at h
    cases hm : f.mark with
    | none => rw [hm] at h; cases h
    | some v =>
      rw [hm] at h
      simp only at h
      obtain ⟨pre, post, h1, h2⟩ := trim_parts v
      refine ⟨pre, trim v, post, by rw [← h1], fun c hc => (isWs_iff c).1 (h2 c hc), ?_⟩
      cases hp : parseU32 (trim v) with
      | some n =>
        rw [hp] at h
        cases h
        exact (parse_iff _ _).1 hp
      | none =>
        rw [hp] at h
        simp only at h
        split_ifs at h with ht
        cases h
        exact (truthy_iff _).1 ht
  · rintro ⟨pre, t, post, h1, h2, h3⟩
    obtain ⟨h4, h5⟩ := mark_solid h3
    unfold markOf
    rw [h1]
    simp only
    rw [trim_solid (fun c hc => (isWs_iff c).2 (h2 c hc)) h4 h5]
    cases o with
    | some n => rw [(parse_iff t n).2 h3]
    | none =>
      have hn : parseU32 t = none := by
        have : ∀ t ∈ ["true", "TRUE", "True", "yes", "YES", "Yes"].map String.toList, parseU32 t = none := by decide
        exact this t h3
      rw [hn]
      simp only
      rw [if_pos ((truthy_iff t).2 h3)]

example : ∃ pre text post, (col "a" (some " \r12\t")).mark = some (pre ++ text ++ post) ∧
    (∀ c ∈ pre ++ post, WhiteSpace c) ∧ MarkText text (some 12) :=
  ⟨" \r".toList, "12".toList, "\t".toList, by decide, by unfold WhiteSpace; decide,
    ⟨[1, 2], by decide, .inl (by decide), by decide⟩, by decide⟩

example : markOf (col "a" (some "no")) = none := by decide +kernel

/-! ## One column -/

/-- **C57.** A single column given by its number is the key if there is such a column, of a type a key may
have; a number that is too large is refused. -/
theorem a_key_column_by_number (s : Schema) (i : Nat) :
    (∀ c, fromKeyCol s i = .ok c ↔ c = ⟨s, [i]⟩ ∧ Usable s [i]) ∧
    (s.fields.length ≤ i → fromKeyCol s i = .error (.columnOutOfBounds i s.fields.length)) := by
  unfold fromKeyCol
  constructor
  · intro c
    by_cases hi : s.fields.length ≤ i
    · rw [if_pos hi]
      constructor
      · intro h; cases h
      · rintro ⟨_, h⟩
        obtain ⟨f, hf, _⟩ := h i List.mem_cons_self
        rw [List.getElem?_eq_none hi] at hf
        cases hf
    · rw [if_neg hi]
      unfold configFor checkTypes checkTypes Usable
      rw [if_neg (List.cons_ne_nil _ _), List.getElem?_eq_getElem (by omega)]
      simp only [List.mem_singleton, forall_eq, List.getElem?_eq_getElem (show i < s.fields.length by omega),
        Option.some.injEq, exists_eq_left']
      cases ht : (s.fields[i]'(by omega)).type <;> simp [supported, eq_comm]
  · intro hi
    rw [if_pos hi]

/-- **C57.** A single column given by its name is the key if there is one with that name; the first of
them is taken. -/
theorem a_key_column_by_name (s : Schema) (n : List Char) :
    (∀ c, fromKeyName s n = .ok c ↔ ∃ i, IsFirst s n i ∧ c = ⟨s, [i]⟩ ∧ Usable s [i]) ∧
    ((∀ f ∈ s.fields, f.name ≠ n) → fromKeyName s n = .error (.noSuchField n)) := by
  unfold fromKeyName
  constructor
  · intro c
    cases hf : findField s n with
    | none =>
      simp only
      constructor
      · intro h; cases h
      · rintro ⟨i, hi, _⟩
        rw [findField_some.2 hi] at hf
        cases hf
    | some i =>
      simp only
      rw [(a_key_column_by_number s i).1 c]
      constructor
      · rintro ⟨h1, h2⟩
        exact ⟨i, findField_some.1 hf, h1, h2⟩
      · rintro ⟨j, hj, h1, h2⟩
        rw [findField_some.2 hj] at hf
        cases hf
        exact ⟨h1, h2⟩
  · intro h
    rw [findField_none.2 h]

example : fromKeyCol ⟨[col "id", col "ts"], none⟩ 1 = .ok ⟨⟨[col "id", col "ts"], none⟩, [1]⟩ ∧
    fromKeyCol ⟨[col "id", col "ts"], none⟩ 2 = .error (.columnOutOfBounds 2 2) ∧
    fromKeyName ⟨[col "id", col "ts"], none⟩ "ts".toList = .ok ⟨⟨[col "id", col "ts"], none⟩, [1]⟩ := by decide +kernel

/-! ## The calls of the builder -/

/-- **C57.** `primary_key` and `composite_key` replace what was said before, `add_key_part` adds a last
column to it. -/
theorem calls_of_the_builder (b : Builder) (c : Config) :
    (∀ n, (b.primaryKey n).build = .ok c → primaryKeyColumns c = [n]) ∧
    (∀ ns, (b.compositeKey ns).build = .ok c → primaryKeyColumns c = ns) ∧
    (∀ n, (b.addKeyPart n).build = .ok c → ∀ c', b.build = .ok c' → primaryKeyColumns c = primaryKeyColumns c' ++ [n]) ∧
    (∀ s n, ((Builder.new s).addKeyPart n).build = .ok c → primaryKeyColumns c = [n]) ∧
    (b.withMetadata.build = .ok c → ∀ c', b.build = .ok c' → c.cols = c'.cols) := by
  refine ⟨fun n h => recorded_key_columns _ c h, fun ns h => recorded_key_columns _ c h, ?_,
    fun s n h => recorded_key_columns _ c h, ?_⟩
  · intro n h c' h'
    rw [recorded_key_columns _ c h, recorded_key_columns _ c' h']
    rfl
  · intro h c' h'
    have h1 := ((builder_selects_the_named_columns _ _).1 h).2.2.1
    have h2 := ((builder_selects_the_named_columns _ _).1 h').2.2.1
    change NamedColumns b.schema b.parts c.cols at h1
    have uniq : ∀ {ns : List (List Char)} {a b' : List Nat}, NamedColumns b.schema ns a → NamedColumns b.schema ns b' → a = b' := by
      intro ns
      unfold NamedColumns
      induction ns with
      | nil => intro a b' ha hb; cases ha; cases hb; rfl
      | cons n ns ih =>
        intro a b' ha hb
        cases ha with
        | cons p1 p2 =>
          cases hb with
          | cons q1 q2 =>
            rw [ih p2 q2]
            have := (findField_some.2 p1).symm.trans (findField_some.2 q1)
            cases this
            rfl
    exact uniq h1 h2

example : ((((Builder.new ⟨[col "id", col "ts"], none⟩).primaryKey "id".toList).compositeKey ["ts".toList]).addKeyPart
    "id".toList).build = .ok ⟨⟨[col "id", col "ts"], none⟩, [1, 0]⟩ := by decide +kernel

/-- **C57.** Batches of deletes have the columns of the key, in the order of the key, and one of commit
timestamps. -/
theorem columns_of_delete_batches (b : Builder) (c : Config) (h : b.build = .ok c) :
    deleteColumns c = b.parts ++ ["_commit_ts".toList] := by
  unfold deleteColumns
  rw [recorded_key_columns b c h]

example : deleteColumns ⟨⟨[col "id", col "ts", col "v"], none⟩, [1, 0]⟩ =
    ["ts".toList, "id".toList, "_commit_ts".toList] := by decide +kernel

end Tonbo.Props.C57
