import Verif.Model.Fingerprint
import Verif.Lemmas.SegName

/-! # Printed JSON values can be read back -/

namespace Tonbo.Lemmas.JsonPrint
open Tonbo.Model.Fingerprint Tonbo.Model.KeyDecl Tonbo.Model.Wal
open Tonbo.Lemmas.SegName (digit_nat)

/-! ## Strings -/

def hexVal (c : Char) : Nat := if c.toNat < 58 then c.toNat - 48 else c.toNat - 87

def unescape (c : Char) : Char :=
  if c = 'b' then Char.ofNat 8 else if c = 'f' then Char.ofNat 12 else if c = 'n' then Char.ofNat 10
  else if c = 'r' then Char.ofNat 13 else if c = 't' then Char.ofNat 9 else c

/-- Reads one character of a string. -/
def readChar : List Char → Option (Char × List Char)
  | [] => none
  | c :: u =>
    if c = '\\' then
      match u with
      | [] => none
      | x :: u => if x = 'u' then some (Char.ofNat (16 * hexVal ((u[2]?).getD 'a') + hexVal ((u[3]?).getD 'a')), u.drop 4)
        else some (unescape x, u)
    else some (c, u)

theorem hexVal_digit : ∀ n, n < 16 → hexVal (hexDigit n) = n := by decide

theorem readChar_jsonChar (c : Char) (u : List Char) : readChar (jsonChar c ++ u) = some (c, u) := by
  have back : ∀ n, c.toNat = n → Char.ofNat n = c := fun n h => by rw [← h, Char.ofNat_toNat]
  unfold jsonChar
  by_cases h1 : c = '"'
  · rw [if_pos h1]; subst h1; rfl
  rw [if_neg h1]
  by_cases h2 : c = '\\'
  · rw [if_pos h2]; subst h2; rfl
  rw [if_neg h2]
  by_cases h3 : c.toNat = 8
  · rw [if_pos h3, ← back 8 h3]; rfl
  rw [if_neg h3]
  by_cases h4 : c.toNat = 12
  · rw [if_pos h4, ← back 12 h4]; rfl
  rw [if_neg h4]
  by_cases h5 : c.toNat = 10
  · rw [if_pos h5, ← back 10 h5]; rfl
  rw [if_neg h5]
  by_cases h6 : c.toNat = 13
  · rw [if_pos h6, ← back 13 h6]; rfl
  rw [if_neg h6]
  by_cases h7 : c.toNat = 9
  · rw [if_pos h7, ← back 9 h7]; rfl
  rw [if_neg h7]
  by_cases h8 : c.toNat < 32
  · rw [if_pos h8]
    simp only [List.cons_append, List.nil_append, readChar, if_true, List.getElem?_cons_succ, List.getElem?_cons_zero,
      Option.getD_some, List.drop_succ_cons, List.drop_zero]
    rw [hexVal_digit _ (by omega), hexVal_digit _ (by omega), back _ (by omega)]
  · rw [if_neg h8]
    simp only [List.cons_append, List.nil_append, readChar, if_neg h2]

theorem jsonChar_ne_nil (c : Char) : jsonChar c ≠ [] := by
  intro h
  have := readChar_jsonChar c []
  rw [h] at this
  cases this

theorem jsonChar_head (c : Char) (u v : List Char) : jsonChar c ++ u ≠ '"' :: v := by
  unfold jsonChar
  by_cases h1 : c = '"'
  · rw [if_pos h1]; intro h; cases h
  rw [if_neg h1]
  by_cases h2 : c = '\\'
  · rw [if_pos h2]; intro h; cases h
  rw [if_neg h2]
  by_cases h3 : c.toNat = 8
  · rw [if_pos h3]; intro h; cases h
  rw [if_neg h3]
  by_cases h4 : c.toNat = 12
  · rw [if_pos h4]; intro h; cases h
  rw [if_neg h4]
  by_cases h5 : c.toNat = 10
  · rw [if_pos h5]; intro h; cases h
  rw [if_neg h5]
  by_cases h6 : c.toNat = 13
  · rw [if_pos h6]; intro h; cases h
  rw [if_neg h6]
  by_cases h7 : c.toNat = 9
  · rw [if_pos h7]; intro h; cases h
  rw [if_neg h7]
  by_cases h8 : c.toNat < 32
  · rw [if_pos h8]; intro h; cases h
  · rw [if_neg h8]; intro h; cases h; exact h1 rfl

theorem chars_inj : ∀ {s s' t t' : List Char}, s.flatMap jsonChar ++ '"' :: t = s'.flatMap jsonChar ++ '"' :: t' →
    s = s' ∧ t = t'
  | [], [], t, t', h => by simpa using h
  | [], c :: s', t, t', h => by
    simp only [List.flatMap_nil, List.nil_append, List.flatMap_cons, List.append_assoc] at h
    exact absurd h.symm (jsonChar_head c _ _)
  | c :: s, [], t, t', h => by
    simp only [List.flatMap_nil, List.nil_append, List.flatMap_cons, List.append_assoc] at h
    exact absurd h (jsonChar_head c _ _)
  | c :: s, c' :: s', t, t', h => by
    simp only [List.flatMap_cons, List.append_assoc] at h
    have e := readChar_jsonChar c (s.flatMap jsonChar ++ '"' :: t)
    rw [h, readChar_jsonChar] at e
    simp only [Option.some.injEq, Prod.mk.injEq] at e
    obtain ⟨h1, h2⟩ := chars_inj e.2.symm
    exact ⟨by rw [e.1, h1], h2⟩

theorem string_inj {s s' t t' : List Char} (h : jsonString s ++ t = jsonString s' ++ t') : s = s' ∧ t = t' := by
  unfold jsonString at h
  simp only [List.cons_append, List.append_assoc, List.cons.injEq, true_and] at h
  exact chars_inj h

/-! ## Numbers -/

/-- What may follow a printed value. -/
def Stop (t : List Char) : Prop := ∀ c, t.head? = some c → c = ',' ∨ c = ']' ∨ c = '}'

theorem stop_nil : Stop [] := fun c h => by cases h
theorem stop_comma (t : List Char) : Stop (',' :: t) := fun c h => by cases h; exact Or.inl rfl
theorem stop_bracket (t : List Char) : Stop (']' :: t) := fun c h => by cases h; exact Or.inr (Or.inl rfl)
theorem stop_brace (t : List Char) : Stop ('}' :: t) := fun c h => by cases h; exact Or.inr (Or.inr rfl)

def IsDigit (c : Char) : Prop := 48 ≤ c.toNat ∧ c.toNat ≤ 57

theorem digit_isDigit {d : Nat} (h : d < 10) : IsDigit (digitChar d) := by
  unfold IsDigit
  rw [digit_nat d h]; omega

theorem stop_not_digit {t : List Char} (h : Stop t) {c : Char} (hc : t.head? = some c) : ¬ IsDigit c := by
  rcases h c hc with rfl | rfl | rfl <;> (unfold IsDigit; decide)

theorem natTextF_digits : ∀ (fuel n : Nat), ∀ c ∈ natTextF fuel n, IsDigit c
  | 0, _ => fun c hc => by cases hc
  | fuel + 1, n => by
    intro c hc
    simp only [natTextF] at hc
    by_cases hn : n < 10
    · rw [if_pos hn, List.mem_singleton] at hc
      rw [hc]; exact digit_isDigit hn
    · rw [if_neg hn, List.mem_append, List.mem_singleton] at hc
      rcases hc with hc | rfl
      · exact natTextF_digits fuel _ c hc
      · exact digit_isDigit (by omega)

theorem natTextF_ne (fuel n : Nat) : natTextF (fuel + 1) n ≠ [] := by
  simp only [natTextF]
  by_cases hn : n < 10
  · rw [if_pos hn]; simp
  · rw [if_neg hn]; simp

theorem natTextF_value : ∀ (fuel n : Nat), n < fuel → digitsValue (natTextF fuel n) 0 = some n
  | 0, n, h => by omega
  | fuel + 1, n, h => by
    simp only [natTextF]
    by_cases hn : n < 10
    · rw [if_pos hn]
      simp only [digitsValue]
      rw [digit_nat n hn, if_pos (by omega)]
      congr 1; omega
    · rw [if_neg hn, Tonbo.Lemmas.SegName.value_append, natTextF_value fuel (n / 10) (by omega)]
      simp only [Option.bind_some, digitsValue]
      rw [digit_nat (n % 10) (by omega), if_pos (by omega)]
      congr 1; omega

theorem digits_split : ∀ {a b s t : List Char}, (∀ c ∈ a, IsDigit c) → (∀ c ∈ b, IsDigit c) → Stop s → Stop t →
    a ++ s = b ++ t → a = b ∧ s = t
  | [], [], s, t, _, _, _, _, h => ⟨rfl, by simpa using h⟩
  | [], c :: b, s, t, _, hb, hs, _, h => by
    simp only [List.nil_append, List.cons_append] at h
    exact absurd (hb c List.mem_cons_self) (stop_not_digit hs (by rw [h]; rfl))
  | c :: a, [], s, t, ha, _, _, ht, h => by
    simp only [List.nil_append, List.cons_append] at h
    exact absurd (ha c List.mem_cons_self) (stop_not_digit ht (by rw [← h]; rfl))
  | c :: a, d :: b, s, t, ha, hb, hs, ht, h => by
    simp only [List.cons_append, List.cons.injEq] at h
    obtain ⟨h1, h2⟩ := digits_split (fun x hx => ha x (List.mem_cons_of_mem _ hx))
      (fun x hx => hb x (List.mem_cons_of_mem _ hx)) hs ht h.2
    exact ⟨by rw [h.1, h1], h2⟩

theorem nat_inj {m n : Nat} {s t : List Char} (hs : Stop s) (ht : Stop t) (h : natText m ++ s = natText n ++ t) :
    m = n ∧ s = t := by
  obtain ⟨h1, h2⟩ := digits_split (natTextF_digits _ _) (natTextF_digits _ _) hs ht h
  have e1 := natTextF_value (m + 1) m (by omega)
  have e2 := natTextF_value (n + 1) n (by omega)
  rw [h1, e2] at e1
  exact ⟨(Option.some.inj e1).symm, h2⟩

theorem natText_head (n : Nat) : ∃ c u, natText n = c :: u ∧ IsDigit c := by
  unfold natText
  cases h : natTextF (n + 1) n with
  | nil => exact absurd h (natTextF_ne n n)
  | cons c u => exact ⟨c, u, rfl, natTextF_digits (n + 1) n c (by rw [h]; exact List.mem_cons_self)⟩

theorem int_inj {m n : Int} {s t : List Char} (hs : Stop s) (ht : Stop t) (h : intText m ++ s = intText n ++ t) :
    m = n ∧ s = t := by
  match m, n, h with
  | .ofNat m, .ofNat n, h =>
    obtain ⟨h1, h2⟩ := nat_inj hs ht h
    exact ⟨by rw [h1], h2⟩
  | .negSucc m, .negSucc n, h =>
    simp only [intText, List.cons_append, List.cons.injEq, true_and] at h
    obtain ⟨h1, h2⟩ := nat_inj hs ht h
    exact ⟨by rw [Nat.succ.inj h1], h2⟩
  | .ofNat m, .negSucc n, h =>
    obtain ⟨c, u, e, hd⟩ := natText_head m
    simp only [intText, e, List.cons_append, List.cons.injEq] at h
    rw [h.1] at hd
    exact absurd hd (by unfold IsDigit; decide)
  | .negSucc m, .ofNat n, h =>
    obtain ⟨c, u, e, hd⟩ := natText_head n
    simp only [intText, e, List.cons_append, List.cons.injEq] at h
    rw [← h.1] at hd
    exact absurd hd (by unfold IsDigit; decide)

/-! ## Values -/

/-- The kind of a value, told by its first character. -/
inductive Kind where | null | tt | ff | num | str | arr | obj
deriving DecidableEq

def kindOf : Json → Kind
  | .null => .null
  | .bool true => .tt
  | .bool false => .ff
  | .num _ => .num
  | .str _ => .str
  | .arr _ => .arr
  | .obj _ => .obj

def kindAt (c : Char) : Kind :=
  if c = 'n' then .null else if c = 't' then .tt else if c = 'f' then .ff else if c = '"' then .str
  else if c = '[' then .arr else if c = '{' then .obj else .num

theorem kindAt_digit {c : Char} (h : IsDigit c) : kindAt c = .num := by
  unfold IsDigit at h
  have hc := Tonbo.Lemmas.SegName.digit_of_nat h.1 h.2
  generalize c.toNat - 48 = d at hc
  have h' : (digitChar d).toNat ≤ 57 ∧ 48 ≤ (digitChar d).toNat := by rw [← hc]; exact ⟨h.2, h.1⟩
  unfold kindAt
  have ne : ∀ x : Char, ¬ (48 ≤ x.toNat ∧ x.toNat ≤ 57) → c ≠ x := fun x hx e => hx (e ▸ h)
  rw [if_neg (ne _ (by decide)), if_neg (ne _ (by decide)), if_neg (ne _ (by decide)), if_neg (ne _ (by decide)),
    if_neg (ne _ (by decide)), if_neg (ne _ (by decide))]

theorem print_head (j : Json) : ∃ c u, print j = c :: u ∧ kindAt c = kindOf j := by
  match j with
  | .null => exact ⟨'n', _, by rw [print]; rfl, rfl⟩
  | .bool true => exact ⟨'t', _, by rw [print]; rfl, rfl⟩
  | .bool false => exact ⟨'f', _, by rw [print]; rfl, rfl⟩
  | .num (.ofNat n) =>
    obtain ⟨c, u, e, hd⟩ := natText_head n
    exact ⟨c, u, by rw [print]; exact e, kindAt_digit hd⟩
  | .num (.negSucc n) => exact ⟨'-', _, by rw [print]; rfl, rfl⟩
  | .str s => exact ⟨'"', _, by rw [print]; rfl, rfl⟩
  | .arr l => exact ⟨'[', _, by rw [print], rfl⟩
  | .obj l => exact ⟨'{', _, by rw [print], rfl⟩

theorem kind_eq {j j' : Json} {s t : List Char} (h : print j ++ s = print j' ++ t) : kindOf j = kindOf j' := by
  obtain ⟨c, u, e, hk⟩ := print_head j
  obtain ⟨c', u', e', hk'⟩ := print_head j'
  rw [e, e'] at h
  simp only [List.cons_append, List.cons.injEq] at h
  rw [← hk, ← hk', h.1]

theorem more_items_stop (l : List Json) (t : List Char) : Stop (printMoreItems l ++ ']' :: t) := by
  cases l with
  | nil => rw [printMoreItems]; exact stop_bracket t
  | cons j js => rw [printMoreItems]; exact stop_comma _

theorem more_members_stop (l : List (List Char × Json)) (t : List Char) : Stop (printMoreMembers l ++ '}' :: t) := by
  cases l with
  | nil => rw [printMoreMembers]; exact stop_brace t
  | cons m r => obtain ⟨k, j⟩ := m; rw [printMoreMembers]; exact stop_comma _

theorem print_not_bracket (j : Json) (s t : List Char) : print j ++ s ≠ ']' :: t := by
  obtain ⟨c, u, e, hk⟩ := print_head j
  rw [e]
  intro h
  simp only [List.cons_append, List.cons.injEq] at h
  rw [h.1] at hk
  match j, hk, e with
  | .num (.ofNat n), _, e =>
    obtain ⟨c', u', e', hd⟩ := natText_head n
    rw [print] at e
    change natText n = c :: u at e
    rw [e'] at e
    simp only [List.cons.injEq] at e
    rw [e.1, h.1] at hd
    exact absurd hd (by unfold IsDigit; decide)
  | .num (.negSucc n), _, e =>
    rw [print] at e
    change '-' :: natText (n + 1) = c :: u at e
    simp only [List.cons.injEq] at e
    rw [h.1] at e
    exact absurd e.1 (by decide)
  | .null, hk, _ => exact absurd hk (by decide)
  | .bool true, hk, _ => exact absurd hk (by decide)
  | .bool false, hk, _ => exact absurd hk (by decide)
  | .str _, hk, _ => exact absurd hk (by simp [kindOf, kindAt])
  | .arr _, hk, _ => exact absurd hk (by simp [kindOf, kindAt])
  | .obj _, hk, _ => exact absurd hk (by simp [kindOf, kindAt])

theorem string_not_brace (k s t : List Char) : jsonString k ++ s ≠ '}' :: t := by
  unfold jsonString
  intro h
  simp only [List.cons_append, List.cons.injEq] at h
  exact absurd h.1 (by decide)

mutual
/-- A printed value is read in one way only. -/
theorem print_inj : ∀ (j j' : Json) (s t : List Char), Stop s → Stop t → print j ++ s = print j' ++ t → j = j' ∧ s = t
  | .null, j', s, t, _, _, h => by
    have hk := kind_eq h
    match j', hk with
    | .null, _ => exact ⟨rfl, List.append_cancel_left h⟩
  | .bool true, j', s, t, _, _, h => by
    have hk := kind_eq h
    match j', hk with
    | .bool true, _ => exact ⟨rfl, List.append_cancel_left h⟩
  | .bool false, j', s, t, _, _, h => by
    have hk := kind_eq h
    match j', hk with
    | .bool false, _ => exact ⟨rfl, List.append_cancel_left h⟩
  | .num n, j', s, t, hs, ht, h => by
    have hk := kind_eq h
    match j', hk with
    | .num n', _ =>
      rw [print, print] at h
      obtain ⟨h1, h2⟩ := int_inj hs ht h
      exact ⟨by rw [h1], h2⟩
  | .str x, j', s, t, _, _, h => by
    have hk := kind_eq h
    match j', hk with
    | .str x', _ =>
      rw [print, print] at h
      obtain ⟨h1, h2⟩ := string_inj h
      exact ⟨by rw [h1], h2⟩
  | .arr l, j', s, t, _, _, h => by
    have hk := kind_eq h
    match j', hk with
    | .arr l', _ =>
      rw [print, print] at h
      simp only [List.cons_append, List.append_assoc, List.cons.injEq, true_and] at h
      obtain ⟨h1, h2⟩ := items_inj l l' s t h
      exact ⟨by rw [h1], h2⟩
  | .obj l, j', s, t, _, _, h => by
    have hk := kind_eq h
    match j', hk with
    | .obj l', _ =>
      rw [print, print] at h
      simp only [List.cons_append, List.append_assoc, List.cons.injEq, true_and] at h
      obtain ⟨h1, h2⟩ := members_inj l l' s t h
      exact ⟨by rw [h1], h2⟩
theorem items_inj : ∀ (l l' : List Json) (s t : List Char), printItems l ++ ']' :: s = printItems l' ++ ']' :: t →
    l = l' ∧ s = t
  | [], [], s, t, h => by simpa [printItems] using h
  | [], j' :: r', s, t, h => by
    rw [printItems, printItems, List.nil_append, List.append_assoc] at h
    exact absurd h.symm (print_not_bracket _ _ _)
  | j :: r, [], s, t, h => by
    rw [printItems, printItems, List.nil_append, List.append_assoc] at h
    exact absurd h (print_not_bracket _ _ _)
  | j :: r, j' :: r', s, t, h => by
    rw [printItems, printItems, List.append_assoc, List.append_assoc] at h
    obtain ⟨h1, h2⟩ := print_inj j j' _ _ (more_items_stop _ _) (more_items_stop _ _) h
    obtain ⟨h3, h4⟩ := more_items_inj r r' s t h2
    exact ⟨by rw [h1, h3], h4⟩
theorem more_items_inj : ∀ (l l' : List Json) (s t : List Char),
    printMoreItems l ++ ']' :: s = printMoreItems l' ++ ']' :: t → l = l' ∧ s = t
  | [], [], s, t, h => by simpa [printMoreItems] using h
  | [], j' :: r', s, t, h => by
    rw [printMoreItems, printMoreItems, List.nil_append, List.cons_append, List.cons.injEq] at h
    exact absurd h.1 (by decide)
  | j :: r, [], s, t, h => by
    rw [printMoreItems, printMoreItems, List.nil_append, List.cons_append, List.cons.injEq] at h
    exact absurd h.1 (by decide)
  | j :: r, j' :: r', s, t, h => by
    rw [printMoreItems, printMoreItems, List.cons_append, List.cons_append, List.cons.injEq, List.append_assoc,
      List.append_assoc] at h
    obtain ⟨h1, h2⟩ := print_inj j j' _ _ (more_items_stop _ _) (more_items_stop _ _) h.2
    obtain ⟨h3, h4⟩ := more_items_inj r r' s t h2
    exact ⟨by rw [h1, h3], h4⟩
theorem members_inj : ∀ (l l' : List (List Char × Json)) (s t : List Char),
    printMembers l ++ '}' :: s = printMembers l' ++ '}' :: t → l = l' ∧ s = t
  | [], [], s, t, h => by simpa [printMembers] using h
  | [], (k', j') :: r', s, t, h => by
    rw [printMembers, printMembers, List.nil_append, List.append_assoc] at h
    exact absurd h.symm (string_not_brace _ _ _)
  | (k, j) :: r, [], s, t, h => by
    rw [printMembers, printMembers, List.nil_append, List.append_assoc] at h
    exact absurd h (string_not_brace _ _ _)
  | (k, j) :: r, (k', j') :: r', s, t, h => by
    rw [printMembers, printMembers, List.append_assoc, List.append_assoc] at h
    obtain ⟨h0, h⟩ := string_inj h
    rw [List.cons_append, List.cons_append, List.cons.injEq, List.append_assoc, List.append_assoc] at h
    obtain ⟨h1, h2⟩ := print_inj j j' _ _ (more_members_stop _ _) (more_members_stop _ _) h.2
    obtain ⟨h3, h4⟩ := more_members_inj r r' s t h2
    exact ⟨by rw [h0, h1, h3], h4⟩
theorem more_members_inj : ∀ (l l' : List (List Char × Json)) (s t : List Char),
    printMoreMembers l ++ '}' :: s = printMoreMembers l' ++ '}' :: t → l = l' ∧ s = t
  | [], [], s, t, h => by simpa [printMoreMembers] using h
  | [], (k', j') :: r', s, t, h => by
    rw [printMoreMembers, printMoreMembers, List.nil_append, List.cons_append, List.cons.injEq] at h
    exact absurd h.1 (by decide)
  | (k, j) :: r, [], s, t, h => by
    rw [printMoreMembers, printMoreMembers, List.nil_append, List.cons_append, List.cons.injEq] at h
    exact absurd h.1 (by decide)
  | (k, j) :: r, (k', j') :: r', s, t, h => by
    rw [printMoreMembers, printMoreMembers, List.cons_append, List.cons_append, List.cons.injEq, List.append_assoc,
      List.append_assoc] at h
    obtain ⟨h0, h⟩ := string_inj h.2
    rw [List.cons_append, List.cons_append, List.cons.injEq, List.append_assoc, List.append_assoc] at h
    obtain ⟨h1, h2⟩ := print_inj j j' _ _ (more_members_stop _ _) (more_members_stop _ _) h.2
    obtain ⟨h3, h4⟩ := more_members_inj r r' s t h2
    exact ⟨by rw [h0, h1, h3], h4⟩
end

/-- Printing loses nothing. -/
theorem print_injective {j j' : Json} (h : print j = print j') : j = j' :=
  (print_inj j j' [] [] stop_nil stop_nil (by simpa using h)).1

end Tonbo.Lemmas.JsonPrint
