import Verif.Lemmas.Scan
import Verif.Spec.MemView
import Mathlib.Tactic.Set
import Mathlib.Data.List.Induction

/-! # Invariants of the memtable model -/

set_option linter.unusedSectionVars false

namespace Tonbo.Lemmas.Mem
open Tonbo.Model Tonbo.Model.Mem Tonbo.Spec Tonbo.Lemmas.Scan

variable {K R : Type} [LinearOrder K]

/-! ## Logs of writes -/

section Log
omit [LinearOrder K]

theorem lastWrite_nil {w : Ver K R} : ¬ LastWrite [] w := by
  rintro ⟨pre, post, h, _⟩
  simp at h

theorem lastWrite_snoc {log : List (Ver K R)} {u w : Ver K R} :
    LastWrite (log ++ [u]) w ↔
      w = u ∨ (LastWrite log w ∧ ¬ (u.key = w.key ∧ u.ts = w.ts)) := by
  constructor
  · rintro ⟨pre, post, h, hp⟩
    rcases List.eq_nil_or_concat post with rfl | ⟨post', x, rfl⟩
    · left
      have := List.append_inj_right' h (by simp)
      simpa using this.symm
    · right
      have h1 : log ++ [u] = (pre ++ w :: post') ++ [x] := by simpa using h
      have hx : x = u := by
        have := List.append_inj_right' h1 (by simp)
        simpa using this.symm
      have hl : log = pre ++ w :: post' := List.append_inj_left' h1 (by simp)
      subst hx
      refine ⟨⟨pre, post', hl, fun v hv => hp v (by simp [hv])⟩, hp x (by simp)⟩
  · rintro (rfl | ⟨⟨pre, post, rfl, hp⟩, hne⟩)
    · exact ⟨log, [], by simp, by simp⟩
    · refine ⟨pre, post ++ [u], by simp, ?_⟩
      intro v hv
      rcases List.mem_append.1 hv with hv | hv
      · exact hp v hv
      · simp at hv; subst hv; exact hne

theorem lastWrite_functional {log : List (Ver K R)} : Functional (LastWrite log) := by
  induction log using List.reverseRecOn with
  | nil => intro a b h; exact absurd h lastWrite_nil
  | append_singleton log u ih =>
    intro a b ha hb hk ht
    rw [lastWrite_snoc] at ha hb
    rcases ha with rfl | ⟨ha, na⟩ <;> rcases hb with rfl | ⟨hb, nb⟩
    · rfl
    · exact absurd ⟨hk, ht⟩ nb
    · exact absurd ⟨hk.symm, ht.symm⟩ na
    · exact ih a b ha hb hk ht

theorem lastWrite_mem {log : List (Ver K R)} {w : Ver K R} (h : LastWrite log w) : w ∈ log := by
  obtain ⟨pre, post, rfl, _⟩ := h
  simp

theorem lastWrite_cons {v w : Ver K R} {l : List (Ver K R)} :
    LastWrite (v :: l) w ↔ (w = v ∧ ∀ u ∈ l, ¬ (u.key = v.key ∧ u.ts = v.ts)) ∨ LastWrite l w := by
  constructor
  · rintro ⟨pre, post, h, hp⟩
    cases pre with
    | nil =>
      simp only [List.nil_append, List.cons.injEq] at h
      obtain ⟨rfl, rfl⟩ := h
      exact .inl ⟨rfl, hp⟩
    | cons x pre =>
      simp only [List.cons_append, List.cons.injEq] at h
      exact .inr ⟨pre, post, h.2, hp⟩
  · rintro (⟨rfl, h⟩ | ⟨pre, post, rfl, h⟩)
    · exact ⟨[], l, rfl, h⟩
    · exact ⟨v :: pre, post, rfl, h⟩

theorem lastWrite_append {w : Ver K R} : ∀ {a b : List (Ver K R)},
    LastWrite (a ++ b) w ↔ (LastWrite a w ∧ ∀ u ∈ b, ¬ (u.key = w.key ∧ u.ts = w.ts)) ∨ LastWrite b w
  | [], b => by simp [lastWrite_nil]
  | v :: a, b => by
    rw [List.cons_append, lastWrite_cons, lastWrite_append (a := a), lastWrite_cons]
    constructor
    · rintro (⟨rfl, h⟩ | ⟨h, h'⟩ | h)
      · exact .inl ⟨.inl ⟨rfl, fun u hu => h u (List.mem_append_left _ hu)⟩, fun u hu => h u (List.mem_append_right _ hu)⟩
      · exact .inl ⟨.inr h, h'⟩
      · exact .inr h
    · rintro (⟨⟨rfl, h⟩ | h, h'⟩ | h)
      · refine .inl ⟨rfl, fun u hu => ?_⟩
        rcases List.mem_append.1 hu with hu | hu
        · exact h u hu
        · exact h' u hu
      · exact .inr (.inl ⟨h, h'⟩)
      · exact .inr (.inr h)

theorem lastWrite_exists : ∀ {l : List (Ver K R)} {u : Ver K R}, u ∈ l →
    ∃ w, LastWrite l w ∧ w.key = u.key ∧ w.ts = u.ts
  | v :: l, u, h => by
    by_cases hl : ∃ x ∈ l, x.key = u.key ∧ x.ts = u.ts
    · obtain ⟨x, hx, h1, h2⟩ := hl
      obtain ⟨w, hw, k1, k2⟩ := lastWrite_exists hx
      exact ⟨w, lastWrite_cons.2 (.inr hw), k1.trans h1, k2.trans h2⟩
    · rcases List.mem_cons.1 h with rfl | h
      · exact ⟨u, lastWrite_cons.2 (.inl ⟨rfl, fun x hx hc => hl ⟨x, hx, hc⟩⟩), rfl, rfl⟩
      · exact absurd ⟨u, h, rfl, rfl⟩ hl

theorem mem_lastOnly [DecidableEq K] {w : Ver K R} : ∀ {l : List (Ver K R)}, w ∈ lastOnly l ↔ LastWrite l w
  | [] => by simp [lastOnly, lastWrite_nil]
  | v :: l => by
    unfold lastOnly
    rw [lastWrite_cons, ← mem_lastOnly (l := l)]
    split
    · rename_i h
      constructor
      · exact .inr
      · rintro (⟨_, h'⟩ | h')
        · obtain ⟨u, hu, hc⟩ := List.any_eq_true.1 h
          exact absurd (of_decide_eq_true hc) (h' u hu)
        · exact h'
    · rename_i h
      rw [List.mem_cons]
      constructor
      · rintro (rfl | h')
        · exact .inl ⟨rfl, fun u hu hc => h (List.any_eq_true.2 ⟨u, hu, decide_eq_true hc⟩)⟩
        · exact .inr h'
      · rintro (⟨rfl, _⟩ | h')
        · exact .inl rfl
        · exact .inr h'

theorem lastOnly_functional [DecidableEq K] (l : List (Ver K R)) : Functional (· ∈ lastOnly l) :=
  fun a b ha hb => lastWrite_functional a b (mem_lastOnly.1 ha) (mem_lastOnly.1 hb)

theorem lastOnly_mem [DecidableEq K] {w : Ver K R} {l : List (Ver K R)} (h : w ∈ lastOnly l) : w ∈ l :=
  lastWrite_mem (mem_lastOnly.1 h)

theorem mem_lastOnly_functional [DecidableEq K] {l : List (Ver K R)} (hf : Functional (· ∈ l)) {w : Ver K R} :
    w ∈ lastOnly l ↔ w ∈ l := by
  refine ⟨lastOnly_mem, fun h => ?_⟩
  obtain ⟨u, hu, h1, h2⟩ := lastWrite_exists h
  have h3 : u.op = w.op := hf u w (lastWrite_mem hu) h h1 h2
  have : u = w := by cases u; cases w; simp_all
  rw [← this]
  exact mem_lastOnly.2 hu

theorem lastWrite_lastOnly [DecidableEq K] {w : Ver K R} : ∀ {l : List (Ver K R)}, LastWrite (lastOnly l) w ↔ LastWrite l w
  | [] => Iff.rfl
  | v :: l => by
    unfold lastOnly
    split
    · rename_i h
      rw [lastWrite_lastOnly, lastWrite_cons]
      constructor
      · exact .inr
      · rintro (⟨_, h'⟩ | h')
        · obtain ⟨u, hu, hc⟩ := List.any_eq_true.1 h
          exact absurd (of_decide_eq_true hc) (h' u hu)
        · exact h'
    · rename_i h
      rw [lastWrite_cons, lastWrite_cons, lastWrite_lastOnly]
      have hno : ∀ u ∈ l, ¬ (u.key = v.key ∧ u.ts = v.ts) := fun u hu hc => h (List.any_eq_true.2 ⟨u, hu, decide_eq_true hc⟩)
      constructor
      · rintro (⟨rfl, _⟩ | h')
        · exact .inl ⟨rfl, hno⟩
        · exact .inr h'
      · rintro (⟨rfl, _⟩ | h')
        · exact .inl ⟨rfl, fun u hu => hno u (lastOnly_mem hu)⟩
        · exact .inr h'

/-- The table does not tell a batch from its last rows. -/
theorem lastWrite_append_lastOnly [DecidableEq K] {w : Ver K R} {a b : List (Ver K R)} :
    LastWrite (a ++ lastOnly b) w ↔ LastWrite (a ++ b) w := by
  rw [lastWrite_append, lastWrite_append, lastWrite_lastOnly]
  have : (∀ u ∈ lastOnly b, ¬ (u.key = w.key ∧ u.ts = w.ts)) ↔ ∀ u ∈ b, ¬ (u.key = w.key ∧ u.ts = w.ts) := by
    constructor
    · intro h u hu hc
      obtain ⟨x, hx, k1, k2⟩ := lastWrite_exists hu
      exact h x (mem_lastOnly.2 hx) ⟨k1.trans hc.1, k2.trans hc.2⟩
    · exact fun h u hu => h u (lastOnly_mem hu)
  rw [this]

end Log

/-! ## Well-formed tables and their content -/

/-- The mutation an index entry stands for. -/
def res (s : Inner K R) : Loc → Option (Mut R)
  | .up b r => (getUp s b r).map (fun p => .put p.1)
  | .dl _ _ => some .del

/-- An index entry points at a stored row (or key) that has its key and timestamp. -/
def Points (ext : R → Option K) (s : Inner K R) (e : KT K × Loc) : Prop :=
  match e.2 with
  | .up b r => ∃ row, getUp s b r = some (row, e.1.ts) ∧ ext row = some e.1.key
  | .dl b r => getDl s b r = some (e.1.key, e.1.ts)

/-- The invariant of a mutable memtable. -/
structure WF (ext : R → Option K) (s : Inner K R) : Prop where
  sorted : SMap.Sorted s.index
  points : ∀ e ∈ s.index, Points ext s e

/-- The versions stored according to index `ix`. -/
def Content (s : Inner K R) (ix : List (KT K × Loc)) (w : Ver K R) : Prop :=
  ∃ loc, (⟨w.key, w.ts⟩, loc) ∈ ix ∧ res s loc = some w.op

theorem wf_new (ext : R → Option K) (cap : Nat) : WF ext (Inner.new cap : Inner K R) :=
  ⟨by simp [Inner.new, SMap.Sorted], by simp [Inner.new]⟩

/-- Indexing one more entry appends one write to the log. -/
theorem content_insert {s : Inner K R} {ix : List (KT K × Loc)} (hs : SMap.Sorted ix)
    {log : List (Ver K R)} (hr : ∀ w, Content s ix w ↔ LastWrite log w)
    {loc : Loc} {u : Ver K R} (hl : res s loc = some u.op) (w : Ver K R) :
    Content s (SMap.insert ⟨u.key, u.ts⟩ loc ix) w ↔ LastWrite (log ++ [u]) w := by
  rw [lastWrite_snoc, ← hr]
  constructor
  · rintro ⟨l, hm, hres⟩
    rcases (SMap.mem_insert hs).1 hm with e | ⟨hm, hne⟩
    · left
      obtain ⟨⟨e1, e2⟩, e3⟩ : (w.key = u.key ∧ w.ts = u.ts) ∧ l = loc := by simpa using e
      subst e3
      rw [hl] at hres
      cases w; cases u; simp_all
    · right
      refine ⟨⟨l, hm, hres⟩, ?_⟩
      rintro ⟨a, b⟩
      exact hne (by simp [a, b])
  · rintro (rfl | ⟨⟨l, hm, hres⟩, hne⟩)
    · exact ⟨loc, (SMap.mem_insert hs).2 (.inl rfl), hl⟩
    · refine ⟨l, (SMap.mem_insert hs).2 (.inr ⟨hm, ?_⟩), hres⟩
      intro e
      apply hne
      simp at e
      exact ⟨e.1.symm, e.2.symm⟩

theorem indexRows_spec {ext : R → Option K} {s : Inner K R} {mk : Nat → Loc}
    {op : Nat → Mut R} :
    ∀ (rest : List (K × Nat)) (i : Nat) (ix : List (KT K × Loc)) (log : List (Ver K R)),
      SMap.Sorted ix → (∀ e ∈ ix, Points ext s e) →
      (∀ w, Content s ix w ↔ LastWrite log w) →
      (∀ j p, rest[j]? = some p →
        Points ext s (⟨p.1, p.2⟩, mk (i + j)) ∧ res s (mk (i + j)) = some (op (i + j))) →
      SMap.Sorted (indexRows mk i rest ix) ∧
      (∀ e ∈ indexRows mk i rest ix, Points ext s e) ∧
      (∀ w, Content s (indexRows mk i rest ix) w ↔
        LastWrite (log ++ rest.mapIdx (fun j p => ⟨p.1, p.2, op (i + j)⟩)) w)
  | [], i, ix, log, h1, h2, h3, _ => ⟨h1, h2, by simpa [indexRows] using h3⟩
  | (k, t) :: rest, i, ix, log, h1, h2, h3, h4 => by
    have h0 := h4 0 (k, t) rfl
    simp only [indexRows]
    have ih := indexRows_spec (ext := ext) (s := s) (mk := mk) (op := op) rest (i + 1)
      (SMap.insert ⟨k, t⟩ (mk i) ix) (log ++ [⟨k, t, op i⟩]) (SMap.sorted_insert h1)
      (by
        intro e he
        rcases SMap.mem_insert_of_mem he with rfl | he
        · simpa using h0.1
        · exact h2 e he)
      (fun w => content_insert (u := ⟨k, t, op i⟩) h1 h3 h0.2 w)
      (by
        intro j p hp
        have := h4 (j + 1) p (by simpa using hp)
        rw [show i + 1 + j = i + (j + 1) by omega]
        exact this)
    refine ⟨ih.1, ih.2.1, ?_⟩
    intro w
    rw [ih.2.2 w]
    simp only [List.mapIdx_cons, List.append_assoc, List.cons_append, List.nil_append,
      Nat.add_zero]
    have : (fun (j : Nat) (p : K × Nat) => (⟨p.1, p.2, op (i + 1 + j)⟩ : Ver K R)) =
        (fun j p => ⟨p.1, p.2, op (i + (j + 1))⟩) := by
      funext j p; rw [show i + 1 + j = i + (j + 1) by omega]
    rw [this]

/-! ## Stored slots never change -/

theorem getUp_append {s : Inner K R} {b r : Nat} {x : R × Nat} {a : Att R}
    (h : getUp s b r = some x) : getUp { s with batches := s.batches ++ [a] } b r = some x := by
  unfold getUp at h ⊢
  cases hb : s.batches[b]? with
  | none => simp [hb] at h
  | some y =>
    have : (s.batches ++ [a])[b]? = some y := by
      rw [List.getElem?_append_left (List.getElem?_eq_some_iff.1 hb).1, hb]
    simpa [hb, this] using h

theorem getDl_append {s : Inner K R} {b r : Nat} {x : K × Nat} {a : Option (DelAtt K)}
    (h : getDl s b r = some x) : getDl { s with dels := s.dels ++ [a] } b r = some x := by
  unfold getDl at h ⊢
  cases hb : s.dels[b]? with
  | none => simp [hb] at h
  | some y =>
    have : (s.dels ++ [a])[b]? = some y := by
      rw [List.getElem?_append_left (List.getElem?_eq_some_iff.1 hb).1, hb]
    simpa [hb, this] using h

/-- Two states agree on everything the index of the first refers to. -/
def Ext (s s' : Inner K R) : Prop :=
  (∀ b r x, getUp s b r = some x → getUp s' b r = some x) ∧
  (∀ b r x, getDl s b r = some x → getDl s' b r = some x)

theorem ext_points {ext : R → Option K} {s s' : Inner K R} (h : Ext s s') {e : KT K × Loc}
    (hp : Points ext s e) : Points ext s' e := by
  obtain ⟨kt, loc⟩ := e
  cases loc with
  | up b r =>
    obtain ⟨row, h1, h2⟩ := hp
    exact ⟨row, h.1 _ _ _ h1, h2⟩
  | dl b r => exact h.2 _ _ _ hp

theorem ext_content {ext : R → Option K} {s s' : Inner K R} (h : Ext s s')
    {ix : List (KT K × Loc)} (hp : ∀ e ∈ ix, Points ext s e) (w : Ver K R) :
    Content s' ix w ↔ Content s ix w := by
  constructor
  · rintro ⟨loc, hm, hr⟩
    refine ⟨loc, hm, ?_⟩
    have := hp _ hm
    cases loc with
    | up b r =>
      obtain ⟨row, h1, _⟩ := this
      simp only [res, h.1 _ _ _ h1] at hr
      simpa [res, h1] using hr
    | dl b r => exact hr
  · rintro ⟨loc, hm, hr⟩
    refine ⟨loc, hm, ?_⟩
    have := hp _ hm
    cases loc with
    | up b r =>
      obtain ⟨row, h1, _⟩ := this
      simp only [res, h1] at hr
      simpa [res, h.1 _ _ _ h1] using hr
    | dl b r => exact hr

theorem ext_batches (s : Inner K R) (a : Att R) :
    Ext s { s with batches := s.batches ++ [a] } :=
  ⟨fun _ _ _ h => getUp_append h, fun _ _ _ h => h⟩

theorem ext_dels (s : Inner K R) (a : Option (DelAtt K)) :
    Ext s { s with dels := s.dels ++ [a] } :=
  ⟨fun _ _ _ h => h, fun _ _ _ h => getDl_append h⟩

/-! ## Inserts -/

omit [LinearOrder K] in
theorem mapM_some_length {α β : Type} {f : α → Option β} {l : List α} {l' : List β}
    (h : l.mapM f = some l') : l'.length = l.length ∧ ∀ i : Nat, l'[i]? = l[i]?.bind f := by
  induction l generalizing l' with
  | nil => simp at h; subst h; simp
  | cons a l ih =>
    simp only [List.mapM_cons, Option.bind_eq_bind, Option.bind_eq_some_iff] at h
    obtain ⟨b, hb, bs, hbs, e⟩ := h
    simp at e; subst e
    have := ih hbs
    refine ⟨by simp [this.1], ?_⟩
    intro i
    cases i with
    | zero => simp [hb]
    | succ i => simpa using this.2 i

omit [LinearOrder K] in
theorem putWrites_eq {ext : R → Option K} {rows : List R} {ts : List Nat} {ks : List K}
    (hl : ts.length = rows.length) (h : rows.mapM ext = some ks) (d : Mut R) :
    putWrites ext (rows.zip ts) =
      (ks.zip ts).mapIdx (fun j p => ⟨p.1, p.2, (rows[j]?.map Mut.put).getD d⟩) := by
  induction rows generalizing ts ks with
  | nil => simp at h; subst h; simp [putWrites]
  | cons r rows ih =>
    simp only [List.mapM_cons, Option.bind_eq_bind, Option.bind_eq_some_iff] at h
    obtain ⟨k, hk, ks', hks, e⟩ := h
    simp at e; subst e
    cases ts with
    | nil => simp at hl
    | cons t ts =>
      have := ih (by simpa using hl) hks
      simp only [putWrites, List.zip_cons_cons, List.filterMap_cons, hk, Option.map_some,
        List.mapIdx_cons] at this ⊢
      rw [this]
      simp

theorem mapIdx_const {α β : Type} (f : α → β) (l : List α) : l.mapIdx (fun _ a => f a) = l.map f := by
  induction l with
  | nil => rfl
  | cons a l ih => simpa [List.mapIdx_cons] using ih

theorem tryInsertBatch_ok {ext : R → Option K} {s s' : Inner K R} {rows : List R} {ts : List Nat}
    (hw : WF ext s) {log : List (Ver K R)} (hlog : ∀ w, Content s s.index w ↔ LastWrite log w)
    (hl : ts.length = rows.length) (h : tryInsertBatch ext s rows ts = .ok s') :
    WF ext s' ∧
      (∀ w, Content s' s'.index w ↔ LastWrite (log ++ putWrites ext (rows.zip ts)) w) ∧
      s'.cap = s.cap ∧ s'.batches.length = s.batches.length + 1 ∧ s'.dels = s.dels ∧
      s.batches.length < s.cap := by
  unfold tryInsertBatch at h
  split at h
  · cases h
  · rename_i hcap
    split at h
    · cases h
    · rename_i ks hks
      simp only [TryRes.ok.injEq] at h
      subst h
      have hlen := mapM_some_length hks
      have hext := ext_batches s ⟨rows, ts⟩
      set s1 : Inner K R := { s with batches := s.batches ++ [⟨rows, ts⟩] } with hs1
      have hget : ∀ j p, (ks.zip ts)[j]? = some p →
          ∃ row, rows[j]? = some row ∧ ext row = some p.1 ∧
            getUp s1 s.batches.length j = some (row, p.2) := by
        intro j p hp
        obtain ⟨h1, h2⟩ := List.getElem?_zip_eq_some.1 hp
        rw [hlen.2 j] at h1
        obtain ⟨row, hr, he⟩ := Option.bind_eq_some_iff.1 h1
        refine ⟨row, hr, he, ?_⟩
        simp [getUp, hs1, hr, h2]
      have := indexRows_spec (ext := ext) (s := s1) (mk := .up s.batches.length)
        (op := fun j => (rows[j]?.map Mut.put).getD .del)
        (ks.zip ts) 0 s.index log hw.sorted
        (fun e he => ext_points hext (hw.points e he))
        (fun w => (ext_content hext hw.points w).trans (hlog w))
        (by
          intro j p hp
          obtain ⟨row, hr, he, hg⟩ := hget j p hp
          simp only [Nat.zero_add]
          exact ⟨⟨row, hg, he⟩, by simp [res, hg, hr]⟩)
      refine ⟨⟨this.1, ?_⟩, ?_, rfl, by simp, rfl, by omega⟩
      · intro e he
        have := this.2.1 e he
        exact this
      · intro w
        rw [putWrites_eq hl hks .del]
        have := this.2.2 w
        simp only [Nat.zero_add] at this
        exact this

theorem tryInsertDelete_ok {ext : R → Option K} {s s' : Inner K R}
    {keys : List (K × Nat)}
    (hw : WF ext s) {log : List (Ver K R)} (hlog : ∀ w, Content s s.index w ↔ LastWrite log w)
    (h : tryInsertDelete s (keys.map (fun p => (some p.1, some p.2))) = .ok s') :
    WF ext s' ∧ (∀ w, Content s' s'.index w ↔ LastWrite (log ++ delWrites keys) w) ∧
      s'.cap = s.cap ∧ s'.batches = s.batches := by
  unfold tryInsertDelete at h
  have m1 : ∀ l : List (K × Nat), (l.map (fun p => (some p.1, some p.2))).mapM (·.1) =
      some (l.map Prod.fst) := by
    intro l; induction l with
    | nil => rfl
    | cons a l ih => simp [List.mapM_cons, ih]
  have m2 : ∀ l : List (K × Nat), (l.map (fun p => (some p.1, some p.2))).mapM (·.2) =
      some (l.map Prod.snd) := by
    intro l; induction l with
    | nil => rfl
    | cons a l ih => simp [List.mapM_cons, ih]
  split at h
  · rename_i he
    simp only [TryRes.ok.injEq] at h
    subst h
    have : keys = [] := by simpa using he
    subst this
    exact ⟨hw, by simpa [delWrites] using hlog, rfl, rfl⟩
  · rw [m1, m2] at h
    simp only at h
    split at h
    · cases h
    · simp only [TryRes.ok.injEq] at h
      subst h
      have hz : (keys.map Prod.fst).zip (keys.map Prod.snd) = keys := by
        rw [List.zip_map']; simp
      have hext := ext_dels s (some ⟨keys.map Prod.fst, keys.map Prod.snd⟩)
      set s1 : Inner K R :=
        { s with dels := s.dels ++ [some ⟨keys.map Prod.fst, keys.map Prod.snd⟩] } with hs1
      have := indexRows_spec (ext := ext) (s := s1) (mk := .dl s.dels.length)
        (op := fun _ => .del) keys 0 s.index log hw.sorted
        (fun e he => ext_points hext (hw.points e he))
        (fun w => (ext_content hext hw.points w).trans (hlog w))
        (by
          intro j p hp
          simp only [Nat.zero_add]
          refine ⟨?_, rfl⟩
          simp [Points, getDl, hs1, hp])
      rw [hz]
      refine ⟨⟨this.1, this.2.1⟩, ?_, rfl, rfl⟩
      intro w
      have := this.2.2 w
      rw [mapIdx_const] at this
      exact this

/-- A rejected insert leaves the visible content as it was. -/
theorem tryInsertBatch_err {ext : R → Option K} {s s' : Inner K R} {rows : List R} {ts : List Nat}
    {e : Err} (hw : WF ext s) (h : tryInsertBatch ext s rows ts = .err e s') :
    WF ext s' ∧ s'.index = s.index ∧ (∀ w, Content s' s'.index w ↔ Content s s.index w) := by
  unfold tryInsertBatch at h
  split at h
  · cases h
  · split at h
    · simp only [TryRes.err.injEq] at h
      obtain ⟨_, rfl⟩ := h
      have hext := ext_batches s ⟨rows, ts⟩
      exact ⟨⟨hw.sorted, fun e he => ext_points hext (hw.points e he)⟩, rfl,
        fun w => ext_content hext hw.points w⟩
    · cases h

theorem tryInsertDelete_err {ext : R → Option K} {s s' : Inner K R}
    {batch : List (Option K × Option Nat)} {e : Err} (hw : WF ext s)
    (h : tryInsertDelete s batch = .err e s') :
    WF ext s' ∧ s'.index = s.index ∧ (∀ w, Content s' s'.index w ↔ Content s s.index w) := by
  unfold tryInsertDelete at h
  split at h
  · cases h
  · split at h
    · simp only [TryRes.err.injEq] at h
      obtain ⟨_, rfl⟩ := h
      exact ⟨hw, rfl, fun _ => Iff.rfl⟩
    · split at h
      · cases h
      · split at h
        · simp only [TryRes.err.injEq] at h
          obtain ⟨_, rfl⟩ := h
          have hext := ext_dels s none
          exact ⟨⟨hw.sorted, fun e he => ext_points hext (hw.points e he)⟩, rfl,
            fun w => ext_content hext hw.points w⟩
        · cases h

/-! ## Scans -/

/-- The entry for an index entry with mutation `m`. -/
def mkEntry (kt : KT K) : Mut R → Entry K R
  | .put r => .row kt r
  | .del => .tomb kt

omit [LinearOrder K] in
theorem toVer_mkEntry (kt : KT K) (m : Mut R) : toVer (mkEntry kt m) = ⟨kt.key, kt.ts, m⟩ := by
  cases m <;> rfl

/-- An index with the mutations looked up. -/
def resolve (s : Inner K R) (ix : List (KT K × Loc)) : List (KT K × Mut R) :=
  ix.map (fun e => (e.1, (res s e.2).getD .del))

theorem resolve_sorted {s : Inner K R} {ix : List (KT K × Loc)} (h : SMap.Sorted ix) :
    SMap.Sorted (resolve s ix) := by
  unfold SMap.Sorted resolve
  rw [List.pairwise_map]
  exact h

theorem scanLoop_eq {ext : R → Option K} {s : Inner K R} {rts : Nat} :
    ∀ (ix : List (KT K × Loc)) (cur : Option K) (em : Bool), (∀ e ∈ ix, Points ext s e) →
      scanLoop s rts ix cur em =
        some ((scanG rts (resolve s ix) cur em).map (fun e => mkEntry e.1 e.2))
  | [], cur, em, _ => by simp [scanLoop, resolve, scanG]
  | (kt, loc) :: rest, cur, em, h => by
    have ih := fun cur em => scanLoop_eq (ext := ext) (s := s) (rts := rts) rest cur em
      (fun e he => h e (List.mem_cons_of_mem _ he))
    have hp := h _ List.mem_cons_self
    simp only [scanLoop, resolve, List.map_cons, scanG]
    split
    · exact ih _ _
    · split
      · exact ih _ _
      · cases loc with
        | dl b r => simp [ih, res, mkEntry, resolve]
        | up b r =>
          obtain ⟨row, hg, _⟩ := hp
          simp only at hg
          simp [ih, res, mkEntry, hg, resolve]

/-- The scan of a well-formed table over a sub-index. -/
theorem scanLoop_spec {ext : R → Option K} {s : Inner K R} (hw : WF ext s) {rts : Nat}
    {f : K → Bool} {g : KT K × Loc → Bool} (hg : ∀ e ∈ s.index, g e = f e.1.key) :
    ∃ out, scanLoop s rts (s.index.filter g) none false = some out ∧
      IsVersionScan (Content s s.index) rts (fun k => f k = true) (out.map toVer) := by
  have hsub : ∀ e ∈ s.index.filter g, e ∈ s.index ∧ f e.1.key = true := by
    intro e he
    have := List.mem_filter.1 he
    exact ⟨this.1, by rw [← hg e this.1]; exact this.2⟩
  have hs : SMap.Sorted (resolve s (s.index.filter g)) :=
    resolve_sorted (List.Pairwise.filter _ hw.sorted)
  refine ⟨_, scanLoop_eq _ none false (fun e he => hw.points e (hsub e he).1), ?_, ?_⟩
  · rw [List.map_map, List.pairwise_map]
    refine List.Pairwise.imp ?_ (scanG_sorted hs (by simp))
    intro a b hab
    simpa [toVer_mkEntry] using hab
  · intro w
    have hmemres : ∀ (kt : KT K) (m : Mut R), (kt, m) ∈ resolve s (s.index.filter g) ↔
        (f kt.key = true ∧ Content s s.index ⟨kt.key, kt.ts, m⟩) := by
      intro kt m
      simp only [resolve, List.mem_map, Prod.mk.injEq]
      constructor
      · rintro ⟨e, he, rfl, rfl⟩
        refine ⟨(hsub e he).2, e.2, (hsub e he).1, ?_⟩
        have hp := hw.points e (hsub e he).1
        obtain ⟨kt, loc⟩ := e
        cases loc with
        | up b r => obtain ⟨row, h1, _⟩ := hp; simp only at h1; simp [res, h1]
        | dl b r => rfl
      · rintro ⟨hf, loc, hm, hr⟩
        refine ⟨(kt, loc), List.mem_filter.2 ⟨hm, by rw [hg _ hm]; exact hf⟩, rfl, ?_⟩
        simp only at hr
        simp [hr]
    constructor
    · intro hw'
      obtain ⟨e, he, rfl⟩ := List.mem_map.1 hw'
      obtain ⟨⟨kt, m⟩, hm, rfl⟩ := List.mem_map.1 he
      rw [scanG_mem hs (by simp)] at hm
      obtain ⟨h1, h2, _, h4⟩ := hm
      rw [toVer_mkEntry]
      have := (hmemres kt m).1 h1
      refine ⟨this.1, this.2, h2, ?_⟩
      intro u hu hk ht
      have hu' : (⟨u.key, u.ts⟩, u.op) ∈ resolve s (s.index.filter g) :=
        (hmemres ⟨u.key, u.ts⟩ u.op).2 ⟨by simp at hk; rw [hk]; exact this.1, hu⟩
      exact h4 _ hu' hk ht
    · rintro ⟨hf, hc, ht, hn⟩
      refine List.mem_map.2 ⟨mkEntry ⟨w.key, w.ts⟩ w.op, ?_, by rw [toVer_mkEntry]⟩
      refine List.mem_map.2 ⟨(⟨w.key, w.ts⟩, w.op), ?_, rfl⟩
      rw [scanG_mem hs (by simp)]
      refine ⟨(hmemres _ _).2 ⟨hf, hc⟩, ht, by simp, ?_⟩
      intro q hq hk hqt
      have := (hmemres q.1 q.2).1 hq
      exact hn ⟨q.1.key, q.1.ts, q.2⟩ this.2 hk hqt

theorem isVersionScan_congr {H H' : Ver K R → Prop} (h : ∀ w, H w ↔ H' w) {rts : Nat}
    {p p' : K → Prop} (hp : ∀ k, p k ↔ p' k) {out : List (Ver K R)} :
    IsVersionScan H rts p out ↔ IsVersionScan H' rts p' out := by
  have h1 : H = H' := funext fun w => propext (h w)
  have h2 : p = p' := funext fun w => propext (hp w)
  rw [h1, h2]

end Tonbo.Lemmas.Mem
