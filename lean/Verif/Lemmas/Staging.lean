import Verif.Spec.StagingView
import Verif.Lemmas.KeyOrder

/-!
# Lemmas on staging
-/

namespace Tonbo.Lemmas.Staging
open Tonbo.Model.Keys Tonbo.Model.Pred Tonbo.Model.Staging Tonbo.Spec.Staging
open Tonbo.Lemmas.Keys

/-! ## Rows -/

theorem rowFits_iff : ∀ {fs : List Field} {r : Row}, rowFits fs r = true ↔ Conforms fs r
  | [], [] => by simp [rowFits, Conforms]
  | [], _ :: _ => by simp [rowFits, Conforms]
  | _ :: _, [] => by simp [rowFits, Conforms]
  | f :: fs, c :: cs => by
    have ih := @rowFits_iff fs cs
    unfold Conforms at ih ⊢
    simp only [rowFits, Bool.and_eq_true, ih, List.forall₂_cons]
    cases c <;> simp [cellFits]

theorem conforms_length {fs : List Field} {r : Row} (h : Conforms fs r) : r.length = fs.length :=
  (List.Forall₂.length_eq h).symm

theorem keyCells_ok {r : Row} : ∀ {cols : List Nat} {i : Nat} {k : List Cell},
    keyCells r i cols = .ok k ↔ List.Forall₂ (fun i c => r[i]? = some (some c)) cols k
  | [], i, k => by
    simp only [keyCells, Except.ok.injEq]
    constructor
    · rintro rfl; exact .nil
    · intro h; cases h; rfl
  | col :: cols, i, k => by
    have ih := fun k => @keyCells_ok r cols (i + 1) k
    simp only [keyCells]
    constructor
    · intro h
      split at h
      · cases h
      · cases h
      · rename_i c hc
        split at h
        · cases h
        · rename_i cs hcs
          cases h
          exact .cons hc ((ih cs).1 hcs)
    · intro h
      cases h with
      | cons h1 h2 =>
        rw [h1]
        simp only
        rw [(ih _).2 h2]

theorem projectKey_ok {t : Table} {r : Row} {k : List Cell} : projectKey t r = .ok k ↔ Stages t r k := by
  unfold projectKey Stages
  by_cases hl : r.length = t.fields.length
  · rw [if_neg (by simpa using hl)]
    by_cases hf : rowFits t.fields r = true
    · rw [if_pos hf, keyCells_ok]
      simp [rowFits_iff.1 hf, HasKey]
    · rw [if_neg hf]
      simp only [reduceCtorEq, false_iff]
      exact fun h => hf (rowFits_iff.2 h.1)
  · rw [if_pos hl]
    simp only [reduceCtorEq, false_iff]
    exact fun h => hl (conforms_length h.1)

theorem stages_unique {t : Table} {r : Row} {k l : List Cell} (h : Stages t r k) (h' : Stages t r l) : k = l := by
  have := (projectKey_ok.2 h).symm.trans (projectKey_ok.2 h')
  cases this; rfl

theorem upsert_ok {t : Table} {st : Staged} {r : Row} {k : List Cell} (h : Stages t r k) :
    upsert t st r = (sput k (.up r) st, .ok ()) := by
  unfold upsert; rw [projectKey_ok.2 h]

theorem upsert_no {t : Table} {st : Staged} {r : Row} (h : ∀ k, ¬ Stages t r k) :
    ∃ e, upsert t st r = (st, .error e) := by
  unfold upsert
  cases hp : projectKey t r with
  | error e => exact ⟨e, rfl⟩
  | ok k => exact absurd (projectKey_ok.1 hp) (h k)

theorem nonNull_ok : ∀ {i : Nat} {key : Row} {k : List Cell}, nonNull i key = .ok k ↔ key = k.map some
  | i, [], k => by
    simp only [nonNull, Except.ok.injEq]
    constructor
    · rintro rfl; rfl
    · intro h; cases k <;> simp_all
  | i, none :: key, k => by
    simp only [nonNull]
    constructor
    · intro h; cases h
    · intro h; cases k <;> simp at h
  | i, some c :: key, k => by
    have ih := fun k => @nonNull_ok (i + 1) key k
    simp only [nonNull]
    constructor
    · intro h
      split at h
      · cases h
      · rename_i k' hk
        cases h
        rw [(ih k').1 hk]; rfl
    · intro h
      cases k with
      | nil => simp at h
      | cons d k =>
        simp only [List.map_cons, List.cons.injEq, Option.some.injEq] at h
        obtain ⟨rfl, h⟩ := h
        rw [(ih k).2 h]

theorem exists_map_some : ∀ {key : Row}, none ∉ key → ∃ k : List Cell, key = k.map some
  | [], _ => ⟨[], rfl⟩
  | none :: key, h => absurd List.mem_cons_self h
  | some c :: key, h => by
    obtain ⟨k, hk⟩ := exists_map_some (key := key) (fun h' => h (List.mem_cons_of_mem _ h'))
    exact ⟨c :: k, by rw [hk]; rfl⟩

theorem validateKey_ok {t : Table} {k : List Cell} (h : k.length = t.keys.length) :
    validateKey t (k.map some) = .ok k := by
  unfold validateKey
  rw [if_neg (by simpa using h), nonNull_ok]

theorem validateKey_no {t : Table} {key : Row} (h : key.length ≠ t.keys.length ∨ none ∈ key) :
    ∃ e, validateKey t key = .error e := by
  unfold validateKey
  by_cases hl : key.length = t.keys.length
  · rw [if_neg (by simpa using hl)]
    cases hn : nonNull 0 key with
    | error e => exact ⟨e, rfl⟩
    | ok k =>
      rw [nonNull_ok] at hn
      rcases h with h | h
      · exact absurd hl h
      · rw [hn] at h; simp at h
  · rw [if_pos hl]; exact ⟨_, rfl⟩

/-! ## Batches -/

theorem reserved_iff {n : String} : reserved n = false ↔ n ≠ "_commit_ts" ∧ n ≠ "_tombstone" := by
  unfold reserved; simp

theorem rowFromBatch_length : ∀ {i : Nat} {fs : List Field} {r r' : Row}, rowFromBatch i fs r = .ok r' →
    r.length = fs.length → r'.length ≤ fs.length ∧ ((∃ f ∈ fs, reserved f.name = true) → r'.length < fs.length)
  | i, [], r, r', h, _ => by
    simp only [rowFromBatch, Except.ok.injEq] at h
    subst h; simp
  | i, f :: fs, [], r', h, hl => by simp at hl
  | i, f :: fs, c :: cs, r', h, hl => by
    simp only [List.length_cons, Nat.add_right_cancel_iff] at hl
    simp only [rowFromBatch] at h
    by_cases hr : reserved f.name = true
    · rw [if_pos hr] at h
      have := rowFromBatch_length h hl
      simp only [List.length_cons]
      exact ⟨by omega, fun _ => by omega⟩
    · rw [if_neg hr] at h
      split at h
      · cases h
      · split at h
        · cases h
        · rename_i r'' hr''
          cases h
          have ih := rowFromBatch_length hr'' hl
          simp only [List.length_cons, List.mem_cons, exists_eq_or_imp]
          refine ⟨by omega, ?_⟩
          rintro (h | h)
          · exact absurd h hr
          · have := ih.2 h; omega

theorem rowFromBatch_eq : ∀ {i : Nat} {fs : List Field} {r r' : Row}, rowFromBatch i fs r = .ok r' →
    r.length = fs.length → (∀ f ∈ fs, reserved f.name = false) → r' = r
  | i, [], r, r', h, hl, _ => by
    simp only [rowFromBatch, Except.ok.injEq] at h
    simp only [List.length_nil, List.length_eq_zero_iff] at hl
    rw [← h, hl]
  | i, f :: fs, [], r', h, hl, _ => by simp at hl
  | i, f :: fs, c :: cs, r', h, hl, hn => by
    simp only [List.length_cons, Nat.add_right_cancel_iff] at hl
    simp only [rowFromBatch] at h
    rw [if_neg (by rw [hn f List.mem_cons_self]; simp)] at h
    split at h
    · cases h
    · split at h
      · cases h
      · rename_i r'' hr''
        cases h
        rw [rowFromBatch_eq hr'' hl (fun f hf => hn f (List.mem_cons_of_mem _ hf))]

theorem rowFromBatch_ok : ∀ {i : Nat} {fs : List Field} {r : Row}, r.length = fs.length →
    (∀ f ∈ fs, reserved f.name = false) →
    ((∀ (j : Nat) (f : Field) (c : Cell), fs[j]? = some f → r[j]? = some (some c) → readable f.type = true) ↔
      rowFromBatch i fs r = .ok r)
  | i, [], r, hl, _ => by
    simp only [List.length_nil, List.length_eq_zero_iff] at hl
    subst hl; simp [rowFromBatch]
  | i, f :: fs, [], hl, _ => by simp at hl
  | i, f :: fs, c :: cs, hl, hn => by
    simp only [List.length_cons, Nat.add_right_cancel_iff] at hl
    have ih := @rowFromBatch_ok (i + 1) fs cs hl (fun f hf => hn f (List.mem_cons_of_mem _ hf))
    simp only [rowFromBatch]
    rw [if_neg (by rw [hn f List.mem_cons_self]; simp)]
    constructor
    · intro h
      rw [if_neg]
      · rw [ih.1 (fun j g v h1 h2 => h (j + 1) g v (by simpa using h1) (by simpa using h2))]
      · cases c with
        | none => simp
        | some v => simp [h 0 f v rfl rfl]
    · intro h
      split at h
      · cases h
      · rename_i hc
        split at h
        · cases h
        · rename_i r'' hr''
          cases h
          intro j g v h1 h2
          cases j with
          | zero =>
            simp only [List.getElem?_cons_zero, Option.some.injEq] at h1 h2
            subst h1; subst h2
            simpa using hc
          | succ j => exact ih.2 hr'' j g v (by simpa using h1) (by simpa using h2)

theorem readable_iff {t : Table} {r : Row} (hl : r.length = t.fields.length) :
    Readable t r ↔ rowFromBatch 0 t.fields r = .ok r := by
  unfold Readable
  by_cases hn : ∀ f ∈ t.fields, reserved f.name = false
  · rw [← rowFromBatch_ok hl hn]
    exact ⟨fun h => h.2, fun h => ⟨fun f hf => reserved_iff.1 (hn f hf), h⟩⟩
  · constructor
    · intro h
      exact absurd (fun f hf => reserved_iff.2 (h.1 f hf)) hn
    · intro h
      have := (rowFromBatch_length h hl).2 (by
        simp only [not_forall] at hn
        obtain ⟨f, hf, hx⟩ := hn
        exact ⟨f, hf, by simpa using hx⟩)
      omega

/-- One row of a batch. -/
theorem batchRow_no {t : Table} {st : Staged} {r : Row} (hl : r.length = t.fields.length)
    (h : ¬ Readable t r ∨ ∀ k, ¬ Stages t r k) :
    (∃ e, rowFromBatch 0 t.fields r = .error e) ∨ ∃ r' e, rowFromBatch 0 t.fields r = .ok r' ∧ upsert t st r' = (st, .error e) := by
  cases hb : rowFromBatch 0 t.fields r with
  | error e => exact .inl ⟨e, rfl⟩
  | ok r' =>
    refine .inr ⟨r', ?_⟩
    by_cases hn : ∀ f ∈ t.fields, reserved f.name = false
    · have := rowFromBatch_eq hb hl hn
      subst this
      rcases h with h | h
      · exact absurd ((readable_iff hl).2 hb) h
      · obtain ⟨e, he⟩ := upsert_no (st := st) h
        exact ⟨e, rfl, he⟩
    · have hlt := (rowFromBatch_length hb hl).2 (by
        simp only [not_forall] at hn
        obtain ⟨f, hf, hx⟩ := hn
        exact ⟨f, hf, by simpa using hx⟩)
      obtain ⟨e, he⟩ := upsert_no (t := t) (st := st) (r := r') (fun k hk => by
        have := conforms_length hk.1; omega)
      exact ⟨e, rfl, he⟩

/-! ## Calls -/

/-- Staging a list of words. -/
def stage (st : Staged) (l : List (List Cell × Mutation)) : Staged := l.foldl (fun st p => sput p.1 p.2 st) st

theorem upsertRows_said {t : Table} : ∀ {rs : List Row} {l b} {st : Staged}, RowsSaid t (fun _ => True) rs l b →
    (upsertRows t st rs).1 = stage st l ∧ ((upsertRows t st rs).2 = .ok () ↔ b = true)
  | [], _, _, st, h => by cases h; simp [upsertRows, stage]
  | r :: rs, _, _, st, h => by
    cases h with
    | cons _ hs h =>
      unfold upsertRows
      rw [upsert_ok hs]
      exact upsertRows_said h
    | stop h =>
      obtain ⟨e, he⟩ := upsert_no (st := st) (h.resolve_left (by simp))
      unfold upsertRows
      rw [he]; simp [stage]

theorem upsertBatchRows_said {t : Table} : ∀ {rs : List Row} {l b} {st : Staged},
    (∀ r ∈ rs, r.length = t.fields.length) → RowsSaid t (Readable t) rs l b →
    (upsertBatchRows t st rs).1 = stage st l ∧ ((upsertBatchRows t st rs).2 = .ok () ↔ b = true)
  | [], _, _, st, _, h => by cases h; simp [upsertBatchRows, stage]
  | r :: rs, _, _, st, hl, h => by
    cases h with
    | cons hr hs h =>
      unfold upsertBatchRows
      rw [(readable_iff (hl r List.mem_cons_self)).1 hr]
      simp only
      rw [upsert_ok hs]
      exact upsertBatchRows_said (fun r hr => hl r (List.mem_cons_of_mem _ hr)) h
    | stop h =>
      unfold upsertBatchRows
      rcases batchRow_no (st := st) (hl r List.mem_cons_self) h with ⟨e, he⟩ | ⟨r', e, h1, h2⟩
      · rw [he]; simp [stage]
      · rw [h1]; simp only; rw [h2]; simp [stage]

theorem call_said {t : Table} {st : Staged} {c : Call} {l b} (hr : Rect c) (h : Said t c l b) :
    (call t st c).1 = stage st l ∧ ((call t st c).2 = .ok () ↔ b = true) := by
  cases h with
  | upsert h =>
    cases h with
    | cons _ hs h => cases h; simp [call, upsert_ok hs, stage]
    | stop h =>
      obtain ⟨e, he⟩ := upsert_no (st := st) (h.resolve_left (by simp))
      simp [call, he, stage]
  | upsertRows h => exact upsertRows_said h
  | upsertBatch h =>
    unfold call upsertBatch
    simp only [ne_eq, not_true_eq_false, if_false]
    exact upsertBatchRows_said hr h
  | otherBatch h =>
    unfold call upsertBatch
    simp only
    rw [if_pos h]; simp [stage]
  | delete h =>
    unfold call delete
    simp only
    rw [validateKey_ok h]; simp [stage]
  | noDelete h =>
    obtain ⟨e, he⟩ := validateKey_no h
    unfold call delete
    simp only
    rw [he]; simp [stage]

theorem calls_said {t : Table} : ∀ {cs : List Call} {m : List (List Cell × Mutation)} {st : Staged},
    (∀ c ∈ cs, Rect c) → AllSaid t cs m → calls t st cs = stage st m
  | [], _, st, _, h => by cases h; rfl
  | c :: cs, _, st, hr, h => by
    cases h with
    | @cons _ _ l m b h1 h2 =>
      unfold calls
      rw [List.foldl_cons, (call_said (hr c List.mem_cons_self) h1).1]
      have := calls_said (st := stage st l) (fun c hc => hr c (List.mem_cons_of_mem _ hc)) h2
      unfold calls at this
      rw [this]
      unfold stage
      rw [List.foldl_append]

theorem rowsSaid_total (t : Table) (P : Row → Prop) : ∀ rs : List Row, ∃ l b, RowsSaid t P rs l b
  | [] => ⟨[], true, .nil⟩
  | r :: rs => by
    by_cases h : P r ∧ ∃ k, Stages t r k
    · obtain ⟨hp, k, hk⟩ := h
      obtain ⟨l, b, hl⟩ := rowsSaid_total t P rs
      exact ⟨_, _, .cons hp hk hl⟩
    · exact ⟨_, _, .stop (by
        by_cases hp : P r
        · exact .inr (fun k hk => h ⟨hp, k, hk⟩)
        · exact .inl hp)⟩

theorem said_total (t : Table) (c : Call) : ∃ l b, Said t c l b := by
  cases c with
  | upsert r =>
    obtain ⟨l, b, h⟩ := rowsSaid_total t (fun _ => True) [r]
    exact ⟨l, b, .upsert h⟩
  | upsertRows rs =>
    obtain ⟨l, b, h⟩ := rowsSaid_total t (fun _ => True) rs
    exact ⟨l, b, .upsertRows h⟩
  | upsertBatch fs rows =>
    by_cases hf : fs = t.fields
    · subst hf
      obtain ⟨l, b, h⟩ := rowsSaid_total t (Readable t) rows
      exact ⟨l, b, .upsertBatch h⟩
    · exact ⟨_, _, .otherBatch hf⟩
  | delete key =>
    by_cases hk : key.length ≠ t.keys.length ∨ none ∈ key
    · exact ⟨_, _, .noDelete hk⟩
    · simp only [not_or, not_not] at hk
      obtain ⟨k, rfl⟩ := exists_map_some hk.2
      exact ⟨_, _, .delete (by simpa using hk.1)⟩

theorem allSaid_total (t : Table) : ∀ cs : List Call, ∃ m, AllSaid t cs m
  | [] => ⟨[], .nil⟩
  | c :: cs => by
    obtain ⟨l, b, h⟩ := said_total t c
    obtain ⟨m, hm⟩ := allSaid_total t cs
    exact ⟨_, .cons h hm⟩

/-! ## The map -/

/-- The place of a key. -/
abbrev rk (k : List Cell) : List V := k.map rank

/-- Keys ascend, and are compared by value. -/
def Ok (st : Staged) : Prop := st.Pairwise (fun a b => rk a.1 < rk b.1) ∧ ∀ p ∈ st, GoodKey p.1

theorem sput_mem {k : List Cell} {m : Mutation} : ∀ {st : Staged} {p}, p ∈ sput k m st →
    p ∈ st ∨ p = (k, m) ∨ (p.2 = m ∧ ∃ m', (p.1, m') ∈ st ∧ rowCmp k p.1 = .eq)
  | [], p, h => by simp only [sput, List.mem_singleton] at h; exact .inr (.inl h)
  | (k', m') :: st, p, h => by
    simp only [sput] at h
    cases hc : rowCmp k k' with
    | lt =>
      rw [hc] at h
      rcases List.mem_cons.1 h with h | h
      · exact .inr (.inl h)
      · exact .inl h
    | eq =>
      rw [hc] at h
      rcases List.mem_cons.1 h with h | h
      · subst h; exact .inr (.inr ⟨rfl, m', List.mem_cons_self, hc⟩)
      · exact .inl (List.mem_cons_of_mem _ h)
    | gt =>
      rw [hc] at h
      rcases List.mem_cons.1 h with h | h
      · exact .inl (h ▸ List.mem_cons_self)
      · rcases sput_mem h with h | h | ⟨h1, m'', h2, h3⟩
        · exact .inl (List.mem_cons_of_mem _ h)
        · exact .inr (.inl h)
        · exact .inr (.inr ⟨h1, m'', List.mem_cons_of_mem _ h2, h3⟩)

theorem sput_key {k : List Cell} {m : Mutation} {st : Staged} {p} (h : p ∈ sput k m st) :
    p.1 = k ∨ ∃ m', (p.1, m') ∈ st := by
  rcases sput_mem h with h | h | ⟨_, m', h, _⟩
  · exact .inr ⟨p.2, h⟩
  · exact .inl (by rw [h])
  · exact .inr ⟨m', h⟩

theorem sput_rk {k : List Cell} {m : Mutation} {st : Staged} {p}
    (h : p ∈ sput k m st) : rk p.1 = rk k ∨ ∃ q ∈ st, rk p.1 = rk q.1 := by
  rcases sput_key h with h | ⟨m', h⟩
  · exact .inl (by rw [h])
  · exact .inr ⟨_, h, rfl⟩

theorem ok_sput {k : List Cell} {m : Mutation} (hk : GoodKey k) : ∀ {st : Staged}, Ok st → Ok (sput k m st)
  | [], _ => ⟨by simp [sput], by simpa [sput] using hk⟩
  | (k', m') :: st, ⟨h1, h2⟩ => by
    have hk' : GoodKey k' := h2 _ List.mem_cons_self
    have hst : ∀ p ∈ st, GoodKey p.1 := fun p hp => h2 p (List.mem_cons_of_mem _ hp)
    obtain ⟨h3, h4⟩ := List.pairwise_cons.1 h1
    simp only [sput]
    cases hc : rowCmp k k' with
    | lt =>
      have hlt := (rowCmp_lt hk hk').1 hc
      refine ⟨List.pairwise_cons.2 ⟨?_, h1⟩, ?_⟩
      · intro p hp
        rcases List.mem_cons.1 hp with rfl | hp
        · exact hlt
        · exact lt_trans hlt (h3 p hp)
      · intro p hp
        rcases List.mem_cons.1 hp with rfl | hp
        · exact hk
        · exact h2 p hp
    | eq =>
      refine ⟨List.pairwise_cons.2 ⟨h3, h4⟩, ?_⟩
      intro p hp
      rcases List.mem_cons.1 hp with rfl | hp
      · exact hk'
      · exact hst p hp
    | gt =>
      have hgt := (rowCmp_gt hk hk').1 hc
      have ih := ok_sput (m := m) hk (st := st) ⟨h4, hst⟩
      refine ⟨List.pairwise_cons.2 ⟨?_, ih.1⟩, ?_⟩
      · intro p hp
        rcases sput_rk hp with h | ⟨q, hq, h⟩
        · show rk k' < rk p.1
          rw [h]; exact hgt
        · show rk k' < rk p.1
          rw [h]; exact h3 q hq
      · intro p hp
        rcases List.mem_cons.1 hp with rfl | hp
        · exact hk'
        · exact ih.2 p hp

theorem sget_none {j : List Cell} (hj : GoodKey j) : ∀ {st : Staged}, (∀ p ∈ st, GoodKey p.1) →
    (∀ p ∈ st, rk j < rk p.1) → sget j st = none
  | [], _, _ => rfl
  | (k', m') :: st, h1, h2 => by
    unfold sget
    rw [if_neg]
    · exact sget_none hj (fun p hp => h1 p (List.mem_cons_of_mem _ hp)) (fun p hp => h2 p (List.mem_cons_of_mem _ hp))
    · rw [rowCmp_eq hj (h1 _ List.mem_cons_self)]
      exact (h2 _ List.mem_cons_self).ne

theorem sget_sput {j k : List Cell} {m : Mutation} (hj : GoodKey j) (hk : GoodKey k) : ∀ {st : Staged}, Ok st →
    sget j (sput k m st) = if rowCmp j k = .eq then some m else sget j st
  | [], _ => by simp only [sput, sget]
  | (k', m') :: st, ⟨h1, h2⟩ => by
    have hk' : GoodKey k' := h2 _ List.mem_cons_self
    have hst : ∀ p ∈ st, GoodKey p.1 := fun p hp => h2 p (List.mem_cons_of_mem _ hp)
    obtain ⟨h3, h4⟩ := List.pairwise_cons.1 h1
    simp only [sput]
    cases hc : rowCmp k k' with
    | lt => simp only [sget]
    | eq =>
      have he := (rowCmp_eq hk hk').1 hc
      have : rowCmp j k = .eq ↔ rowCmp j k' = .eq := by
        rw [rowCmp_eq hj hk, rowCmp_eq hj hk', he]
      by_cases hjk : rowCmp j k = .eq
      · simp only [sget]; rw [if_pos (this.1 hjk), if_pos hjk]
      · simp only [sget]; rw [if_neg (fun h => hjk (this.2 h)), if_neg hjk, if_neg (fun h => hjk (this.2 h))]
    | gt =>
      have hgt := (rowCmp_gt hk hk').1 hc
      have ih := sget_sput (m := m) hj hk (st := st) ⟨h4, hst⟩
      simp only [sget]
      by_cases hjk' : rowCmp j k' = .eq
      · rw [if_pos hjk', if_pos hjk', if_neg]
        rw [rowCmp_eq hj hk, (rowCmp_eq hj hk').1 hjk']
        exact hgt.ne
      · rw [if_neg hjk', if_neg hjk', ih]

theorem ok_stage : ∀ {l : List (List Cell × Mutation)} {st : Staged}, Ok st → (∀ p ∈ l, GoodKey p.1) → Ok (stage st l)
  | [], _, h, _ => h
  | p :: l, st, h, hl => by
    unfold stage
    rw [List.foldl_cons]
    exact ok_stage (l := l) (ok_sput (hl p List.mem_cons_self) h) (fun q hq => hl q (List.mem_cons_of_mem _ hq))

theorem sget_stage {j : List Cell} (hj : GoodKey j) (l : List (List Cell × Mutation)) : ∀ {st : Staged}, Ok st →
    (∀ p ∈ l, GoodKey p.1) → sget j (stage st l) = (lastWord j l).or (sget j st) := by
  induction l with
  | nil => intro st _ _; simp [stage, lastWord]
  | cons p l ih =>
    intro st h hl
    have hp := hl p List.mem_cons_self
    have := ih (ok_sput (m := p.2) hp h) (fun q hq => hl q (List.mem_cons_of_mem _ hq))
    unfold stage at this ⊢
    rw [List.foldl_cons, this, sget_sput hj hp h]
    unfold lastWord
    rw [List.reverse_cons, List.find?_append]
    cases hf : l.reverse.find? (fun p => decide (rowCmp j p.1 = .eq)) with
    | some q => simp
    | none =>
      simp only [List.find?_singleton, Option.map_none, Option.none_or]
      by_cases hc : rowCmp j p.1 = .eq
      · simp [hc]
      · simp [hc]

theorem sget_of_mem : ∀ {st : Staged} {k m}, Ok st → (k, m) ∈ st → sget k st = some m
  | [], _, _, _, h => by simp at h
  | (k', m') :: st, k, m, ⟨h1, h2⟩, h => by
    have hk' : GoodKey k' := h2 _ List.mem_cons_self
    have hst : ∀ p ∈ st, GoodKey p.1 := fun p hp => h2 p (List.mem_cons_of_mem _ hp)
    obtain ⟨h3, h4⟩ := List.pairwise_cons.1 h1
    simp only [sget]
    rcases List.mem_cons.1 h with h | h
    · cases h
      rw [if_pos ((rowCmp_eq hk' hk').2 rfl)]
    · rw [if_neg, sget_of_mem ⟨h4, hst⟩ h]
      rw [rowCmp_eq (hst _ h) hk']
      exact (h3 _ h).ne'

theorem mem_of_sget : ∀ {st : Staged} {k m}, sget k st = some m → ∃ k', rowCmp k k' = .eq ∧ (k', m) ∈ st
  | [], _, _, h => by simp [sget] at h
  | (k', m') :: st, k, m, h => by
    simp only [sget] at h
    split at h
    · cases h; exact ⟨k', ‹_›, List.mem_cons_self⟩
    · obtain ⟨k'', h1, h2⟩ := mem_of_sget h
      exact ⟨k'', h1, List.mem_cons_of_mem _ h2⟩

/-- Every entry: its key is one that was said, its mutation is one that was said of an equal key. -/
theorem stage_mem : ∀ {l : List (List Cell × Mutation)} {st : Staged} {p}, p ∈ stage st l →
    (p.1 ∈ l.map (·.1) ∨ p.1 ∈ st.map (·.1)) ∧ (p.2 ∈ l.map (·.2) ∨ p ∈ st)
  | [], _, p, h => ⟨.inr (List.mem_map_of_mem h), .inr h⟩
  | q :: l, st, p, h => by
    unfold stage at h
    rw [List.foldl_cons] at h
    obtain ⟨h1, h2⟩ := stage_mem (l := l) h
    constructor
    · rcases h1 with h1 | h1
      · exact .inl (List.mem_cons_of_mem _ h1)
      · obtain ⟨p', hp', he⟩ := List.mem_map.1 h1
        rcases sput_key hp' with h | ⟨m', h⟩
        · left; rw [← he, h]; exact List.mem_cons_self
        · right; rw [← he]; exact List.mem_map.2 ⟨_, h, rfl⟩
    · rcases h2 with h2 | h2
      · exact .inl (List.mem_cons_of_mem _ h2)
      · rcases sput_mem h2 with h | h | ⟨h, _⟩
        · exact .inr h
        · left; rw [h]; exact List.mem_cons_self
        · left; rw [h]; exact List.mem_cons_self

/-! ## The batches of a commit -/

theorem mutations_ups {r : Row} : ∀ {st : Staged}, r ∈ (mutations st).1 ↔ ∃ k, (k, Mutation.up r) ∈ st
  | [] => by simp [mutations]
  | (k, .up r') :: st => by
    have ih := @mutations_ups r st
    simp only [mutations, List.mem_cons, ih, Prod.mk.injEq, Mutation.up.injEq]
    constructor
    · rintro (rfl | ⟨k', h⟩)
      · exact ⟨k, .inl ⟨rfl, rfl⟩⟩
      · exact ⟨k', .inr h⟩
    · rintro ⟨k', ⟨_, h⟩ | h⟩
      · exact .inl h
      · exact .inr ⟨k', h⟩
  | (k, .del) :: st => by
    have ih := @mutations_ups r st
    simp only [mutations, List.mem_cons, ih, Prod.mk.injEq, reduceCtorEq, and_false, false_or]

theorem mutations_dels {k : List Cell} : ∀ {st : Staged}, k ∈ (mutations st).2 ↔ (k, Mutation.del) ∈ st
  | [] => by simp [mutations]
  | (k', .up r') :: st => by
    have ih := @mutations_dels k st
    simp only [mutations, List.mem_cons, ih, Prod.mk.injEq, reduceCtorEq, and_false, false_or]
  | (k', .del) :: st => by
    have ih := @mutations_dels k st
    simp only [mutations, List.mem_cons, ih, Prod.mk.injEq, and_true]

/-- The row of a delete. -/
def delRow (ts : Nat) (k : List Cell) : Row := k.map some ++ [some (.int .u64 (ts : Int))]

theorem rowFits_append {fs gs : List Field} : ∀ {r s : Row}, r.length = fs.length →
    rowFits (fs ++ gs) (r ++ s) = (rowFits fs r && rowFits gs s) := by
  induction fs with
  | nil => intro r s h; simp only [List.length_nil, List.length_eq_zero_iff] at h; subst h; simp [rowFits]
  | cons f fs ih =>
    intro r s h
    cases r with
    | nil => simp at h
    | cons c r =>
      simp only [List.length_cons, Nat.add_right_cancel_iff] at h
      simp [rowFits, ih h, Bool.and_assoc]

theorem rowFits_length {fs : List Field} {r : Row} (h : rowFits fs r = true) : r.length = fs.length :=
  conforms_length (rowFits_iff.1 h)

/-- The key columns exist. -/
def KeysIn (t : Table) : Prop := ∀ i ∈ t.keys, i < t.fields.length

theorem keyFields_fits {fs : List Field} : ∀ {is : List Nat} {k : List Cell}, (∀ i ∈ is, i < fs.length) →
    (rowFits (is.filterMap (fun i => fs[i]?)) (k.map some) = true ↔
      List.Forall₂ (fun i c => ∃ f, fs[i]? = some f ∧ typeFits f.type c = true) is k)
  | [], [], _ => by simp [rowFits]
  | [], _ :: _, _ => by simp [rowFits]
  | i :: is, k, h => by
    have hi := h i List.mem_cons_self
    have hf : fs[i]? = some fs[i] := List.getElem?_eq_getElem hi
    rw [List.filterMap_cons, hf]
    cases k with
    | nil => simp [rowFits]
    | cons c k =>
      have ih := @keyFields_fits fs is k (fun j hj => h j (List.mem_cons_of_mem _ hj))
      simp only [List.map_cons, rowFits, Bool.and_eq_true, ih, List.forall₂_cons, cellFits, hf, Option.some.injEq, exists_eq_left']

theorem filterMap_length {fs : List Field} : ∀ {is : List Nat}, (∀ i ∈ is, i < fs.length) →
    (is.filterMap (fun i => fs[i]?)).length = is.length
  | [], _ => rfl
  | i :: is, h => by
    have hf : fs[i]? = some (fs[i]'(h i List.mem_cons_self)) := List.getElem?_eq_getElem _
    rw [List.filterMap_cons, hf]
    simp [filterMap_length (fun j hj => h j (List.mem_cons_of_mem _ hj))]

theorem delRow_fits {t : Table} (ht : KeysIn t) (ts : Nat) (k : List Cell) :
    (k.length = t.keys.length ∧ rowFits (deleteFields t) (delRow ts k) = true) ↔ KeyFits t k := by
  unfold deleteFields delRow KeyFits
  rw [← keyFields_fits ht]
  have hl := filterMap_length ht
  constructor
  · rintro ⟨h1, h2⟩
    rw [rowFits_append (by simp [hl, h1])] at h2
    exact (Bool.and_eq_true _ _ ▸ h2).1
  · intro h
    have h1 : k.length = t.keys.length := by
      have := rowFits_length h
      simpa [hl] using this
    refine ⟨h1, ?_⟩
    rw [rowFits_append (by simp [hl, h1]), h]
    simp [rowFits, cellFits, typeFits]

theorem buildDeletes_ok {t : Table} (ht : KeysIn t) {ts : Nat} : ∀ {ks : List (List Cell)} {rs},
    buildDeletes t ts ks = .ok rs ↔ (∀ k ∈ ks, KeyFits t k) ∧ rs = ks.map (delRow ts)
  | [], rs => by simp [buildDeletes, eq_comm]
  | k :: ks, rs => by
    have ih := fun rs => @buildDeletes_ok t ht ts ks rs
    have hd := delRow_fits ht ts k
    unfold delRow at hd
    unfold buildDeletes
    by_cases h1 : k.length = t.keys.length
    · rw [if_neg (by simpa using h1)]
      by_cases h2 : rowFits (deleteFields t) (k.map some ++ [some (.int .u64 (ts : Int))]) = true
      · rw [if_pos h2]
        have hk := hd.1 ⟨h1, h2⟩
        cases hb : buildDeletes t ts ks with
        | error e =>
          simp only [reduceCtorEq, false_iff]
          rintro ⟨h, _⟩
          have := (ih _).2 ⟨fun k hk => h k (List.mem_cons_of_mem _ hk), rfl⟩
          rw [hb] at this; cases this
        | ok rs' =>
          obtain ⟨h3, rfl⟩ := (ih rs').1 hb
          simp only [Except.ok.injEq]
          constructor
          · rintro rfl
            refine ⟨?_, rfl⟩
            intro k' hk'
            rcases List.mem_cons.1 hk' with rfl | hk'
            · exact hk
            · exact h3 k' hk'
          · rintro ⟨_, rfl⟩; rfl
      · rw [if_neg h2]
        simp only [reduceCtorEq, false_iff]
        rintro ⟨h, _⟩
        exact h2 (hd.2 (h k List.mem_cons_self)).2
    · rw [if_pos h1]
      simp only [reduceCtorEq, false_iff]
      rintro ⟨h, _⟩
      exact h1 (hd.2 (h k List.mem_cons_self)).1

/-- The batches can be made iff every row and every deleted key fits. -/
theorem payloads_ok {t : Table} (ht : KeysIn t) {ts : Nat} {st : Staged} :
    (∃ q, payloads t ts st = .ok q) ↔
      (∀ k r, (k, Mutation.up r) ∈ st → Conforms t.fields r) ∧ ∀ k, (k, Mutation.del) ∈ st → KeyFits t k := by
  have hu : (∃ u, (if (mutations st).1 = [] then (.ok none : Except CommitErr (Option (List Row)))
      else (buildBatch t.fields (mutations st).1).map some) = .ok u) ↔
      ∀ k r, (k, Mutation.up r) ∈ st → Conforms t.fields r := by
    by_cases h : (mutations st).1 = []
    · rw [if_pos h]
      constructor
      · intro _ k r hr
        have := mutations_ups.2 ⟨k, hr⟩
        rw [h] at this; simp at this
      · intro _; exact ⟨none, rfl⟩
    · rw [if_neg h]
      unfold buildBatch
      by_cases ha : (mutations st).1.all (rowFits t.fields) = true
      · rw [if_pos ha]
        constructor
        · intro _ k r hr
          exact rowFits_iff.1 (List.all_eq_true.1 ha r (mutations_ups.2 ⟨k, hr⟩))
        · intro _; exact ⟨_, rfl⟩
      · rw [if_neg ha]
        constructor
        · rintro ⟨u, hu⟩; cases hu
        · intro hc
          exfalso; apply ha
          rw [List.all_eq_true]
          intro r hr
          obtain ⟨k, hk⟩ := mutations_ups.1 hr
          exact rowFits_iff.2 (hc k r hk)
  have hd : (∃ d, (if (mutations st).2 = [] then (.ok none : Except CommitErr (Option (List Row)))
      else (buildDeletes t ts (mutations st).2).map some) = .ok d) ↔
      ∀ k, (k, Mutation.del) ∈ st → KeyFits t k := by
    by_cases h : (mutations st).2 = []
    · rw [if_pos h]
      constructor
      · intro _ k hk
        have := mutations_dels.2 hk
        rw [h] at this; simp at this
      · intro _; exact ⟨none, rfl⟩
    · rw [if_neg h]
      cases hb : buildDeletes t ts (mutations st).2 with
      | error e =>
        constructor
        · rintro ⟨d, hd⟩; cases hd
        · intro hc
          have := (buildDeletes_ok ht (ts := ts) (ks := (mutations st).2)).2
            ⟨fun k hk => hc k (mutations_dels.1 hk), rfl⟩
          rw [hb] at this; cases this
      | ok rs =>
        constructor
        · intro _ k hk
          exact ((buildDeletes_ok ht).1 hb).1 k (mutations_dels.2 hk)
        · intro _; exact ⟨_, rfl⟩
  rw [← hu, ← hd]
  unfold payloads
  constructor
  · rintro ⟨q, hq⟩
    split at hq
    · cases hq
    · cases hq
    · rename_i u d h1 h2
      exact ⟨⟨u, h1⟩, ⟨d, h2⟩⟩
  · rintro ⟨⟨u, h1⟩, ⟨d, h2⟩⟩
    rw [h1, h2]
    exact ⟨_, rfl⟩

theorem payloads_rows {t : Table} (ht : KeysIn t) {ts : Nat} {st : Staged} {u d} (h : payloads t ts st = .ok (u, d)) :
    u.getD [] = (mutations st).1 ∧ d.getD [] = (mutations st).2.map (delRow ts) ∧
      (u = none ↔ (mutations st).1 = []) ∧ (d = none ↔ (mutations st).2 = []) := by
  unfold payloads at h
  split at h
  · cases h
  · cases h
  · rename_i u' d' h1 h2
    cases h
    have hu : u.getD [] = (mutations st).1 ∧ (u = none ↔ (mutations st).1 = []) := by
      by_cases he : (mutations st).1 = []
      · rw [if_pos he] at h1; cases h1; simp [he]
      · rw [if_neg he] at h1
        unfold buildBatch at h1
        split at h1
        · cases h1; simp [he]
        · cases h1
    have hd : d.getD [] = (mutations st).2.map (delRow ts) ∧ (d = none ↔ (mutations st).2 = []) := by
      by_cases he : (mutations st).2 = []
      · rw [if_pos he] at h2; cases h2; simp [he]
      · rw [if_neg he] at h2
        cases hb : buildDeletes t ts (mutations st).2 with
        | error e => rw [hb] at h2; cases h2
        | ok rs =>
          rw [hb] at h2
          have h2 : (Except.ok (some rs) : Except CommitErr (Option (List Row))) = .ok d := h2
          cases h2
          simp [((buildDeletes_ok ht).1 hb).2, he]
    exact ⟨hu.1, hd.1, hu.2, hd.2⟩

end Tonbo.Lemmas.Staging
