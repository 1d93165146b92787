import Verif.Lemmas.ScanPlan
import Verif.Spec.StoreView

/-! # Scanning a store -/

set_option linter.unusedSectionVars false

namespace Tonbo.Lemmas.Plan
open Tonbo.Model Tonbo.Model.Mem Tonbo.Model.Merge Tonbo.Spec Tonbo.Lemmas.Mem Tonbo.Lemmas.Scan
open Tonbo.Model.Pred Tonbo.Model.Keys Tonbo.Model.Bounds Tonbo.Model.Plan Tonbo.Lemmas.Pred
open Tonbo.Lemmas.PredEval Tonbo.Lemmas.Keys Tonbo.Lemmas.Bounds
open Tonbo.Props.C05 (ready mem_rowsOf)
open Tonbo.Props.C09 (IsKey Fits FitsExactly)
open Tonbo.Model.Sst (File)

theorem findBloomList_none : ∀ cs : List Expr, findBloomList cs = none ↔ ∀ c ∈ cs, findBloom c = none
  | [] => by simp [findBloomList]
  | c :: cs => by
    rw [findBloomList, List.forall_mem_cons, ← findBloomList_none cs]
    cases findBloom c <;> simp

theorem findBloomList_some {col : String} : ∀ {cs : List Expr}, findBloomList cs = some col → ∃ c ∈ cs, findBloom c = some col
  | [], h => by simp [findBloomList] at h
  | c :: cs, h => by
    rw [findBloomList] at h
    cases hb : findBloom c with
    | some x =>
      rw [hb] at h
      exact ⟨c, List.mem_cons_self, by rw [hb]; exact h⟩
    | none =>
      rw [hb] at h
      obtain ⟨d, hd, h⟩ := findBloomList_some h
      exact ⟨d, List.mem_cons_of_mem _ hd, h⟩

/-- Which predicates the planner refuses. -/
theorem findBloom_none (p : Expr) : findBloom p = none ↔ ∀ e ∈ leaves p, ∀ col, ¬ BloomLeaf col e := by
  induction p using Expr.ind with
  | hleaf e he =>
    rw [leaves_leaf he]
    cases e <;> simp [isLeaf] at he <;> simp [findBloom, BloomLeaf]
  | htt => simp [leaves, findBloom]
  | hff => simp [leaves, findBloom]
  | hand cs ih =>
    rw [leaves, leavesList_eq, findBloom, findBloomList_none]
    constructor
    · intro h e he
      obtain ⟨c, hc, h'⟩ := List.mem_flatMap.1 he
      exact (ih c hc).1 (h c hc) e h'
    · intro h c hc
      exact (ih c hc).2 (fun e he => h e (List.mem_flatMap.2 ⟨c, hc, he⟩))
  | hor cs ih =>
    rw [leaves, leavesList_eq, findBloom, findBloomList_none]
    constructor
    · intro h e he
      obtain ⟨c, hc, h'⟩ := List.mem_flatMap.1 he
      exact (ih c hc).1 (h c hc) e h'
    · intro h c hc
      exact (ih c hc).2 (fun e he => h e (List.mem_flatMap.2 ⟨c, hc, he⟩))
  | hnot e ih => rw [leaves, findBloom]; exact ih

theorem findBloom_some {p : Expr} {col : String} : findBloom p = some col → ∃ e ∈ leaves p, BloomLeaf col e := by
  induction p using Expr.ind with
  | hleaf e he =>
    rw [leaves_leaf he]
    intro h
    refine ⟨e, List.mem_singleton_self e, ?_⟩
    cases e <;> simp [isLeaf] at he <;> simp [findBloom] at h <;> exact h
  | htt => intro h; simp [findBloom] at h
  | hff => intro h; simp [findBloom] at h
  | hand cs ih =>
    rw [leaves, leavesList_eq, findBloom]
    intro h
    obtain ⟨c, hc, h⟩ := findBloomList_some h
    obtain ⟨e, he, h⟩ := ih c hc h
    exact ⟨e, List.mem_flatMap.2 ⟨c, hc, he⟩, h⟩
  | hor cs ih =>
    rw [leaves, leavesList_eq, findBloom]
    intro h
    obtain ⟨c, hc, h⟩ := findBloomList_some h
    obtain ⟨e, he, h⟩ := ih c hc h
    exact ⟨e, List.mem_flatMap.2 ⟨c, hc, he⟩, h⟩
  | hnot e ih => rw [leaves, findBloom]; exact ih

variable {K : Type} [LinearOrder K]

/-- Reading keys as cells respects the order, and the keys in the bounds of the predicate have
counterparts. -/
structure CodecOk (c : Codec K) (keySchema : Schema) (p : Expr) : Prop where
  good : ∀ k, GoodKey (c.cells k)
  lt : ∀ a b, rowCmp (c.cells a) (c.cells b) = .lt ↔ a < b
  bound : ∀ b x, keyBoundsFor keySchema p = some b → (b.lower = some x ∨ b.upper = some x) →
    GoodKey x.key ∧ rowCmp (c.cells (c.ofCells x.key)) x.key = .eq

theorem CodecOk.eq {c : Codec K} {ks : Schema} {p : Expr} (h : CodecOk c ks p) (a b : K) :
    rowCmp (c.cells a) (c.cells b) = .eq ↔ a = b := by
  constructor
  · intro e
    have e' := (rowCmp_eq (h.good a) (h.good b)).1 e
    rcases lt_trichotomy a b with l | l | l
    · rw [← h.lt] at l; rw [l] at e; cases e
    · exact l
    · rw [← h.lt, rowCmp_lt (h.good b) (h.good a), e'] at l; exact absurd l (lt_irrefl _)
  · rintro rfl
    rw [rowCmp_eq (h.good a) (h.good a)]

theorem CodecOk.pos_lt {c : Codec K} {ks : Schema} {p : Expr} (h : CodecOk c ks p) {a b : K} :
    pos (c.cells a) < pos (c.cells b) ↔ a < b := by
  rw [← h.lt, rowCmp_lt (h.good a) (h.good b)]; rfl

theorem CodecOk.pos_le {c : Codec K} {ks : Schema} {p : Expr} (h : CodecOk c ks p) {a b : K} :
    pos (c.cells a) ≤ pos (c.cells b) ↔ a ≤ b := by
  rw [← not_lt, h.pos_lt, not_lt]

theorem CodecOk.pos_eq {c : Codec K} {ks : Schema} {p : Expr} (h : CodecOk c ks p) {a b : K} :
    pos (c.cells a) = pos (c.cells b) ↔ a = b := by
  rw [← h.eq, rowCmp_eq (h.good a) (h.good b)]; rfl

/-- The range handed to the memtables, in the keys of the store. -/
def storeRange (c : Codec K) (ks : Schema) (p : Expr) : Option (Bnd K × Bnd K) :=
  (keyRangeFor ks p).map (fun q => (bndMap c q.1, bndMap c q.2))

theorem aboveLo_iff {c : Codec K} {ks : Schema} {p : Expr} (h : CodecOk c ks p) {b : KeyBounds}
    (hb : keyBoundsFor ks p = some b) (k : K) :
    aboveLo (bndMap c (toBnd b.lower)) k = true ↔ ∀ lo, b.lower = some lo → AboveLower lo (c.cells k) := by
  cases hl : b.lower with
  | none => simp [toBnd, bndMap, aboveLo]
  | some lo =>
    obtain ⟨g, e⟩ := h.bound b lo hb (.inl hl)
    have e := (rowCmp_eq (h.good _) g).1 e
    have : AboveLower lo (c.cells k) ↔ (c.ofCells lo.key < k ∨ (lo.inclusive = true ∧ c.ofCells lo.key = k)) := by
      unfold AboveLower
      rw [rowCmp_lt g (h.good k), rowCmp_eq g (h.good k), ← e]
      exact or_congr h.pos_lt (and_congr_right fun _ => h.pos_eq)
    simp only [Option.some.injEq, forall_eq', this]
    cases hi : lo.inclusive with
    | true => simp [toBnd, hi, bndMap, aboveLo, le_iff_lt_or_eq]
    | false => simp [toBnd, hi, bndMap, aboveLo]

theorem belowHi_iff {c : Codec K} {ks : Schema} {p : Expr} (h : CodecOk c ks p) {b : KeyBounds}
    (hb : keyBoundsFor ks p = some b) (k : K) :
    belowHi (bndMap c (toBnd b.upper)) k = true ↔ ∀ hi, b.upper = some hi → BelowUpper hi (c.cells k) := by
  cases hl : b.upper with
  | none => simp [toBnd, bndMap, belowHi]
  | some hi =>
    obtain ⟨g, e⟩ := h.bound b hi hb (.inr hl)
    have e := (rowCmp_eq (h.good _) g).1 e
    have : BelowUpper hi (c.cells k) ↔ (k < c.ofCells hi.key ∨ (hi.inclusive = true ∧ k = c.ofCells hi.key)) := by
      unfold BelowUpper
      rw [rowCmp_lt (h.good k) g, rowCmp_eq (h.good k) g, ← e]
      exact or_congr h.pos_lt (and_congr_right fun _ => h.pos_eq)
    simp only [Option.some.injEq, forall_eq', this]
    cases hi' : hi.inclusive with
    | true => simp [toBnd, hi', bndMap, belowHi, le_iff_lt_or_eq]
    | false => simp [toBnd, hi', bndMap, belowHi]

/-- The range selects exactly the keys within the bounds. -/
theorem storeRange_iff {c : Codec K} {ks : Schema} {p : Expr} (h : CodecOk c ks p)
    (he : ∀ b, keyBoundsFor ks p = some b → b.empty = false) (k : K) :
    rangeOk (storeRange c ks p) k ↔ InsideOpt (keyBoundsFor ks p) (c.cells k) := by
  unfold storeRange keyRangeFor InsideOpt rangeOk
  cases hb : keyBoundsFor ks p with
  | none => simp
  | some b =>
    have hemp := he b hb
    simp only [hemp, Bool.false_eq_true, if_false, Option.map_some, Option.some.injEq, forall_eq',
      Inside, true_and, inBounds, Bool.and_eq_true]
    rw [aboveLo_iff h hb, belowHi_iff h hb]

theorem storeRange_no_panic {c : Codec K} {ks : Schema} {p : Expr} (h : CodecOk c ks p)
    (hgood : ∀ f ∈ ks, ∀ e ∈ leaves p, LeafGood f.1 e) :
    ∀ q, storeRange c ks p = some q → rangePanics q.1 q.2 = false := by
  intro q hq
  unfold storeRange at hq
  cases hr : keyRangeFor ks p with
  | none => rw [hr] at hq; cases hq
  | some r =>
    obtain ⟨lo, hi⟩ := r
    rw [hr] at hq
    simp only [Option.map_some, Option.some.injEq] at hq
    subst hq
    have hni := Props.C09.range_never_inverted ks p hgood hr
    unfold keyRangeFor at hr
    cases hb : keyBoundsFor ks p with
    | none => rw [hb] at hr; cases hr
    | some b =>
      rw [hb] at hr
      simp only at hr
      split at hr
      · cases hr
      simp only [Option.some.injEq, Prod.mk.injEq] at hr
      obtain ⟨rfl, rfl⟩ := hr
      cases hl : b.lower with
      | none => cases hu : b.upper <;> simp [toBnd, bndMap, rangePanics]
      | some l =>
        cases hu : b.upper with
        | none => cases hi : l.inclusive <;> simp [toBnd, bndMap, rangePanics, hi]
        | some u =>
          obtain ⟨g1, e1⟩ := h.bound b l hb (.inl hl)
          obtain ⟨g2, e2⟩ := h.bound b u hb (.inr hu)
          have e1 : pos (c.cells (c.ofCells l.key)) = pos l.key := (rowCmp_eq (h.good _) g1).1 e1
          have e2 : pos (c.cells (c.ofCells u.key)) = pos u.key := (rowCmp_eq (h.good _) g2).1 e2
          have hlt : rowCmp l.key u.key = .lt → c.ofCells l.key < c.ofCells u.key := by
            intro hh
            have : pos l.key < pos u.key := (rowCmp_lt g1 g2).1 hh
            rwa [← e1, ← e2, h.pos_lt] at this
          have heq : rowCmp l.key u.key = .eq → c.ofCells l.key = c.ofCells u.key := by
            intro hh
            have : pos l.key = pos u.key := (rowCmp_eq g1 g2).1 hh
            rwa [← e1, ← e2, h.pos_eq] at this
          rw [hl, hu] at hni
          cases h1 : l.inclusive <;> cases h2 : u.inclusive <;>
            simp only [toBnd, h1, h2, NotInverted, if_true, Bool.false_eq_true, if_false] at hni <;>
            simp only [toBnd, bndMap, h1, h2, if_true, Bool.false_eq_true, if_false, rangePanics,
              decide_eq_false_iff_not, not_lt, not_le]
          · exact hlt hni
          · exact le_of_lt (hlt hni)
          · exact le_of_lt (hlt hni)
          · rcases hni with hh | hh
            · exact le_of_lt (hlt hh)
            · exact le_of_eq (heq hh)

/-- The versions a store holds. -/
def Versions (st : Store K) (w : Ver K Row) : Prop :=
  Content st.mem st.mem.index w ∨ (∃ m ∈ st.imms, Imm.Content m w) ∨
    ∃ t ∈ st.levels.flatten, FileVersions t.file w

/-- The rows a store holds, also those its files shadow. -/
def Holds (st : Store K) (kt : KT K) (r : Row) : Prop :=
  Content st.mem st.mem.index ⟨kt.key, kt.ts, .put r⟩ ∨
    (∃ m ∈ st.imms, Imm.Content m ⟨kt.key, kt.ts, .put r⟩) ∨
    ∃ t ∈ st.levels.flatten, (kt, r) ∈ t.file.data

theorem holds_of_version {st : Store K} {k : K} {t : Nat} {r : Row}
    (h : Versions st ⟨k, t, .put r⟩) : Holds st ⟨k, t⟩ r := by
  rcases h with h | h | ⟨f, hf, h⟩
  · exact .inl h
  · exact .inr (.inl h)
  · exact .inr (.inr ⟨f, hf, Lemmas.Sst.firstIn_mem h.1⟩)

/-- What a row of the store must meet for the predicate to be evaluated on it. -/
structure RowFits (c : Codec K) (schema ks : Schema) (p : Expr) (k : K) (r : Row) : Prop where
  key : IsKey ks (envOf schema r) (c.cells k)
  fits : FitsExactly ks (c.cells k) p
  leaf : ∀ e ∈ leaves p, LeafOk schema r e

/-- Keys with a visible row that matches. -/
def Good (schema : Schema) (st : Store K) (p : Expr) (rts : Nat) (k : K) : Prop :=
  ∃ t r, t ≤ rts ∧ Holds st ⟨k, t⟩ r ∧ meaning (envOf schema r) p = .t

/-- The hypotheses of the scan theorem, but for what depends on other versions of a row. -/
structure Basis (x : Ext K) (c : Codec K) (schema ks : Schema) (ext : Row → Option K) (st : Store K)
    (p : Expr) (rts : Nat) : Prop where
  mem : WF ext st.mem
  memTs : ∀ e ∈ st.mem.index, e.1.ts ≤ tsMax
  imm : ∀ m ∈ st.imms, Imm.WF ext m
  immTs : ∀ m ∈ st.imms, ∀ e ∈ m.index, e.1.ts ≤ tsMax
  tomb : ∀ m ∈ st.imms, m.ts ≠ [] → (∃ e ∈ m.index, e.1.ts ≤ rts) → ∃ t ∈ m.ts, t ≤ rts
  sorted : ∀ t ∈ st.levels.flatten, FileSorted t.file
  stats : ∀ t ∈ st.levels.flatten, StatsEnclose t
  select : ∀ t ∈ st.levels.flatten, SelectsMatches schema p rts t.file.data (x.select p rts t)
  fits : ∀ k t r, Holds st ⟨k, t⟩ r → RowFits c schema ks p k r
  codec : CodecOk c ks p
  pc : PcOk x.pc
  filter : ∀ q r, (splitRowFilter schema p).pushdown = some q →
    x.rowFilter q r = decide (meaning (envOf schema r) q = .t)
  bloom : findBloom p = none
  hff : ks.length ≠ 1 → p ≠ .ff
  leafGood : ∀ f ∈ ks, ∀ e ∈ leaves p, LeafGood f.1 e

/-- The hypotheses of the scan theorem. -/
structure Ready (x : Ext K) (c : Codec K) (schema ks : Schema) (ext : Row → Option K) (st : Store K)
    (p : Expr) (rts : Nat) : Prop extends Basis x c schema ks ext st p rts where
  stable : ∀ k, Good schema st p rts k → ∀ t r, t ≤ rts → (∃ f ∈ st.levels.flatten, (⟨k, t⟩, r) ∈ f.file.data) →
    meaning (envOf schema r) p = .t
  functional : Functional (Versions st)

section Main
variable {x : Ext K} {c : Codec K} {schema ks : Schema} {ext : Row → Option K} {st : Store K}
  {p : Expr} {rts : Nat}

theorem fits_of_exact {ks : Schema} {key : List Cell} (h : FitsExactly ks key p) : Fits ks key p :=
  fun kc kt e => by
    obtain ⟨c, h1, h2⟩ := h kc kt e
    exact ⟨c, h1, fun e he => (h2 e he).1⟩

theorem overlap_of_good (h : Basis x c schema ks ext st p rts) {k mn mx : K}
    (hg : Good schema st p rts k) (h1 : mn ≤ k) (h2 : k ≤ mx) :
    mayOverlap c (keyBoundsFor ks p) (some mn) (some mx) = true := by
  obtain ⟨t, r, _, hh, hm⟩ := hg
  have f := h.fits k t r hh
  unfold mayOverlap
  cases hb : keyBoundsFor ks p with
  | none => rfl
  | some b =>
    refine Props.C09.source_not_skipped_partial ks (envOf schema r) (c.cells k) p f.key
      (fits_of_exact f.fits) hm hb (h.codec.good mn) (h.codec.good mx) ?_ ?_
    · intro e
      have : pos (c.cells k) < pos (c.cells mn) := (rowCmp_gt (h.codec.good mn) (h.codec.good k)).1 e
      rw [h.codec.pos_lt] at this
      exact absurd h1 (not_le.2 this)
    · intro e
      have : pos (c.cells mx) < pos (c.cells k) := (rowCmp_gt (h.codec.good k) (h.codec.good mx)).1 e
      rw [h.codec.pos_lt] at this
      exact absurd h2 (not_le.2 this)

theorem inside_of_good (h : Basis x c schema ks ext st p rts) {k : K}
    (hg : Good schema st p rts k) : InsideOpt (keyBoundsFor ks p) (c.cells k) := by
  obtain ⟨t, r, _, hh, hm⟩ := hg
  have f := h.fits k t r hh
  exact Props.C09.key_range_sound_partial ks (envOf schema r) (c.cells k) p f.key
    (fits_of_exact f.fits) hm

/-- The memtable is read if it holds a visible version of such a key. -/
theorem keepMutable_of_good (h : Basis x c schema ks ext st p rts) {w : Ver K Row}
    (hw : Content st.mem st.mem.index w) (hg : Good schema st p rts w.key) (ht : w.ts ≤ rts) :
    keepMutable c (keyBoundsFor ks p) rts st.mem = true := by
  obtain ⟨loc, hm, _⟩ := hw
  obtain ⟨mn, mx, h1, h2, h3, h4⟩ := sorted_ends h.mem.sorted hm
  have hne : st.mem.index.length ≠ 0 := by
    have := List.length_pos_of_mem hm; omega
  unfold keepMutable
  rw [if_neg hne, Bool.and_eq_true]
  constructor
  · simp only [Mem.keyBounds, h1, h2]
    exact overlap_of_good h hg h3 h4
  · unfold mayBeVisible
    cases hb : commitTsBounds st.mem with
    | none => rfl
    | some q =>
      have := (tsBounds_spec hb).1 w.ts (List.mem_map.2 ⟨_, hm, rfl⟩)
      simp; omega

theorem keepSegment_of_good (h : Basis x c schema ks ext st p rts) {m : Imm K Row} (hmem : m ∈ st.imms)
    {w : Ver K Row} (hw : Imm.Content m w) (hg : Good schema st p rts w.key) (ht : w.ts ≤ rts) :
    keepSegment c (keyBoundsFor ks p) rts m = true := by
  obtain ⟨e, hm, hval⟩ := hw
  obtain ⟨mn, mx, h1, h2, h3, h4⟩ := sorted_ends (h.imm m hmem).sorted hm
  have hne : m.index.length ≠ 0 := by
    have := List.length_pos_of_mem hm; omega
  unfold keepSegment
  rw [if_neg hne]
  split
  · rfl
  rw [Bool.and_eq_true]
  constructor
  · simp only [Mem.Imm.keyBounds, h1, h2]
    exact overlap_of_good h hg h3 h4
  · unfold mayBeVisible
    cases hb : m.commitTsBounds with
    | none => rfl
    | some q =>
      obtain ⟨q1, q2, _⟩ := tsBounds_spec hb
      obtain ⟨t, ht1, ht2⟩ := h.tomb m hmem (List.ne_nil_of_mem q2) ⟨_, hm, ht⟩
      have := (q1 t ht1).1
      simp; omega

theorem pruneSegments_get (b : Option KeyBounds) (ms : List (Imm K Row)) :
    (pruneSegments c b rts ms).filterMap (fun i => ms[i]?) = ms.filter (keepSegment c b rts) := by
  have key : ∀ (l pre : List (Imm K Row)), ms = pre ++ l →
      ((List.range' pre.length l.length).filter (fun i =>
        match ms[i]? with
        | none => false
        | some m => keepSegment c b rts m)).filterMap (fun i => ms[i]?) = l.filter (keepSegment c b rts) := by
    intro l
    induction l with
    | nil => intro pre _; simp
    | cons a l ih =>
      intro pre he
      have ha : ms[pre.length]? = some a := by rw [he]; simp
      have := ih (pre ++ [a]) (by rw [he]; simp)
      rw [List.length_append, List.length_singleton] at this
      rw [List.length_cons, List.range'_succ, List.filter_cons, List.filter_cons]
      simp only [ha]
      split
      · rw [List.filterMap_cons, ha, ← this]
      · exact this
  have := key ms [] rfl
  rw [List.length_nil, ← List.range_eq_range'] at this
  exact this

theorem keepSst_of_stored (h : Basis x c schema ks ext st p rts) {t : Sst K} (hmem : t ∈ st.levels.flatten)
    {w : Ver K Row} (hg : Good schema st p rts w.key) (ht : w.ts ≤ rts)
    (hst : ((∃ r, ((⟨w.key, w.ts⟩ : KT K), r) ∈ t.file.data) ∨ (⟨w.key, w.ts⟩ : KT K) ∈ t.file.dels) ∧
      (!((x.select p rts t).isEmpty && t.file.dels.isEmpty)) = true) :
    keepSst x c (keyBoundsFor ks p) p rts t = true := by
  obtain ⟨s1, s2, s3⟩ := h.stats t hmem _ hst.1
  unfold keepSst
  rw [Bool.and_eq_true]
  refine ⟨?_, hst.2⟩
  unfold statsAllow
  rw [Bool.and_eq_true, Bool.and_eq_true]
  refine ⟨⟨?_, ?_⟩, ?_⟩
  · cases hb : keyBoundsFor ks p with
    | none => rfl
    | some b => simp [(inside_of_good h hg b hb).1]
  · cases hmn : t.minKey with
    | none => rfl
    | some mn =>
      cases hmx : t.maxKey with
      | none => rfl
      | some mx => exact overlap_of_good h hg (s1 mn hmn) (s2 mx hmx)
  · unfold mayBeVisible
    cases hmt : t.minTs with
    | none => rfl
    | some lo =>
      have := s3 lo hmt
      simp at this ⊢; omega

theorem keepSst_of_good (h : Ready x c schema ks ext st p rts) {t : Sst K} (hmem : t ∈ st.levels.flatten)
    {w : Ver K Row} (hw : FileVersions t.file w) (hg : Good schema st p rts w.key) (ht : w.ts ≤ rts) :
    keepSst x c (keyBoundsFor ks p) p rts t = true := by
  have hst : ((∃ r, ((⟨w.key, w.ts⟩ : KT K), r) ∈ t.file.data) ∨ (⟨w.key, w.ts⟩ : KT K) ∈ t.file.dels) ∧
      (!((x.select p rts t).isEmpty && t.file.dels.isEmpty)) = true := by
    unfold FileVersions at hw
    cases hop : w.op with
    | del =>
      rw [hop] at hw
      refine ⟨.inr hw, ?_⟩
      have : t.file.dels.isEmpty = false := by
        cases hd : t.file.dels with
        | nil => rw [hd] at hw; cases hw
        | cons => rfl
      simp [this]
    | put r =>
      rw [hop] at hw
      have hm := Lemmas.Sst.firstIn_mem hw.1
      refine ⟨.inl ⟨r, hm⟩, ?_⟩
      have hmt := h.stable w.key hg w.ts r ht ⟨t, hmem, hm⟩
      have : (⟨w.key, w.ts⟩, r) ∈ (x.select p rts t) := by
        have h1 : ((⟨w.key, w.ts⟩ : KT K), r) ∈ t.file.data.filter (fun e =>
            decide (meaning (envOf schema e.2) p = .t) && decide (e.1.ts ≤ rts)) := by
          rw [List.mem_filter]; exact ⟨hm, by simp [hmt, ht]⟩
        rw [← (h.select t hmem).2] at h1
        exact (List.mem_filter.1 h1).1
      cases hd : x.select p rts t with
      | nil => rw [hd] at this; cases this
      | cons => rfl
  exact keepSst_of_stored h.toBasis hmem hg ht hst

/-- Rows that reach the residual predicate. -/
def RowOk (c : Codec K) (schema ks : Schema) (st : Store K) (p : Expr) (rts : Nat) (nonSst : Bool)
    (k : K) (r : Row) : Prop :=
  (∃ t ≤ rts, Holds st ⟨k, t⟩ r) ∧
    ((nonSst = true ∧ InsideOpt (keyBoundsFor ks p) (c.cells k)) ∨
      ∀ q, (splitRowFilter schema p).pushdown = some q → meaning (envOf schema r) q = .t)

/-- A row that reaches the residual predicate satisfies the predicate exactly if it satisfies the
residual. -/
theorem residual_exact (h : Basis x c schema ks ext st p rts) {nonSst needsAll : Bool} {k : K} {r : Row}
    (hr : RowOk c schema ks st p rts nonSst k r) :
    match residualFor schema ks p false nonSst needsAll with
    | none => meaning (envOf schema r) p = .t
    | some q => matchesOwned x.pc schema q r = .ok (decide (meaning (envOf schema r) p = .t)) := by
  obtain ⟨⟨t, _, hh⟩, hor⟩ := hr
  have f := h.fits k t r hh
  have hexact := Props.C09.memory_range_exact_partial ks (envOf schema r) (c.cells k) p f.key f.fits h.hff
  have hsplit := Props.C08.split_true_iff (leafMeaning (envOf schema r)) schema p
  by_cases hall : (needsAll && !isTrue p) = true
  · simp only [residualFor, hall, if_true]
    exact Props.C08.row_kept_iff_partial h.pc p f.leaf
  · have hres : residualFor schema ks p false nonSst needsAll =
        combineWithAnd (splitRowFilter schema p).residual
          (if nonSst then (splitNonSst ks p).residual else none) := by
      simp only [residualFor, hall]
      simp
    rw [hres]
    have hiff : meaning (envOf schema r) p = .t ↔
        (∀ q, (splitRowFilter schema p).residual = some q → meaning (envOf schema r) q = .t) ∧
        ∀ q, (if nonSst then (splitNonSst ks p).residual else none) = some q →
          meaning (envOf schema r) q = .t := by
      constructor
      · intro hp
        refine ⟨(hsplit.1 hp).2, fun q hq => ?_⟩
        split at hq
        · exact (hexact.1 hp).2 q hq
        · cases hq
      · rintro ⟨h1, h2⟩
        rcases hor with ⟨hn, hin⟩ | hpd
        · refine hexact.2 ⟨hin, fun q hq => h2 q ?_⟩
          rw [hn]; exact hq
        · exact hsplit.2 ⟨hpd, h1⟩
    obtain ⟨g1, g2⟩ := combineWithAnd_spec (a := (splitRowFilter schema p).residual)
      (b := if nonSst then (splitNonSst ks p).residual else none) (leafMeaning (envOf schema r))
    cases hq : combineWithAnd (splitRowFilter schema p).residual
        (if nonSst then (splitNonSst ks p).residual else none) with
    | none =>
      obtain ⟨e1, e2⟩ := g2 hq
      simp only
      rw [hiff, e1, e2]
      simp
    | some q =>
      obtain ⟨e1, e2⟩ := g1 q hq
      simp only
      have hlv : ∀ e ∈ leaves q, LeafOk schema r e := by
        intro e he
        apply f.leaf
        rcases e2 e he with ⟨y, hy, hye⟩ | ⟨y, hy, hye⟩
        · exact residual_leaves schema p y hy e hye
        · split at hy
          · exact memResidual_leaves ks p y hy e hye
          · cases hy
      rw [Props.C08.row_kept_iff_partial h.pc q hlv]
      have : meaning (envOf schema r) q = .t ↔ meaning (envOf schema r) p = .t := by
        rw [hiff]; exact e1
      simp only [this]

/-- The versions a store holds if its files stand for the versions `Hf`. -/
def VersionsOf (Hf : Sst K → Ver K Row → Prop) (st : Store K) (w : Ver K Row) : Prop :=
  Content st.mem st.mem.index w ∨ (∃ m ∈ st.imms, Imm.Content m w) ∨ ∃ t ∈ st.levels.flatten, Hf t w

/-- The streams of a planned scan: what each stands for, and what they have together. `Hf` says what the rows read from a
file stand for. -/
theorem streams_sources (h : Basis x c schema ks ext st p rts) (Hf : Sst K → Ver K Row → Prop)
    (hsrc : ∀ t ∈ st.levels.flatten, ∀ (keep : Row → Bool) (rowOk : K → Row → Prop),
      (∀ e ∈ t.file.data, meaning (envOf schema e.2) p = .t → keep e.2 = true) →
      (∀ r, keep r = keepRow x (splitRowFilter schema p).pushdown r) →
      (∀ e ∈ t.file.data, e.1.ts ≤ rts → keep e.2 = true → rowOk e.1.key e.2) →
      ∃ out, Model.Sst.scan ⟨x.select p rts t, t.file.dels⟩ keep rts = some out ∧
        SrcOk rts (Good schema st p rts) rowOk out (Hf t))
    (hkept : ∀ t ∈ st.levels.flatten, ∀ w, Hf t w → Good schema st p rts w.key → w.ts ≤ rts →
      keepSst x c (keyBoundsFor ks p) p rts t = true) :
    ∃ pl ss nonSst needsAll Hs, plan x c schema ks false st p rts = .ok pl ∧
      pl.residual = residualFor schema ks p false nonSst needsAll ∧
      streams x st pl p rts = some ss ∧
      List.Forall₂ (fun (s : Prio × List (Entry K Row)) H => SrcOk rts (Good schema st p rts)
        (RowOk c schema ks st p rts nonSst) s.2 H) ss Hs ∧
      (∀ w, (∃ H ∈ Hs, H w) → VersionsOf Hf st w) ∧
      ∀ w, Good schema st p rts w.key → w.ts ≤ rts → VersionsOf Hf st w → ∃ H ∈ Hs, H w := by
  obtain ⟨pl, hpl⟩ : ∃ pl, plan x c schema ks false st p rts = .ok pl := by
    unfold plan; rw [h.bloom]; exact ⟨_, rfl⟩
  have hpl' := hpl
  unfold plan at hpl'
  rw [h.bloom] at hpl'
  simp only [Except.ok.injEq] at hpl'
  have nonSst_def : ∃ nonSst : Bool, nonSst = (pl.readMem || !pl.immIndexes.isEmpty) := ⟨_, rfl⟩
  obtain ⟨nonSst, hns⟩ := nonSst_def
  have e1 : pl.immIndexes = pruneSegments c (keyBoundsFor ks p) rts st.imms := by rw [← hpl']
  have e2 : pl.readMem = keepMutable c (keyBoundsFor ks p) rts st.mem := by rw [← hpl']
  have e3 : pl.range = storeRange c ks p := by rw [← hpl']; rfl
  have e4 : pl.ssts = st.levels.flatten.filter (keepSst x c (keyBoundsFor ks p) p rts) := by rw [← hpl']
  have e5 : pl.pushdown = if pl.ssts.isEmpty then none else (splitRowFilter schema p).pushdown := by
    rw [← hpl']
  have e6 : pl.residual = residualFor schema ks p false nonSst
      (pl.ssts.any (fun t => (splitRowFilter t.schema p).residual.isSome)) := by
    rw [hns, ← hpl']
  have hpanic := storeRange_no_panic h.codec h.leafGood
  -- the memtable
  have hmemS : ∃ o, memStream st pl rts = some o ∧
      List.Forall₂ (fun (s : Prio × List (Entry K Row)) H => SrcOk rts (Good schema st p rts)
        (RowOk c schema ks st p rts nonSst) s.2 H) o
        (if pl.readMem then [Content st.mem st.mem.index] else []) := by
    cases hrd : pl.readMem with
    | false => exact ⟨[], by simp [memStream, hrd], by simp⟩
    | true =>
      have hemp : ∀ b, keyBoundsFor ks p = some b → b.empty = false := by
        intro b hb
        rw [e2] at hrd
        unfold keepMutable at hrd
        split at hrd
        · cases hrd
        rename_i hne
        cases hix : st.mem.index with
        | nil => simp [hix] at hne
        | cons a l =>
          obtain ⟨mn, mx, q1, q2, _⟩ := sorted_ends h.mem.sorted (e := a) (by rw [hix]; exact List.mem_cons_self)
          simp only [Bool.and_eq_true, Mem.keyBounds, q1, q2, mayOverlap, hb] at hrd
          cases hbe : b.empty with
          | false => rfl
          | true => simp [overlaps, hbe] at hrd
      obtain ⟨out, h1, h2⟩ := wf_scan h.mem h.memTs pl.range rts
      refine ⟨[(Merge.Prio.mutable, out)], by simp [memStream, hrd, h1], ?_⟩
      refine .cons ?_ .nil
      refine srcOk_of_versionScan h2 ?_ ?_
      · intro k hk
        rw [e3, storeRange_iff h.codec hemp]
        exact inside_of_good h hk
      · intro k r t hin ht hc
        rw [e3, storeRange_iff h.codec hemp] at hin
        exact ⟨⟨t, ht, .inl hc⟩, .inl ⟨by rw [hns, hrd]; rfl, hin⟩⟩
  -- the frozen runs
  have himmS : ∃ o, immStreams st pl rts = some o ∧
      List.Forall₂ (fun (m : Imm K Row) (s : Prio × List (Entry K Row)) => SrcOk rts (Good schema st p rts)
        (RowOk c schema ks st p rts nonSst) s.2 (Imm.Content m))
        (st.imms.filter (keepSegment c (keyBoundsFor ks p) rts)) o := by
    rw [immStreams, e1, pruneSegments_get]
    refine mapM_forall₂ (fun m hm => ?_)
    obtain ⟨hm1, hm2⟩ := List.mem_filter.1 hm
    have hemp : ∀ b, keyBoundsFor ks p = some b → b.empty = false := by
      intro b hb
      unfold keepSegment at hm2
      split at hm2
      · cases hm2
      rename_i hne
      cases hix : m.index with
      | nil => simp [hix] at hne
      | cons a l =>
        obtain ⟨mn, mx, q1, q2, _⟩ := sorted_ends (h.imm m hm1).sorted (e := a) (by rw [hix]; exact List.mem_cons_self)
        simp only [Mem.Imm.keyBounds, q1, q2, mayOverlap, hb] at hm2
        cases hbe : b.empty with
        | false => rfl
        | true => simp [overlaps, hbe] at hm2
    obtain ⟨out, h1, h2⟩ := imm_wf_scan (h.imm m hm1) (h.immTs m hm1) pl.range
      (by rw [e3]; exact hpanic) rts
    refine ⟨(Merge.Prio.immutable, out), by simp [h1], ?_⟩
    refine srcOk_of_versionScan h2 ?_ ?_
    · intro k hk
      rw [e3, storeRange_iff h.codec hemp]
      exact inside_of_good h hk
    · intro k r t hin ht hc
      rw [e3, storeRange_iff h.codec hemp] at hin
      refine ⟨⟨t, ht, .inr (.inl ⟨m, hm1, hc⟩)⟩, .inl ⟨?_, hin⟩⟩
      have : pl.immIndexes ≠ [] := by
        intro he
        have := pruneSegments_get (c := c) (rts := rts) (keyBoundsFor ks p) st.imms
        rw [← e1, he] at this
        rw [← this] at hm
        simp at hm
      rw [hns]
      cases hi : pl.immIndexes with
      | nil => exact absurd hi this
      | cons => simp
  -- the files
  have hsstS : ∃ o, sstStreams x pl p rts = some o ∧
      List.Forall₂ (fun (t : Sst K) (s : Prio × List (Entry K Row)) => SrcOk rts (Good schema st p rts)
        (RowOk c schema ks st p rts nonSst) s.2 (Hf t)) pl.ssts o := by
    refine mapM_forall₂ (fun t ht => ?_)
    have hpd : pl.pushdown = (splitRowFilter schema p).pushdown := by
      rw [e5]
      cases hs : pl.ssts with
      | nil => rw [hs] at ht; cases ht
      | cons => rfl
    rw [e4] at ht
    obtain ⟨ht1, ht2⟩ := List.mem_filter.1 ht
    have hkeep : ∀ r, (keepRow x pl.pushdown r) = true ↔
        ∀ q, (splitRowFilter schema p).pushdown = some q → meaning (envOf schema r) q = .t := by
      intro r
      rw [hpd]
      unfold keepRow
      cases hq : (splitRowFilter schema p).pushdown with
      | none => simp
      | some q => simp [h.filter q r hq]
    obtain ⟨out, h1, h2⟩ := hsrc t ht1 (keepRow x pl.pushdown) (RowOk c schema ks st p rts nonSst)
      (fun e he hm => by
        rw [hkeep]
        exact ((Props.C08.split_true_iff (leafMeaning (envOf schema e.2)) schema p).1 hm).1)
      (fun r => by rw [hpd])
      (fun e he hts hk => ⟨⟨e.1.ts, hts, .inr (.inr ⟨t, ht1, he⟩)⟩, .inr ((hkeep e.2).1 hk)⟩)
    exact ⟨(Merge.Prio.sstable, out), by simp [sstScan, h1], h2⟩
  obtain ⟨o1, m1, f1⟩ := hmemS
  obtain ⟨o2, m2, f2⟩ := himmS
  obtain ⟨o3, m3, f3⟩ := hsstS
  have hss : streams x st pl p rts = some (o1 ++ o2 ++ o3) := by
    rw [streams, m1, Option.bind_some, m2, Option.bind_some, m3]; rfl
  have hF : List.Forall₂ (fun (s : Prio × List (Entry K Row)) H => SrcOk rts (Good schema st p rts)
        (RowOk c schema ks st p rts nonSst) s.2 H) (o1 ++ o2 ++ o3)
      ((if pl.readMem then [Content st.mem st.mem.index] else []) ++
        (st.imms.filter (keepSegment c (keyBoundsFor ks p) rts)).map Imm.Content ++
        pl.ssts.map Hf) := by
    refine List.rel_append (List.rel_append f1 ?_) ?_
    · rw [List.forall₂_map_right_iff]; exact List.Forall₂.flip f2
    · rw [List.forall₂_map_right_iff]; exact List.Forall₂.flip f3
  have hsub : ∀ w, (∃ H ∈ ((if pl.readMem then [Content st.mem st.mem.index] else []) ++
        (st.imms.filter (keepSegment c (keyBoundsFor ks p) rts)).map Imm.Content ++
        pl.ssts.map Hf), H w) → VersionsOf Hf st w := by
    rintro w ⟨H, hH, hw⟩
    rcases List.mem_append.1 hH with hH | hH
    · rcases List.mem_append.1 hH with hH | hH
      · split at hH
        · rw [List.mem_singleton.1 hH] at hw; exact .inl hw
        · cases hH
      · obtain ⟨m, hm, rfl⟩ := List.mem_map.1 hH
        exact .inr (.inl ⟨m, (List.mem_filter.1 hm).1, hw⟩)
    · obtain ⟨t, ht, rfl⟩ := List.mem_map.1 hH
      rw [e4] at ht
      exact .inr (.inr ⟨t, (List.mem_filter.1 ht).1, hw⟩)
  have hsup : ∀ w, Good schema st p rts w.key → w.ts ≤ rts → VersionsOf Hf st w →
      ∃ H ∈ ((if pl.readMem then [Content st.mem st.mem.index] else []) ++
        (st.imms.filter (keepSegment c (keyBoundsFor ks p) rts)).map Imm.Content ++
        pl.ssts.map Hf), H w := by
    rintro w hg hts (hw | ⟨m, hm, hw⟩ | ⟨t, ht, hw⟩)
    · have := keepMutable_of_good h hw hg hts
      rw [← e2] at this
      exact ⟨_, List.mem_append_left _ (List.mem_append_left _ (by rw [this]; simp)), hw⟩
    · exact ⟨_, List.mem_append_left _ (List.mem_append_right _ (List.mem_map.2
        ⟨m, List.mem_filter.2 ⟨hm, keepSegment_of_good h hm hw hg hts⟩, rfl⟩)), hw⟩
    · exact ⟨_, List.mem_append_right _ (List.mem_map.2
        ⟨t, by rw [e4]; exact List.mem_filter.2 ⟨ht, hkept t ht w hw hg hts⟩, rfl⟩), hw⟩
  exact ⟨pl, _, nonSst, _, _, hpl, e6, hss, hF, hsub, hsup⟩

/-- The streams of a planned scan, merged. `Hf` says what the rows read from a file stand for. -/
theorem streams_core (h : Basis x c schema ks ext st p rts) (Hf : Sst K → Ver K Row → Prop)
    (hsrc : ∀ t ∈ st.levels.flatten, ∀ (keep : Row → Bool) (rowOk : K → Row → Prop),
      (∀ e ∈ t.file.data, meaning (envOf schema e.2) p = .t → keep e.2 = true) →
      (∀ r, keep r = keepRow x (splitRowFilter schema p).pushdown r) →
      (∀ e ∈ t.file.data, e.1.ts ≤ rts → keep e.2 = true → rowOk e.1.key e.2) →
      ∃ out, Model.Sst.scan ⟨x.select p rts t, t.file.dels⟩ keep rts = some out ∧
        SrcOk rts (Good schema st p rts) rowOk out (Hf t))
    (hkept : ∀ t ∈ st.levels.flatten, ∀ w, Hf t w → Good schema st p rts w.key → w.ts ≤ rts →
      keepSst x c (keyBoundsFor ks p) p rts t = true)
    (hfun : Functional (VersionsOf Hf st)) :
    ∃ pl ss nonSst needsAll, plan x c schema ks false st p rts = .ok pl ∧
      pl.residual = residualFor schema ks p false nonSst needsAll ∧
      streams x st pl p rts = some ss ∧
      (∀ ps ∈ ss.map (fun s => (s.1, s.2.map some)),
        (ready ps.2).Pairwise (fun a b : Entry K Row => a.kt.key < b.kt.key)) ∧
      ∃ tr, mergeAll (ss.map (fun s => (s.1, s.2.map some))) none = some tr ∧
        (rowsOf (ready tr)).Pairwise (fun a b => a.1 < b.1) ∧
        (∀ k r, Good schema st p rts k →
          ((k, r) ∈ rowsOf (ready tr) ↔ Visible (VersionsOf Hf st) rts k r)) ∧
        ∀ k r, (k, r) ∈ rowsOf (ready tr) → RowOk c schema ks st p rts nonSst k r := by
  obtain ⟨pl, ss, nonSst, na, Hs, hpl, e6, hss, hF, hsub, hsup⟩ := streams_sources h Hf hsrc hkept
  obtain ⟨tr, t1, t2, t3, t4⟩ := merged_lists _ _ rts _ _ hF
    (fun k _ a b ha hb => hfun a b (hsub a ha.2) (hsub b hb.2))
  refine ⟨pl, _, nonSst, _, hpl, e6, hss, ?_, tr, t1, t2, ?_, t4⟩
  · intro ps hps
    obtain ⟨s, hs, rfl⟩ := List.mem_map.1 hps
    obtain ⟨i, hi⟩ := List.mem_iff_getElem?.1 hs
    obtain ⟨H, _, ho⟩ := forall₂_getElem? hF hi
    have := ho.asc
    rw [ready_some]
    rw [List.pairwise_map] at this
    refine this.imp ?_
    intro a b hab
    cases a <;> cases b <;> exact hab
  · intro k r hg
    rw [t3 k r hg]
    exact visible_congr (fun w hk hts => ⟨hsub w, hsup w (hk ▸ hg) hts⟩)

/-- What the rows read from files stand for: the sources are as `Hf` says, files that have something for a good key are
read, and on the keys `D` the rows that match are visible in `Hf` exactly if they are visible in the store. -/
structure FilesAs (x : Ext K) (c : Codec K) (schema ks : Schema) (st : Store K) (p : Expr) (rts : Nat)
    (Hf : Sst K → Ver K Row → Prop) (D : K → Prop) : Prop where
  src : ∀ t ∈ st.levels.flatten, ∀ (keep : Row → Bool) (rowOk : K → Row → Prop),
      (∀ e ∈ t.file.data, meaning (envOf schema e.2) p = .t → keep e.2 = true) →
      (∀ r, keep r = keepRow x (splitRowFilter schema p).pushdown r) →
      (∀ e ∈ t.file.data, e.1.ts ≤ rts → keep e.2 = true → rowOk e.1.key e.2) →
      ∃ out, Model.Sst.scan ⟨x.select p rts t, t.file.dels⟩ keep rts = some out ∧
        SrcOk rts (Good schema st p rts) rowOk out (Hf t)
  kept : ∀ t ∈ st.levels.flatten, ∀ w, Hf t w → Good schema st p rts w.key → w.ts ≤ rts →
      keepSst x c (keyBoundsFor ks p) p rts t = true
  fn : Functional (VersionsOf Hf st)
  vis : ∀ k r, D k → meaning (envOf schema r) p = .t →
      (Visible (VersionsOf Hf st) rts k r ↔ Visible (Versions st) rts k r)

/-- A scan of a store, if what its files are read as has the same visible rows that match. -/
theorem scanStore_core {Q : Type} (h : Basis x c schema ks ext st p rts) {Hf : Sst K → Ver K Row → Prop}
    (hfa : FilesAs x c schema ks st p rts Hf (fun _ => True)) (proj : Row → Q)
    {batchSize : Nat} (hb : 0 < batchSize) (limit : Option Nat) :
    ∃ (bs : List (List Q)) (rows : List (K × Row)), scanStore x c schema ks st p rts proj batchSize limit = .ok (some (bs, none)) ∧
      rows.Pairwise (fun a b : K × Row => a.1 < b.1) ∧
      (∀ k r, (k, r) ∈ rows ↔ Visible (Versions st) rts k r ∧ meaning (envOf schema r) p = .t) ∧
      (∀ b ∈ bs, b ≠ [] ∧ b.length ≤ batchSize) ∧
      bs.flatten = (match limit with
        | none => rows.map (fun q => proj q.2)
        | some n => (rows.map (fun q => proj q.2)).take n) := by
  obtain ⟨pl, ss, ns, na, h1, h2, h3, h4, tr, h5, h6, h7, h8⟩ := streams_core h Hf hfa.src hfa.kept hfa.fn
  obtain ⟨tr', g1, g2⟩ := Props.C06.scan_batches (pl.residual.map (fun q => matchesOwned x.pc schema q)) proj
    batchSize hb limit _ h4
  rw [h5] at g1
  obtain rfl := Option.some.inj g1
  have hev : ∀ ev, (pl.residual.map (fun q => matchesOwned x.pc schema q)) = some ev →
      ∀ q ∈ rowsOf (ready tr), ev q.2 = .ok (decide (meaning (envOf schema q.2) p = .t)) := by
    intro ev he q hq
    have := residual_exact (needsAll := na) h (h8 q.1 q.2 hq)
    rw [← h2] at this
    cases hr : pl.residual with
    | none => rw [hr] at he; cases he
    | some q' =>
      rw [hr] at he this
      simp only [Option.map_some, Option.some.injEq] at he
      subst he
      exact this
  obtain ⟨bs, b1, b2, b3⟩ := g2 (fun ev he q hq => ⟨_, hev ev he q hq⟩)
  have hsel : Props.C06.selected (pl.residual.map (fun q => matchesOwned x.pc schema q)) proj
      (rowsOf (ready tr)) = ((rowsOf (ready tr)).filter
        (fun q => decide (meaning (envOf schema q.2) p = .t))).map (fun q => proj q.2) := by
    unfold Props.C06.selected
    congr 1
    apply List.filter_congr
    intro q hq
    cases hr : pl.residual with
    | none =>
      have := residual_exact (needsAll := na) h (h8 q.1 q.2 hq)
      rw [← h2, hr] at this
      simpa using this
    | some q' =>
      simp only [Option.map_some]
      rw [hev (matchesOwned x.pc schema q') (by rw [hr]; rfl) q hq]
      by_cases hm : meaning (envOf schema q.2) p = .t <;> simp [hm]
  refine ⟨bs, (rowsOf (ready tr)).filter (fun q => decide (meaning (envOf schema q.2) p = .t)), ?_,
    h6.filter _, ?_, b2, ?_⟩
  · unfold scanStore
    rw [h1]
    simp only [h3, Option.bind_some, b1]
  · intro k r
    rw [List.mem_filter]
    simp only [decide_eq_true_eq]
    refine and_congr_left (fun hm => ?_)
    constructor
    · intro hin
      obtain ⟨⟨t, ht, hh⟩, _⟩ := h8 k r hin
      exact (hfa.vis k r trivial hm).1 ((h7 k r ⟨t, r, ht, hh, hm⟩).1 hin)
    · intro hv
      obtain ⟨t, ht1, ht2, _⟩ := id hv
      exact (h7 k r ⟨t, r, ht2, holds_of_version ht1, hm⟩).2 ((hfa.vis k r trivial hm).2 hv)
  · rw [b3]; cases limit <;> simp only [hsel]

/-- A scan of a store. -/
theorem scanStore_spec {Q : Type} (h : Ready x c schema ks ext st p rts) (proj : Row → Q)
    {batchSize : Nat} (hb : 0 < batchSize) (limit : Option Nat) :
    ∃ (bs : List (List Q)) (rows : List (K × Row)), scanStore x c schema ks st p rts proj batchSize limit = .ok (some (bs, none)) ∧
      rows.Pairwise (fun a b : K × Row => a.1 < b.1) ∧
      (∀ k r, (k, r) ∈ rows ↔ Visible (Versions st) rts k r ∧ meaning (envOf schema r) p = .t) ∧
      (∀ b ∈ bs, b ≠ [] ∧ b.length ≤ batchSize) ∧
      bs.flatten = (match limit with
        | none => rows.map (fun q => proj q.2)
        | some n => (rows.map (fun q => proj q.2)).take n) := by
  refine scanStore_core h.toBasis (Hf := fun t => FileVersions t.file) ⟨?_,
    (fun t ht w hw hg hts => keepSst_of_good h ht hw hg hts), h.functional, (fun k r _ _ => Iff.rfl)⟩ proj hb limit
  intro t ht keep rowOk hk _ hr
  exact sst_source (h.sorted t ht) (h.select t ht).1 (h.select t ht).2
    (fun e he hg hts => by
      have := h.stable e.1.key hg e.1.ts e.2 hts ⟨t, ht, he⟩
      simp [this, hts])
    (fun e he hm => by
      simp only [Bool.and_eq_true, decide_eq_true_eq] at hm
      exact hk e he hm.1) hr

/-! ### Files read through a filter -/

/-- All versions a store holds, also those its files shadow. -/
def AllVersions (st : Store K) (w : Ver K Row) : Prop :=
  Content st.mem st.mem.index w ∨ (∃ m ∈ st.imms, Imm.Content m w) ∨
    ∃ t ∈ st.levels.flatten, match w.op with
      | .put r => (⟨w.key, w.ts⟩, r) ∈ t.file.data
      | .del => (⟨w.key, w.ts⟩ : KT K) ∈ t.file.dels

/-- Once a row of a key satisfies the predicate, the later rows of that key in files do. -/
def Lasts (schema : Schema) (st : Store K) (p : Expr) (rts : Nat) : Prop :=
  ∀ k t r, t ≤ rts → Holds st ⟨k, t⟩ r → meaning (envOf schema r) p = .t → ∀ t' r', t ≤ t' → t' ≤ rts →
    (∃ f ∈ st.levels.flatten, (⟨k, t'⟩, r') ∈ f.file.data) → meaning (envOf schema r') p = .t

/-- What is read of a file. -/
def readAs (x : Ext K) (schema : Schema) (p : Expr) (rts : Nat) (t : Sst K) : Ver K Row → Prop :=
  FileVersions (Lemmas.Sst.filtered ⟨x.select p rts t, t.file.dels⟩ (keepRow x (splitRowFilter schema p).pushdown))

theorem readAs_stored {t : Sst K} (hsel : (x.select p rts t).Sublist t.file.data) {w : Ver K Row}
    (hw : readAs x schema p rts t w) : match w.op with
      | .put r => (⟨w.key, w.ts⟩, r) ∈ t.file.data
      | .del => (⟨w.key, w.ts⟩ : KT K) ∈ t.file.dels := by
  unfold readAs FileVersions at hw
  cases hop : w.op with
  | del => rw [hop] at hw; exact hw
  | put r =>
    rw [hop] at hw
    have := Lemmas.Sst.firstIn_mem hw.1
    simp only [Lemmas.Sst.filtered, List.mem_filter] at this
    exact hsel.subset this.1

/-- What is read of files, if the predicate lasts on the keys `D`. -/
theorem filesAs_lasting (h : Basis x c schema ks ext st p rts) (hfun : Functional (AllVersions st)) {D : K → Prop}
    (hlast : ∀ k, D k → ∀ t r, t ≤ rts → Holds st ⟨k, t⟩ r → meaning (envOf schema r) p = .t → ∀ t' r', t ≤ t' → t' ≤ rts →
      (∃ f ∈ st.levels.flatten, (⟨k, t'⟩, r') ∈ f.file.data) → meaning (envOf schema r') p = .t) :
    FilesAs x c schema ks st p rts (readAs x schema p rts) D := by
  have hsubA : ∀ w, VersionsOf (readAs x schema p rts) st w → AllVersions st w := by
    rintro w (hw | hw | ⟨t, ht, hw⟩)
    · exact .inl hw
    · exact .inr (.inl hw)
    · exact .inr (.inr ⟨t, ht, readAs_stored (h.select t ht).1 hw⟩)
  have hverA : ∀ w, Versions st w → AllVersions st w := by
    rintro w (hw | hw | ⟨t, ht, hw⟩)
    · exact .inl hw
    · exact .inr (.inl hw)
    · refine .inr (.inr ⟨t, ht, ?_⟩)
      unfold FileVersions at hw
      cases hop : w.op with
      | del => rw [hop] at hw; exact hw
      | put r => rw [hop] at hw; exact Lemmas.Sst.firstIn_mem hw.1
  -- a stored version is a version of its file
  have hstored : ∀ {d : List (KT K × Row)} {t : Sst K}, t ∈ st.levels.flatten → (∀ e ∈ d, e ∈ t.file.data) →
      ∀ {k : K} {ts : Nat} {r : Row}, (⟨k, ts⟩, r) ∈ d → FileVersions ⟨d, t.file.dels⟩ ⟨k, ts, .put r⟩ := by
    intro d t ht hd k ts r hr
    refine ⟨?_, fun hdel => ?_⟩
    · obtain ⟨r', h'⟩ := Lemmas.Sst.firstIn_of_mem hr
      have e := hfun ⟨k, ts, .put r'⟩ ⟨k, ts, .put r⟩ (.inr (.inr ⟨t, ht, hd _ (Lemmas.Sst.firstIn_mem h')⟩))
        (.inr (.inr ⟨t, ht, hd _ hr⟩)) rfl rfl
      cases e
      exact h'
    · have e := hfun ⟨k, ts, .put r⟩ ⟨k, ts, .del⟩ (.inr (.inr ⟨t, ht, hd _ hr⟩)) (.inr (.inr ⟨t, ht, hdel⟩)) rfl rfl
      cases e
  -- rows that match are read
  have hmatch : ∀ {t : Sst K}, t ∈ st.levels.flatten → ∀ {k : K} {ts : Nat} {r : Row}, (⟨k, ts⟩, r) ∈ t.file.data →
      ts ≤ rts → meaning (envOf schema r) p = .t → readAs x schema p rts t ⟨k, ts, .put r⟩ := by
    intro t ht k ts r hr hts hm
    have h1 : ((⟨k, ts⟩ : KT K), r) ∈ t.file.data.filter (fun e =>
        decide (meaning (envOf schema e.2) p = .t) && decide (e.1.ts ≤ rts)) := by
      rw [List.mem_filter]; exact ⟨hr, by simp [hm, hts]⟩
    rw [← (h.select t ht).2] at h1
    have h2 := (List.mem_filter.1 h1).1
    refine hstored ht (fun e he => (h.select t ht).1.subset (List.mem_filter.1 he).1) (List.mem_filter.2 ⟨h2, ?_⟩)
    unfold keepRow
    cases hq : (splitRowFilter schema p).pushdown with
    | none => rfl
    | some q =>
      simp only
      rw [h.filter q r hq]
      exact decide_eq_true (((Props.C08.split_true_iff (leafMeaning (envOf schema r)) schema p).1 hm).1 q hq)
  refine ⟨?_, ?_, (fun a b ha hb => hfun a b (hsubA a ha) (hsubA b hb)), ?_⟩
  · intro t ht keep rowOk _ hk hr
    obtain ⟨out, h1, h2⟩ := Lemmas.Sst.scan_spec ⟨x.select p rts t, t.file.dels⟩
      ⟨(h.sorted t ht).1.sublist (h.select t ht).1, (h.sorted t ht).2⟩ keep rts
    have hkeq : keep = keepRow x (splitRowFilter schema p).pushdown := funext hk
    refine ⟨out, h1, srcOk_of_versionScan (H := readAs x schema p rts t) ?_ (inR := fun _ => True)
      (fun _ _ => trivial) ?_⟩
    · unfold readAs
      rw [← hkeq]
      exact h2
    · intro k r ts _ hts hw
      have hs := Lemmas.Sst.firstIn_mem hw.1
      simp only [Lemmas.Sst.filtered, List.mem_filter] at hs
      exact hr _ ((h.select t ht).1.subset hs.1) hts (by rw [hkeq]; exact hs.2)
  · intro t ht w hw hg hts
    refine keepSst_of_stored h ht hg hts ⟨?_, ?_⟩
    · have := readAs_stored (h.select t ht).1 hw
      cases hop : w.op with
      | del => rw [hop] at this; exact .inr this
      | put r => rw [hop] at this; exact .inl ⟨r, this⟩
    · unfold readAs FileVersions at hw
      cases hop : w.op with
      | del =>
        rw [hop] at hw
        have : t.file.dels ≠ [] := List.ne_nil_of_mem hw
        cases hd : t.file.dels with
        | nil => exact absurd hd this
        | cons => simp
      | put r =>
        rw [hop] at hw
        have hs := Lemmas.Sst.firstIn_mem hw.1
        simp only [Lemmas.Sst.filtered, List.mem_filter] at hs
        cases hd : x.select p rts t with
        | nil => rw [hd] at hs; cases hs.1
        | cons => simp
  · intro k r hD hm
    constructor
    · rintro ⟨ts, hw, hts, hmax⟩
      have hst : Holds st ⟨k, ts⟩ r := by
        rcases hsubA _ hw with g | g | g
        · exact .inl g
        · exact .inr (.inl g)
        · exact .inr (.inr g)
      have hv : Versions st ⟨k, ts, .put r⟩ := by
        rcases hst with g | g | ⟨t, ht, g⟩
        · exact .inl g
        · exact .inr (.inl g)
        · exact .inr (.inr ⟨t, ht, hstored (d := t.file.data) ht (fun e he => he) g⟩)
      refine ⟨ts, hv, hts, fun u hu huk hut => ?_⟩
      by_contra hlt
      refine hlt (hmax u ?_ huk hut)
      rcases hu with g | g | ⟨t, ht, g⟩
      · exact .inl g
      · exact .inr (.inl g)
      · refine .inr (.inr ⟨t, ht, ?_⟩)
        obtain ⟨uk, uts, uop⟩ := u
        simp only at huk hut hlt
        subst huk
        cases uop with
        | del => exact g
        | put r' =>
          have g' := Lemmas.Sst.firstIn_mem g.1
          exact hmatch ht g' hut (hlast uk hD ts r hts hst hm uts r' (by omega) hut ⟨t, ht, g'⟩)
    · rintro ⟨ts, hw, hts, hmax⟩
      refine ⟨ts, ?_, hts, fun u hu huk hut => ?_⟩
      · rcases hw with g | g | ⟨t, ht, g⟩
        · exact .inl g
        · exact .inr (.inl g)
        · exact .inr (.inr ⟨t, ht, hmatch ht (Lemmas.Sst.firstIn_mem g.1) hts hm⟩)
      · refine hmax u ?_ huk hut
        rcases hsubA u hu with g | g | ⟨t, ht, g⟩
        · exact .inl g
        · exact .inr (.inl g)
        · refine .inr (.inr ⟨t, ht, ?_⟩)
          obtain ⟨uk, uts, uop⟩ := u
          cases uop with
          | del => exact g
          | put r' => exact hstored (d := t.file.data) ht (fun e he => he) g

/-- A scan of a store, if the predicate lasts. -/
theorem scanStore_lasting {Q : Type} (h : Basis x c schema ks ext st p rts) (hfun : Functional (AllVersions st))
    (hlast : Lasts schema st p rts) (proj : Row → Q)
    {batchSize : Nat} (hb : 0 < batchSize) (limit : Option Nat) :
    ∃ (bs : List (List Q)) (rows : List (K × Row)), scanStore x c schema ks st p rts proj batchSize limit = .ok (some (bs, none)) ∧
      rows.Pairwise (fun a b : K × Row => a.1 < b.1) ∧
      (∀ k r, (k, r) ∈ rows ↔ Visible (Versions st) rts k r ∧ meaning (envOf schema r) p = .t) ∧
      (∀ b ∈ bs, b ≠ [] ∧ b.length ≤ batchSize) ∧
      bs.flatten = (match limit with
        | none => rows.map (fun q => proj q.2)
        | some n => (rows.map (fun q => proj q.2)).take n) := by
  exact scanStore_core h (filesAs_lasting h hfun fun k _ => hlast k) proj hb limit

end Main

/-! ## From calls to content -/

theorem imm_content_of_index {ext : Row → Option K} {m : Imm K Row} (h : Imm.WF ext m)
    {e : KT K × Option Nat} (he : e ∈ m.index) : ∃ op, Imm.Content m ⟨e.1.key, e.1.ts, op⟩ := by
  have hp := h.points e he
  obtain ⟨kt, o⟩ := e
  cases o with
  | none => exact ⟨.del, none, he, rfl⟩
  | some i => obtain ⟨row, h1, _⟩ := hp i rfl; exact ⟨.put row, some i, he, by simp [Imm.res, h1]⟩

theorem mem_lastWrite {K V : Type} : ∀ (log : List (Ver K V)), Functional (· ∈ log) → ∀ w ∈ log,
    LastWrite log w := by
  intro log
  induction log using List.reverseRecOn with
  | nil => intro _ w hw; cases hw
  | append_singleton log u ih =>
    intro hf w hw
    have hf' : Functional (· ∈ log) := fun a b ha hb =>
      hf a b (List.mem_append_left _ ha) (List.mem_append_left _ hb)
    by_cases hk : u.key = w.key ∧ u.ts = w.ts
    · have : w = u := by
        have := hf w u hw (List.mem_append_right _ (by simp)) hk.1.symm hk.2.symm
        cases w; cases u; simp_all
      subst this
      exact ⟨log, [], rfl, by simp⟩
    · rcases List.mem_append.1 hw with hw | hw
      · obtain ⟨a, b, rfl, h⟩ := ih hf' w hw
        refine ⟨a, b ++ [u], by simp, ?_⟩
        intro v hv
        rcases List.mem_append.1 hv with hv | hv
        · exact h v hv
        · rw [List.mem_singleton.1 hv]; exact hk
      · rw [List.mem_singleton.1 hw] at hk; exact absurd ⟨rfl, rfl⟩ hk

/-- What memory holds after the calls, as the log. -/
theorem memory_is_log {ext : Row → Option K} {cap : Nat} {ops : List (Op K Row)} {t : Runs K Row}
    (h : (Runs.new cap).calls ext ops = (true, t)) (hf : Functional (· ∈ ops.flatMap (opWrites ext)))
    (w : Ver K Row) : (Content t.mem t.mem.index w ∨ ∃ m ∈ t.runs, Imm.Content m w) ↔
      w ∈ ops.flatMap (opWrites ext) := by
  obtain ⟨logs, cur, h1, h2, h3⟩ := calls_ok ops (Runs.new cap) t [] [] .nil (rep_new ext cap) h
  simp only [List.flatten_nil, List.nil_append] at h3
  have hmono : ∀ l : List (Ver K Row), (∀ w ∈ l, w ∈ ops.flatMap (opWrites ext)) → Functional (· ∈ l) :=
    fun l hl a b ha hb => hf a b (hl a ha) (hl b hb)
  have hcur : ∀ w ∈ cur, w ∈ ops.flatMap (opWrites ext) := fun w hw => by
    rw [← h3]; exact List.mem_append_right _ hw
  have hlogs : ∀ l ∈ logs, ∀ w ∈ l, w ∈ ops.flatMap (opWrites ext) := fun l hl w hw => by
    rw [← h3]; exact List.mem_append_left _ (List.mem_flatten.2 ⟨l, hl, hw⟩)
  constructor
  · rintro (hw | ⟨m, hm, hw⟩)
    · exact hcur w (lastWrite_mem ((h2.2 w).1 hw))
    · obtain ⟨i, hi⟩ := List.mem_iff_getElem?.1 hm
      obtain ⟨l, hl, hrep⟩ := forall₂_getElem? h1 hi
      exact hlogs l (List.mem_of_getElem? hl) w (lastWrite_mem ((hrep.2 w).1 hw))
  · intro hw
    rw [← h3] at hw
    rcases List.mem_append.1 hw with hw | hw
    · obtain ⟨l, hl, hw⟩ := List.mem_flatten.1 hw
      obtain ⟨m, hm, hrep⟩ := forall₂_mem_right h1 hl
      exact .inr ⟨m, hm, (hrep.2 w).2 (mem_lastWrite l (hmono l (hlogs l hl)) w hw)⟩
    · exact .inl ((h2.2 w).2 (mem_lastWrite cur (hmono cur hcur) w hw))

/-- Predicates with equal leaves are equal. -/
theorem kleene_congr {f g : Expr → Tri} (p : Expr) (h : ∀ e ∈ leaves p, f e = g e) :
    kleene f p = kleene g p := by
  induction p using Expr.ind with
  | hleaf e he =>
    have := h e (by rw [leaves_leaf he]; simp)
    cases e <;> first | (simp [isLeaf] at he; done) | (rw [kleene, kleene]; exact this; all_goals simp)
  | htt => rw [kleene, kleene]
  | hff => rw [kleene, kleene]
  | hand cs ih =>
    rw [kleene, kleene, kleeneList_eq, kleeneList_eq]
    congr 1
    refine List.map_congr_left fun c hc => ih c hc fun e he => h e ?_
    rw [leaves, leavesList_eq]; exact List.mem_flatMap.2 ⟨c, hc, he⟩
  | hor cs ih =>
    rw [kleene, kleene, kleeneList_eq, kleeneList_eq]
    congr 1
    refine List.map_congr_left fun c hc => ih c hc fun e he => h e ?_
    rw [leaves, leavesList_eq]; exact List.mem_flatMap.2 ⟨c, hc, he⟩
  | hnot e ih =>
    rw [kleene, kleene, ih (fun x hx => h x (by rw [leaves]; exact hx))]

/-- A predicate on key columns only has the same value on all rows of a key. -/
theorem meaning_of_key {ks : Schema} {env env' : String → Val} {key : List Cell}
    (h : IsKey ks env key) (h' : IsKey ks env' key) (p : Expr)
    (hp : ∀ e ∈ leaves p, leafCol e ∈ ks.map (·.1)) : meaning env p = meaning env' p := by
  have hcol : ∀ col ∈ ks.map (·.1), env col = env' col := by
    clear hp
    unfold IsKey at h h'
    induction h with
    | nil => intro col hc; cases hc
    | cons a _ ih =>
      cases h' with
      | cons a' t' =>
        intro col hc
        rcases List.mem_cons.1 hc with rfl | hc
        · rw [a.1, a'.1]
        · exact ih t' col hc
  unfold meaning
  refine kleene_congr p fun e he => ?_
  have := hcol _ (hp e he)
  cases e <;> simp only [leafMeaning, leafCol] at this ⊢ <;> rw [this]

end Tonbo.Lemmas.Plan
