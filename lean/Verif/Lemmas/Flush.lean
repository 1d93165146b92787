import Verif.Lemmas.Runs
import Verif.Lemmas.SstScan
import Verif.Spec.StatsView

/-! # Lemmas about writing frozen runs into a table -/

set_option linter.unusedSectionVars false

namespace Tonbo.Lemmas.Flush
open Tonbo.Model Tonbo.Model.Mem Tonbo.Model.Flush Tonbo.Spec Tonbo.Lemmas.Mem
open Tonbo.Model.Sst (File)

variable {K R : Type} [LinearOrder K]

/-! ## Least and greatest -/

theorem least_congr {α : Type} [LE α] {P Q : α → Prop} (h : ∀ x, P x ↔ Q x) {o : Option α} :
    LeastIs P o ↔ LeastIs Q o := by
  have : P = Q := funext fun x => propext (h x)
  rw [this]

theorem greatest_congr {α : Type} [LE α] {P Q : α → Prop} (h : ∀ x, P x ↔ Q x) {o : Option α} :
    GreatestIs P o ↔ GreatestIs Q o := by
  have : P = Q := funext fun x => propext (h x)
  rw [this]

theorem lower_least {α : Type} [LinearOrder α] {P Q : α → Prop} {o : Option α} {x : α}
    (h : LeastIs P o) (hx : LeastIs Q (some x)) : LeastIs (fun y => P y ∨ Q y) (lower o x) := by
  cases o with
  | none =>
    exact ⟨.inr hx.1, fun y hy => hy.elim (fun hp => absurd hp (h y)) (hx.2 y)⟩
  | some c =>
    simp only [lower]
    split
    · rename_i hc
      exact ⟨.inl h.1, fun y hy => hy.elim (h.2 y) (fun hq => le_trans hc (hx.2 y hq))⟩
    · rename_i hc
      exact ⟨.inr hx.1, fun y hy => hy.elim (fun hp => le_trans (le_of_lt (not_le.1 hc)) (h.2 y hp))
        (hx.2 y)⟩

theorem raise_greatest {α : Type} [LinearOrder α] {P Q : α → Prop} {o : Option α} {x : α}
    (h : GreatestIs P o) (hx : GreatestIs Q (some x)) : GreatestIs (fun y => P y ∨ Q y) (raise o x) := by
  cases o with
  | none =>
    exact ⟨.inr hx.1, fun y hy => hy.elim (fun hp => absurd hp (h y)) (hx.2 y)⟩
  | some c =>
    simp only [raise]
    split
    · rename_i hc
      exact ⟨.inl h.1, fun y hy => hy.elim (h.2 y) (fun hq => le_trans (hx.2 y hq) hc)⟩
    · rename_i hc
      exact ⟨.inr hx.1, fun y hy => hy.elim (fun hp => le_trans (h.2 y hp) (le_of_lt (not_le.1 hc)))
        (hx.2 y)⟩

theorem single_least {α : Type} [LinearOrder α] (x : α) : LeastIs (· = x) (some x) :=
  ⟨rfl, fun _ h => le_of_eq h.symm⟩

theorem single_greatest {α : Type} [LinearOrder α] (x : α) : GreatestIs (· = x) (some x) :=
  ⟨rfl, fun _ h => le_of_eq h⟩

theorem foldl_lower {α : Type} [LinearOrder α] : ∀ (l : List α) (P : α → Prop) (o : Option α),
    LeastIs P o → LeastIs (fun y => P y ∨ y ∈ l) (l.foldl lower o)
  | [], P, o, h => by simpa using h
  | x :: l, P, o, h => by
    have := foldl_lower l _ _ (lower_least h (single_least x))
    exact (least_congr (fun y => by simp [or_assoc])).1 this

theorem foldl_raise {α : Type} [LinearOrder α] : ∀ (l : List α) (P : α → Prop) (o : Option α),
    GreatestIs P o → GreatestIs (fun y => P y ∨ y ∈ l) (l.foldl raise o)
  | [], P, o, h => by simpa using h
  | x :: l, P, o, h => by
    have := foldl_raise l _ _ (raise_greatest h (single_greatest x))
    exact (greatest_congr (fun y => by simp [or_assoc])).1 this

theorem tsRange_spec (l : List Nat) :
    LeastIs (· ∈ l) (tsRange l).1 ∧ GreatestIs (· ∈ l) (tsRange l).2 := by
  constructor
  · exact (least_congr (by simp)).1 (foldl_lower l (fun _ => False) none (fun _ h => h))
  · exact (greatest_congr (by simp)).1 (foldl_raise l (fun _ => False) none (fun _ h => h))

/-! ## Sorting -/

/-- Items with the keys read from them. -/
def keyedBy {α : Type} (keyOf : α → Option K) (rows : List (α × Nat)) : Option (List (KT K × α)) :=
  rows.mapM (fun p => (keyOf p.1).map (fun k => (⟨k, p.2⟩, p.1)))

theorem batchKeys_spec {α : Type} {keyOf : α → Option K} {off : Nat} :
    ∀ (l : List (α × Nat)) (i : Nat), (∀ p ∈ l, (keyOf p.1).isSome) →
      ∃ ks, batchKeys keyOf off i l = some ks ∧ ks.map (·.row) = List.range' (off + i) l.length ∧
        ∀ s ∈ ks, ∃ a t, off + i ≤ s.row ∧ l[s.row - (off + i)]? = some (a, t) ∧
          keyOf a = some s.kt.key ∧ s.kt.ts = t
  | [], i, _ => ⟨[], rfl, rfl, by simp⟩
  | (a, t) :: l, i, h => by
    obtain ⟨k, hk⟩ := Option.isSome_iff_exists.1 (h _ List.mem_cons_self)
    obtain ⟨ks, h1, h2, h3⟩ := batchKeys_spec (off := off) l (i + 1)
      (fun p hp => h p (List.mem_cons_of_mem _ hp))
    refine ⟨⟨⟨k, t⟩, i, off + i⟩ :: ks, by simp [batchKeys, hk, h1], ?_, ?_⟩
    · simp only [List.map_cons, h2, List.length_cons, List.range'_succ, List.cons.injEq, true_and]
      rw [Nat.add_assoc]
    · intro s hs
      rcases List.mem_cons.1 hs with rfl | hs
      · exact ⟨a, t, le_refl _, by simp, hk, rfl⟩
      · obtain ⟨b, u, g1, g2, g3, g4⟩ := h3 s hs
        refine ⟨b, u, by omega, ?_, g3, g4⟩
        rw [show s.row - (off + i) = (s.row - (off + (i + 1))) + 1 by omega]
        simpa using g2

theorem allKeys_spec {α : Type} {keyOf : α → Option K} :
    ∀ (bs : List (List (α × Nat))) (off : Nat), (∀ p ∈ bs.flatten, (keyOf p.1).isSome) →
      ∃ ks, allKeys keyOf off bs = some ks ∧ ks.map (·.row) = List.range' off bs.flatten.length ∧
        ∀ s ∈ ks, ∃ a t, off ≤ s.row ∧ bs.flatten[s.row - off]? = some (a, t) ∧
          keyOf a = some s.kt.key ∧ s.kt.ts = t
  | [], off, _ => ⟨[], rfl, rfl, by simp⟩
  | b :: bs, off, h => by
    obtain ⟨ks, h1, h2, h3⟩ := batchKeys_spec (off := off) b 0
      (fun p hp => h p (by simp [hp]))
    obtain ⟨ks', g1, g2, g3⟩ := allKeys_spec bs (off + b.length)
      (fun p hp => h p (by rw [List.flatten_cons]; exact List.mem_append_right _ hp))
    simp only [Nat.add_zero] at h2 h3
    refine ⟨ks ++ ks', by simp [allKeys, h1, g1], ?_, ?_⟩
    · rw [List.map_append, h2, g2, List.flatten_cons, List.length_append, ← List.range'_append]
      simp
    · intro s hs
      rcases List.mem_append.1 hs with hs | hs
      · obtain ⟨a, t, q1, q2, q3, q4⟩ := h3 s hs
        refine ⟨a, t, q1, ?_, q3, q4⟩
        rw [List.flatten_cons, List.getElem?_append_left]
        · exact q2
        · exact (List.getElem?_eq_some_iff.1 q2).1
      · obtain ⟨a, t, q1, q2, q3, q4⟩ := g3 s hs
        refine ⟨a, t, by omega, ?_, q3, q4⟩
        rw [List.flatten_cons, List.getElem?_append_right (by omega)]
        rw [show s.row - off - b.length = s.row - (off + b.length) by omega]
        exact q2

theorem sortKey_trans : ∀ (a b c : SortKey K), SortKey.le a b → SortKey.le b c → SortKey.le a c := by
  rintro a b c (h | ⟨h, h'⟩) (g | ⟨g, g'⟩)
  · exact .inl (lt_trans h g)
  · exact .inl (g ▸ h)
  · exact .inl (h ▸ g)
  · refine .inr ⟨h.trans g, ?_⟩
    omega

theorem sortKey_total : ∀ (a b : SortKey K), SortKey.le a b ∨ SortKey.le b a := by
  intro a b
  unfold SortKey.le
  rcases lt_trichotomy a.kt b.kt with h | h | h
  · exact .inl (.inl h)
  · rcases Nat.lt_trichotomy a.seq b.seq with g | g | g
    · exact .inr (.inr ⟨h.symm, .inl g⟩)
    · rcases Nat.le_total a.row b.row with q | q
      · exact .inl (.inr ⟨h, .inr ⟨g, q⟩⟩)
      · exact .inr (.inr ⟨h.symm, .inr ⟨g.symm, q⟩⟩)
    · exact .inl (.inr ⟨h, .inl g⟩)
  · exact .inr (.inl h)

instance : IsTrans (SortKey K) SortKey.le := ⟨sortKey_trans⟩
instance : Std.Total (SortKey.le (K := K)) := ⟨sortKey_total⟩

/-- Sorting never fails on rows with keys; it permutes the rows and orders them by key, newer first. -/
theorem sortRows_spec {α : Type} {keyOf : α → Option K} (bs : List (List (α × Nat)))
    (h : ∀ p ∈ bs.flatten, (keyOf p.1).isSome) :
    ∃ rows d, sortRows keyOf bs = .ok rows ∧ rows.Perm bs.flatten ∧ keyedBy keyOf rows = some d ∧
      d.Pairwise (fun a b => a.1 ≤ b.1) := by
  obtain ⟨ks, h1, h2, h3⟩ := allKeys_spec bs 0 h
  have hp := List.perm_insertionSort SortKey.le ks
  have hs : (ks.insertionSort SortKey.le).Pairwise SortKey.le := List.pairwise_insertionSort _ _
  have step : ∀ (S : List (SortKey K)), (∀ s ∈ S, s ∈ ks) →
      ∃ rows d, (S.map (·.row)).mapM (bs.flatten[·]?) = some rows ∧
        keyedBy keyOf rows = some d ∧ d.map (·.1) = S.map (·.kt) := by
    intro S
    induction S with
    | nil => intro _; exact ⟨[], [], rfl, rfl, rfl⟩
    | cons s S ih =>
      intro hS
      obtain ⟨rows, d, i1, i2, i3⟩ := ih (fun s hs => hS s (List.mem_cons_of_mem _ hs))
      obtain ⟨a, t, _, q2, q3, q4⟩ := h3 s (hS s List.mem_cons_self)
      simp only [Nat.sub_zero] at q2
      refine ⟨(a, t) :: rows, (s.kt, a) :: d, ?_, ?_, by simp [i3]⟩
      · simp [List.mapM_cons, q2, i1]
      · simp only [keyedBy, List.mapM_cons, q3, ← q4, Option.map_some] at i2 ⊢
        simp [i2]
  obtain ⟨rows, d, i1, i2, i3⟩ := step _ (fun s hs => hp.mem_iff.1 hs)
  refine ⟨rows, d, by simp [sortRows, h1, i1], ?_, i2, ?_⟩
  · have hr : ((ks.insertionSort SortKey.le).map (·.row)).Perm (List.range bs.flatten.length) := by
      have := hp.map (·.row)
      rw [h2, ← List.range_eq_range'] at this
      exact this
    have hmap : ∀ (l : List Nat) (rows : List (α × Nat)), l.mapM (bs.flatten[·]?) = some rows →
        rows.map some = l.map (bs.flatten[·]?) := by
      intro l
      induction l with
      | nil => intro rows h; simp only [List.mapM_nil, Option.pure_def, Option.some.injEq] at h; subst h; rfl
      | cons x l ih =>
        intro rows h
        simp only [List.mapM_cons, Option.pure_def, Option.bind_eq_bind, Option.bind_eq_some_iff,
          Option.some.injEq] at h
        obtain ⟨a, ha, r, hr, rfl⟩ := h
        simp [ha, ih r hr]
    have h4 := hmap _ _ i1
    have h5 := (hr.map (bs.flatten[·]?))
    rw [← h4] at h5
    have h6 : (List.range bs.flatten.length).map (bs.flatten[·]?) = bs.flatten.map some := by
      apply List.ext_getElem?
      intro i
      simp only [List.getElem?_map]
      rcases Nat.lt_or_ge i bs.flatten.length with hi | hi
      · rw [List.getElem?_range hi]; simp [List.getElem?_eq_getElem hi]
      · rw [List.getElem?_eq_none (by simpa using hi), List.getElem?_eq_none hi]; rfl
    rw [h6] at h5
    have := h5.filterMap id
    rw [List.filterMap_map, List.filterMap_map, Function.id_comp, List.filterMap_some,
      List.filterMap_some] at this
    exact this
  · have : (d.map (·.1)).Pairwise (· ≤ ·) := by
      rw [i3, List.pairwise_map]
      exact hs.imp (fun h => h.elim le_of_lt (fun h => le_of_eq h.1))
    exact List.pairwise_map.1 this

/-! ## Staging -/

/-- Keys and timestamps of the rows and deletions of a staged run. -/
def HasKT (q : List (KT K × R) × List (KT K)) (kt : KT K) : Prop := (∃ r, (kt, r) ∈ q.1) ∨ kt ∈ q.2

/-- The writer has staged the runs `us`, given by their rows and deletions. -/
structure StagedFor (us : List (List (KT K × R) × List (KT K))) (w : Writer K R) : Prop where
  segments : w.segments = us.map (fun q => ⟨q.1.map (fun p => (p.2, p.1.ts)),
    q.2.map (fun kt => (kt.key, kt.ts))⟩)
  immutables : w.immutables = us.length
  count : w.stats.segments = us.length
  rows : w.stats.rows = (us.map (·.1.length)).sum
  tombs : w.stats.tombstones = (us.map (·.2.length)).sum
  minKey : LeastIs (fun k => ∃ q ∈ us, ∃ kt, HasKT q kt ∧ kt.key = k) w.stats.minKey
  maxKey : GreatestIs (fun k => ∃ q ∈ us, ∃ kt, HasKT q kt ∧ kt.key = k) w.stats.maxKey
  minTs : LeastIs (fun t => ∃ q ∈ us, ∃ kt, HasKT q kt ∧ kt.ts = t) w.stats.minTs
  maxTs : GreatestIs (fun t => ∃ q ∈ us, ∃ kt, HasKT q kt ∧ kt.ts = t) w.stats.maxTs

theorem stagedFor_new : StagedFor ([] : List (List (KT K × R) × List (KT K))) Writer.new := by
  refine ⟨rfl, rfl, rfl, rfl, rfl, ?_, ?_, ?_, ?_⟩ <;> simp [LeastIs, GreatestIs, Writer.new, Stats.new]

theorem tidy_index {ext : R → Option K} {m : Imm K R} (hw : Imm.WF ext m) {U : List (KT K × R)}
    {X : List (KT K)} (ht : Imm.Tidy ext m U X) (kt : KT K) :
    (∃ e, (kt, e) ∈ m.index) ↔ HasKT (U, X) kt := by
  constructor
  · rintro ⟨e, he⟩
    cases e with
    | none => exact .inr ((ht.del kt).2 he)
    | some i =>
      obtain ⟨row, h1, _⟩ := hw.points _ he i rfl
      exact .inl ⟨row, (ht.up kt row).2 ⟨i, he, h1⟩⟩
  · rintro (⟨r, hr⟩ | hx)
    · obtain ⟨i, hi, _⟩ := (ht.up kt r).1 hr
      exact ⟨_, hi⟩
    · exact ⟨_, (ht.del kt).1 hx⟩

theorem index_key_ends {β : Type} {l : List (KT K × β)} (hs : SMap.Sorted l) :
    LeastIs (fun k => ∃ e ∈ l, e.1.key = k) (l.head?.map (·.1.key)) ∧
    GreatestIs (fun k => ∃ e ∈ l, e.1.key = k) (l.getLast?.map (·.1.key)) := by
  cases l with
  | nil => simp [LeastIs, GreatestIs]
  | cons a l =>
    constructor
    · refine ⟨⟨a, List.mem_cons_self, rfl⟩, ?_⟩
      rintro k ⟨e, he, rfl⟩
      rcases List.mem_cons.1 he with rfl | he
      · exact le_refl _
      · exact Sst.key_le_of_le (le_of_lt ((List.pairwise_cons.1 hs).1 e he))
    · obtain ⟨z, hz⟩ : ∃ z, (a :: l).getLast? = some z := ⟨_, List.getLast?_eq_some_getLast (by simp)⟩
      rw [hz]
      refine ⟨⟨z, List.mem_of_getLast? hz, rfl⟩, ?_⟩
      rintro k ⟨e, he, rfl⟩
      obtain ⟨pre, hpre⟩ := List.getLast?_eq_some_iff.1 hz
      unfold SMap.Sorted at hs
      rw [hpre] at hs he
      rcases List.mem_append.1 he with he | he
      · exact Sst.key_le_of_le (le_of_lt ((List.pairwise_append.1 hs).2.2 e he z (by simp)))
      · simp only [List.mem_singleton] at he
        rw [he]

theorem filter_none_eq {ext : R → Option K} {m : Imm K R} (hw : Imm.WF ext m) {U : List (KT K × R)}
    {X : List (KT K)} (ht : Imm.Tidy ext m U X) :
    (m.index.filter (fun e => e.2.isNone)).map (·.1) = X := by
  have hs : ((m.index.filter (fun e => e.2.isNone)).map (·.1)).Pairwise (· < ·) :=
    List.pairwise_map.2 (hw.sorted.sublist List.filter_sublist)
  apply pairwise_key_ext (fun kt => kt) hs ht.xsorted
  intro kt
  rw [ht.del, List.mem_map]
  constructor
  · rintro ⟨⟨kt', e⟩, he, rfl⟩
    simp only [List.mem_filter, Option.isNone_iff_eq_none] at he
    obtain ⟨h1, h2⟩ := he
    subst h2
    exact h1
  · intro h
    exact ⟨(kt, none), by simp [List.mem_filter, h], rfl⟩

theorem mem_snoc_iff {α : Type} {us : List α} {q : α} {P : α → Prop} :
    (∃ x ∈ us ++ [q], P x) ↔ (∃ x ∈ us, P x) ∨ P q := by
  constructor
  · rintro ⟨x, hx, hp⟩
    rcases List.mem_append.1 hx with h | h
    · exact .inl ⟨x, h, hp⟩
    · simp only [List.mem_singleton] at h
      exact .inr (h ▸ hp)
  · rintro (⟨x, hx, hp⟩ | hp)
    · exact ⟨x, List.mem_append_left _ hx, hp⟩
    · exact ⟨q, by simp, hp⟩

theorem stage_spec {ext : R → Option K} {us : List (List (KT K × R) × List (KT K))} {w : Writer K R}
    (h : StagedFor us w) {m : Imm K R} (hw : Imm.WF ext m) {U : List (KT K × R)} {X : List (KT K)}
    (ht : Imm.Tidy ext m U X) :
    (U = [] ∧ X = [] ∧ w.stage m = .ok w) ∨
    (¬ (U = [] ∧ X = []) ∧ ∃ w', w.stage m = .ok w' ∧ StagedFor (us ++ [(U, X)]) w') := by
  have hlen : m.rows.length = U.length := by rw [ht.rows]; simp
  have hdl : m.dkeys.length = X.length := by rw [ht.dkeys]; simp
  by_cases he : U = [] ∧ X = []
  · left
    refine ⟨he.1, he.2, ?_⟩
    unfold Writer.stage
    rw [if_pos]
    rw [hlen, hdl, he.1, he.2]
    exact ⟨rfl, rfl⟩
  · right
    refine ⟨he, ?_⟩
    unfold Writer.stage
    rw [if_neg]
    swap
    · rw [hlen, hdl]
      rintro ⟨a, b⟩
      exact he ⟨List.length_eq_zero_iff.1 a, List.length_eq_zero_iff.1 b⟩
    have hac : appendCommit m.rows m.ts = some (U.map (fun p => (p.2, p.1.ts))) := by
      unfold appendCommit
      rw [if_neg]
      · rw [ht.rows, ht.ts, List.zip_map']
      · rw [ht.rows, ht.ts]; simp
    have hdz : m.dkeys.zip m.dts = X.map (fun kt => (kt.key, kt.ts)) := by
      rw [ht.dkeys, ht.dts, List.zip_map']
    have hne : ∃ kt, HasKT (U, X) kt := by
      by_contra hc
      apply he
      constructor
      · apply List.eq_nil_iff_forall_not_mem.2
        rintro ⟨kt, r⟩ hm
        exact hc ⟨kt, .inl ⟨r, hm⟩⟩
      · apply List.eq_nil_iff_forall_not_mem.2
        intro kt hm
        exact hc ⟨kt, .inr hm⟩
    obtain ⟨kl, kg⟩ := index_key_ends hw.sorted
    obtain ⟨tl, tg⟩ := tsRange_spec (m.index.map (·.1.ts))
    have ixk : ∀ k, (∃ e ∈ m.index, e.1.key = k) ↔ ∃ kt, HasKT (U, X) kt ∧ kt.key = k := by
      intro k
      constructor
      · rintro ⟨⟨kt, e⟩, he, rfl⟩
        exact ⟨kt, (tidy_index hw ht kt).1 ⟨e, he⟩, rfl⟩
      · rintro ⟨kt, h, rfl⟩
        obtain ⟨e, he⟩ := (tidy_index hw ht kt).2 h
        exact ⟨_, he, rfl⟩
    have ixt : ∀ t, t ∈ m.index.map (·.1.ts) ↔ ∃ kt, HasKT (U, X) kt ∧ kt.ts = t := by
      intro t
      rw [List.mem_map]
      constructor
      · rintro ⟨⟨kt, e⟩, he, rfl⟩
        exact ⟨kt, (tidy_index hw ht kt).1 ⟨e, he⟩, rfl⟩
      · rintro ⟨kt, h, rfl⟩
        obtain ⟨e, he⟩ := (tidy_index hw ht kt).2 h
        exact ⟨_, he, rfl⟩
    rw [least_congr ixk] at kl
    rw [greatest_congr ixk] at kg
    rw [least_congr ixt] at tl
    rw [greatest_congr ixt] at tg
    obtain ⟨kt0, h0⟩ := hne
    cases hmn : m.index.head?.map (·.1.key) with
    | none => rw [hmn] at kl; exact absurd ⟨kt0, h0, rfl⟩ (kl kt0.key)
    | some lo =>
    cases hmx : m.index.getLast?.map (·.1.key) with
    | none => rw [hmx] at kg; exact absurd ⟨kt0, h0, rfl⟩ (kg kt0.key)
    | some hi =>
    cases htn : (tsRange (m.index.map (·.1.ts))).1 with
    | none => rw [htn] at tl; exact absurd ⟨kt0, h0, rfl⟩ (tl kt0.ts)
    | some tlo =>
    cases htx : (tsRange (m.index.map (·.1.ts))).2 with
    | none => rw [htx] at tg; exact absurd ⟨kt0, h0, rfl⟩ (tg kt0.ts)
    | some thi =>
    rw [hmn] at kl
    rw [hmx] at kg
    rw [htn] at tl
    rw [htx] at tg
    have hkb : m.keyBounds = (some lo, some hi) := by unfold Imm.keyBounds; rw [hmn, hmx]
    have htb : tsRange (m.index.map (·.1.ts)) = (some tlo, some thi) := Prod.ext htn htx
    rw [hac, hdz, hkb, htb]
    refine ⟨_, rfl, ?_, ?_, ?_, ?_, ?_, ?_, ?_, ?_, ?_⟩
    · simp [h.segments]
    · simp [h.immutables]
    · simp [h.count, Stats.maybeKeys, Stats.maybeTs, Stats.updateKeys, Stats.updateTs]
    · simp [h.rows, Stats.maybeKeys, Stats.maybeTs, Stats.updateKeys, Stats.updateTs, hlen]
    · have : (m.index.filter (fun e => e.2.isNone)).length = X.length := by
        rw [← filter_none_eq hw ht, List.length_map]
      simp [h.tombs, Stats.maybeKeys, Stats.maybeTs, Stats.updateKeys, Stats.updateTs, this]
    · exact (least_congr (fun k => mem_snoc_iff.symm)).1 (lower_least h.minKey kl)
    · exact (greatest_congr (fun k => mem_snoc_iff.symm)).1 (raise_greatest h.maxKey kg)
    · exact (least_congr (fun k => mem_snoc_iff.symm)).1 (lower_least h.minTs tl)
    · exact (greatest_congr (fun k => mem_snoc_iff.symm)).1 (raise_greatest h.maxTs tg)

/-- Rows and deletions of a run are sorted and the rows have their keys. -/
structure QOk (ext : R → Option K) (q : List (KT K × R) × List (KT K)) : Prop where
  key : ∀ p ∈ q.1, ext p.2 = some p.1.key
  usorted : q.1.Pairwise (fun a b => a.1 < b.1)
  xsorted : q.2.Pairwise (· < ·)

/-- The run holds this version. -/
def InRun (q : List (KT K × R) × List (KT K)) (w : Ver K R) : Prop :=
  match w.op with
  | .put r => (⟨w.key, w.ts⟩, r) ∈ q.1
  | .del => ⟨w.key, w.ts⟩ ∈ q.2

theorem inRun_tidy {ext : R → Option K} {m : Imm K R} {U : List (KT K × R)}
    {X : List (KT K)} (ht : Imm.Tidy ext m U X) (w : Ver K R) :
    InRun (U, X) w ↔ Imm.Content m w := by
  obtain ⟨k, t, op⟩ := w
  unfold Imm.Content
  cases op with
  | put r =>
    simp only [InRun]
    rw [ht.up]
    constructor
    · rintro ⟨i, h1, h2⟩
      exact ⟨some i, h1, by simp [Imm.res, h2]⟩
    · rintro ⟨e, h1, h2⟩
      cases e with
      | none => simp [Imm.res] at h2
      | some i =>
        refine ⟨i, h1, ?_⟩
        simpa [Imm.res] using h2
  | del =>
    simp only [InRun]
    rw [ht.del]
    constructor
    · intro h
      exact ⟨none, h, rfl⟩
    · rintro ⟨e, h1, h2⟩
      cases e with
      | none => exact h1
      | some i => simp [Imm.res] at h2

theorem stageAll_spec {ext : R → Option K} : ∀ (ms : List (Imm K R)), (∀ m ∈ ms, Imm.WF ext m) →
    ∀ (us : List (List (KT K × R) × List (KT K))) (w : Writer K R), StagedFor us w →
    ∃ us' w', stageAll w ms = .ok w' ∧ StagedFor (us ++ us') w' ∧ (∀ q ∈ us', QOk ext q) ∧
      ∀ v, (∃ q ∈ us', InRun q v) ↔ ∃ m ∈ ms, Imm.Content m v
  | [], _, us, w, h => ⟨[], w, rfl, by simpa using h, by simp, by simp⟩
  | m :: ms, hm, us, w, h => by
    have hw := hm m List.mem_cons_self
    obtain ⟨U, X, ht⟩ := hw.tidy
    have hq : QOk ext (U, X) := ⟨ht.key, ht.usorted, ht.xsorted⟩
    rcases stage_spec h hw ht with ⟨rfl, rfl, hs⟩ | ⟨_, w1, hs, h1⟩
    · obtain ⟨us', w', g1, g2, g3, g4⟩ := stageAll_spec ms
        (fun m hm' => hm m (List.mem_cons_of_mem _ hm')) us w h
      refine ⟨us', w', by simp [stageAll, hs, g1], g2, g3, ?_⟩
      intro v
      rw [g4]
      constructor
      · rintro ⟨m', h1, h2⟩; exact ⟨m', List.mem_cons_of_mem _ h1, h2⟩
      · rintro ⟨m', h1, h2⟩
        rcases List.mem_cons.1 h1 with rfl | h1
        · exfalso
          have := (inRun_tidy ht v).2 h2
          unfold InRun at this
          split at this <;> simp at this
        · exact ⟨m', h1, h2⟩
    · obtain ⟨us', w', g1, g2, g3, g4⟩ := stageAll_spec ms
        (fun m hm' => hm m (List.mem_cons_of_mem _ hm')) _ w1 h1
      refine ⟨(U, X) :: us', w', by simp [stageAll, hs, g1], by simpa using g2, ?_, ?_⟩
      · intro q hq'
        rcases List.mem_cons.1 hq' with rfl | hq'
        · exact hq
        · exact g3 q hq'
      · intro v
        constructor
        · rintro ⟨q, hq', hv⟩
          rcases List.mem_cons.1 hq' with rfl | hq'
          · exact ⟨m, List.mem_cons_self, (inRun_tidy ht v).1 hv⟩
          · obtain ⟨m', h1, h2⟩ := (g4 v).1 ⟨q, hq', hv⟩
            exact ⟨m', List.mem_cons_of_mem _ h1, h2⟩
        · rintro ⟨m', h1, h2⟩
          rcases List.mem_cons.1 h1 with rfl | h1
          · exact ⟨_, List.mem_cons_self, (inRun_tidy ht v).2 h2⟩
          · obtain ⟨q, h3, h4⟩ := (g4 v).2 ⟨m', h1, h2⟩
            exact ⟨q, List.mem_cons_of_mem _ h3, h4⟩

/-! ## The written table -/

theorem keyed_of {ext : R → Option K} : ∀ (U : List (KT K × R)), (∀ p ∈ U, ext p.2 = some p.1.key) →
    keyed ext (U.map (fun p => (p.2, p.1.ts))) = some U
  | [], _ => rfl
  | p :: U, h => by
    have h1 := h p List.mem_cons_self
    have h2 := keyed_of U (fun p hp => h p (List.mem_cons_of_mem _ hp))
    simp only [keyed] at h2 ⊢
    simp [List.mapM_cons, h1, h2]

theorem keyedBy_map {α : Type} {keyOf : α → Option K} : ∀ {rows : List (α × Nat)}
    {d : List (KT K × α)}, keyedBy keyOf rows = some d → d.map (fun p => (p.2, p.1.ts)) = rows
  | [], d, h => by
    simp only [keyedBy, List.mapM_nil, Option.pure_def, Option.some.injEq] at h
    subst h; rfl
  | (a, t) :: rows, d, h => by
    simp only [keyedBy, List.mapM_cons, Option.pure_def, Option.bind_eq_bind,
      Option.bind_eq_some_iff, Option.some.injEq, Option.map_eq_some_iff] at h
    obtain ⟨_, ⟨k, _, rfl⟩, d', h', rfl⟩ := h
    simp [keyedBy_map (keyOf := keyOf) h']

theorem keyedBy_key {α : Type} {keyOf : α → Option K} : ∀ {rows : List (α × Nat)}
    {d : List (KT K × α)}, keyedBy keyOf rows = some d → ∀ p ∈ d, keyOf p.2 = some p.1.key
  | [], d, h => by
    simp only [keyedBy, List.mapM_nil, Option.pure_def, Option.some.injEq] at h
    subst h; simp
  | (a, t) :: rows, d, h => by
    simp only [keyedBy, List.mapM_cons, Option.pure_def, Option.bind_eq_bind,
      Option.bind_eq_some_iff, Option.some.injEq, Option.map_eq_some_iff] at h
    obtain ⟨_, ⟨k, hk, rfl⟩, d', h', rfl⟩ := h
    intro p hp
    rcases List.mem_cons.1 hp with rfl | hp
    · exact hk
    · exact keyedBy_key h' p hp

/-- What flushing well-formed runs, not all empty, writes. -/
theorem flush_spec {ext : R → Option K} {ms : List (Imm K R)} (hm : ∀ m ∈ ms, Imm.WF ext m)
    (hne : ∃ m ∈ ms, ∃ v, Imm.Content m v) :
    ∃ t f, flush ext ms = .ok t ∧ t.file ext = some f ∧ FileSorted f ∧
      (∀ p ∈ f.data, ext p.2 = some p.1.key) ∧
      (∀ kt r, (kt, r) ∈ f.data ↔ ∃ m ∈ ms, Imm.Content m ⟨kt.key, kt.ts, .put r⟩) ∧
      (∀ kt, kt ∈ f.dels ↔ ∃ m ∈ ms, Imm.Content m ⟨kt.key, kt.ts, .del⟩) ∧
      StatsExact f t.stats.minKey t.stats.maxKey t.stats.minTs t.stats.maxTs ∧
      t.stats.rows = f.data.length ∧ t.stats.tombstones = f.dels.length := by
  obtain ⟨us, w, g1, g2, g3, g4⟩ := stageAll_spec ms hm [] Writer.new stagedFor_new
  simp only [List.nil_append] at g2
  have hus : us ≠ [] := by
    rintro rfl
    obtain ⟨m, h1, v, h2⟩ := hne
    obtain ⟨q, hq, _⟩ := (g4 v).2 ⟨m, h1, h2⟩
    simp at hq
  have hcount : w.stats.segments ≠ 0 := by
    rw [g2.count]
    exact fun h => hus (List.length_eq_zero_iff.1 h)
  -- a table with these rows and deletions is as required
  have key : ∀ (data : List (R × Nat)) (dels : List (K × Nat)) (d : List (KT K × R)) (x : List (KT K)),
      keyed ext data = some d → dels.map (fun p => (⟨p.1, p.2⟩ : KT K)) = x →
      d.Perm (us.flatMap (·.1)) → x.Perm (us.flatMap (·.2)) →
      d.Pairwise (fun a b => a.1 ≤ b.1) → x.Pairwise (· ≤ ·) →
      w.finish ext = .ok { data := data, dels := dels, stats := w.stats } →
      ∃ t f, flush ext ms = .ok t ∧ t.file ext = some f ∧ FileSorted f ∧
      (∀ p ∈ f.data, ext p.2 = some p.1.key) ∧
      (∀ kt r, (kt, r) ∈ f.data ↔ ∃ m ∈ ms, Imm.Content m ⟨kt.key, kt.ts, .put r⟩) ∧
      (∀ kt, kt ∈ f.dels ↔ ∃ m ∈ ms, Imm.Content m ⟨kt.key, kt.ts, .del⟩) ∧
      StatsExact f t.stats.minKey t.stats.maxKey t.stats.minTs t.stats.maxTs ∧
      t.stats.rows = f.data.length ∧ t.stats.tombstones = f.dels.length := by
    intro data dels d x h1 h2 h3 h4 h5 h6 h7
    have hst : ∀ kt, Stored (⟨d, x⟩ : File K R) kt ↔ ∃ q ∈ us, HasKT q kt := by
      intro kt
      unfold Stored HasKT
      simp only [h3.mem_iff, h4.mem_iff, List.mem_flatMap]
      constructor
      · rintro (⟨r, q, h, h'⟩ | ⟨q, h, h'⟩)
        · exact ⟨q, h, .inl ⟨r, h'⟩⟩
        · exact ⟨q, h, .inr h'⟩
      · rintro ⟨q, h, ⟨r, h'⟩ | h'⟩
        · exact .inl ⟨r, q, h, h'⟩
        · exact .inr ⟨q, h, h'⟩
    have hkey : ∀ k, (∃ q ∈ us, ∃ kt, HasKT q kt ∧ kt.key = k) ↔
        ∃ kt, Stored (⟨d, x⟩ : File K R) kt ∧ kt.key = k := by
      intro k
      simp only [hst]
      exact ⟨fun ⟨q, hq, kt, h, e⟩ => ⟨kt, ⟨q, hq, h⟩, e⟩, fun ⟨kt, ⟨q, hq, h⟩, e⟩ => ⟨q, hq, kt, h, e⟩⟩
    have hts : ∀ k, (∃ q ∈ us, ∃ kt, HasKT q kt ∧ kt.ts = k) ↔
        ∃ kt, Stored (⟨d, x⟩ : File K R) kt ∧ kt.ts = k := by
      intro k
      simp only [hst]
      exact ⟨fun ⟨q, hq, kt, h, e⟩ => ⟨kt, ⟨q, hq, h⟩, e⟩, fun ⟨kt, ⟨q, hq, h⟩, e⟩ => ⟨q, hq, kt, h, e⟩⟩
    refine ⟨_, ⟨d, x⟩, by simp only [flush, g1]; exact h7, by simp [Table.file, h1, h2], ⟨h5, h6⟩,
      keyedBy_key h1, ?_, ?_, ⟨?_, ?_, ?_, ?_⟩, ?_, ?_⟩
    · intro kt r
      rw [h3.mem_iff, List.mem_flatMap, ← g4]
      rfl
    · intro kt
      rw [h4.mem_iff, List.mem_flatMap, ← g4]
      rfl
    · exact (least_congr hkey).1 g2.minKey
    · exact (greatest_congr hkey).1 g2.maxKey
    · exact (least_congr hts).1 g2.minTs
    · exact (greatest_congr hts).1 g2.maxTs
    · simp only
      rw [g2.rows, h3.length_eq, List.length_flatMap]
    · simp only
      rw [g2.tombs, h4.length_eq, List.length_flatMap]
  by_cases h1 : 1 < w.immutables
  · -- several runs: sorted
    have hk : ∀ p ∈ (w.segments.map (·.data)).flatten, (ext p.1).isSome := by
      intro p hp
      rw [g2.segments] at hp
      simp only [List.map_map, List.mem_flatten, List.mem_map, Function.comp_apply] at hp
      obtain ⟨_, ⟨q, hq, rfl⟩, hp⟩ := hp
      obtain ⟨p', hp', rfl⟩ := List.mem_map.1 hp
      rw [(g3 q hq).key p' hp']
      rfl
    obtain ⟨data, d, s1, s2, s3, s4⟩ := sortRows_spec (keyOf := ext) _ hk
    obtain ⟨dels, x, r1, r2, r3, r4⟩ := sortRows_spec (keyOf := (some : K → Option K))
      (w.segments.map (·.dels)) (fun _ _ => rfl)
    have e1 : (w.segments.map (·.data)).flatten = (us.flatMap (·.1)).map (fun p => (p.2, p.1.ts)) := by
      rw [g2.segments, List.map_map, List.map_flatMap, List.flatMap_def]
      rfl
    have e2 : (w.segments.map (·.dels)).flatten = (us.flatMap (·.2)).map (fun kt => (kt.key, kt.ts)) := by
      rw [g2.segments, List.map_map, List.map_flatMap, List.flatMap_def]
      rfl
    have hx := keyedBy_map r3
    have hxk := keyedBy_key r3
    have x1 : ∀ l : List (KT K × K), (∀ p ∈ l, some p.2 = some p.1.key) →
        l.map (·.1) = l.map (fun p => (⟨p.2, p.1.ts⟩ : KT K)) := by
      intro l hl
      apply List.map_congr_left
      intro p hp
      have := hl p hp
      simp only [Option.some.injEq] at this
      rw [this]
    apply key data dels d (dels.map (fun p => (⟨p.1, p.2⟩ : KT K))) s3 rfl
    · have hd := keyedBy_map s3
      rw [← hd, e1] at s2
      have := s2.map (fun p : R × Nat => (ext p.1).map (fun k => ((⟨k, p.2⟩ : KT K), p.1)))
      rw [List.map_map, List.map_map] at this
      have f1 : d.map ((fun p : R × Nat => (ext p.1).map (fun k => ((⟨k, p.2⟩ : KT K), p.1))) ∘
          fun p => (p.2, p.1.ts)) = d.map some := by
        apply List.map_congr_left
        intro p hp
        simp only [Function.comp_apply, keyedBy_key s3 p hp, Option.map_some]
      have f2 : (us.flatMap (·.1)).map ((fun p : R × Nat => (ext p.1).map (fun k => ((⟨k, p.2⟩ : KT K), p.1))) ∘
          fun p => (p.2, p.1.ts)) = (us.flatMap (·.1)).map some := by
        apply List.map_congr_left
        intro p hp
        obtain ⟨q, hq, hp⟩ := List.mem_flatMap.1 hp
        simp only [Function.comp_apply, (g3 q hq).key p hp, Option.map_some]
      rw [f1, f2] at this
      have := this.filterMap id
      rwa [List.filterMap_map, List.filterMap_map, Function.id_comp, List.filterMap_some,
        List.filterMap_some] at this
    · rw [e2] at r2
      have := r2.map (fun p => (⟨p.1, p.2⟩ : KT K))
      rw [List.map_map] at this
      simpa [Function.comp_def] using this
    · exact s4
    · rw [← hx, List.map_map]
      have := x1 x hxk
      simp only [Function.comp_def]
      rw [← this]
      exact List.pairwise_map.2 r4
    · have hn : normalize ext w.segments = .ok [⟨data, dels⟩] := by
        unfold normalize
        rw [if_neg (by rw [g2.segments, List.length_map, ← g2.immutables]; omega), s1, r1]
      simp [Writer.finish, hcount, h1, hn, writeSegments]
  · -- one run: in index order already
    obtain ⟨q, rfl⟩ : ∃ q, us = [q] := by
      rw [g2.immutables] at h1
      match us, hus, h1 with
      | [q], _, _ => exact ⟨q, rfl⟩
      | _ :: _ :: _, _, h => simp at h
    have hq := g3 q List.mem_cons_self
    apply key (q.1.map (fun p => (p.2, p.1.ts))) (q.2.map (fun kt => (kt.key, kt.ts))) q.1 q.2
      (keyed_of q.1 hq.key) (by rw [List.map_map]; simp [Function.comp_def])
      (by simp) (by simp) (hq.usorted.imp (fun h => le_of_lt h)) (hq.xsorted.imp (fun h => le_of_lt h))
    simp [Writer.finish, hcount, h1, writeSegments, g2.segments]

/-- If no two runs disagree about a version, the file stands for exactly the versions of the runs. -/
theorem fileVersions_iff {f : File K R} {H : Ver K R → Prop} (hH : Functional H)
    (hd : ∀ kt r, (kt, r) ∈ f.data ↔ H ⟨kt.key, kt.ts, .put r⟩)
    (hx : ∀ kt, kt ∈ f.dels ↔ H ⟨kt.key, kt.ts, .del⟩) (w : Ver K R) :
    FileVersions f w ↔ H w := by
  obtain ⟨k, t, op⟩ := w
  cases op with
  | del => exact hx ⟨k, t⟩
  | put r =>
    simp only [FileVersions]
    constructor
    · rintro ⟨h, _⟩
      exact (hd ⟨k, t⟩ r).1 (Sst.firstIn_mem h)
    · intro h
      obtain ⟨r', h'⟩ := Sst.firstIn_of_mem ((hd ⟨k, t⟩ r).2 h)
      have e := hH _ _ ((hd ⟨k, t⟩ r').1 (Sst.firstIn_mem h')) h rfl rfl
      simp only [Mut.put.injEq] at e
      subst e
      refine ⟨h', ?_⟩
      intro hc
      have := hH _ _ ((hx ⟨k, t⟩).1 hc) h rfl rfl
      cases this

end Tonbo.Lemmas.Flush
