import Verif.Lemmas.CompactLoop
import Verif.Lemmas.Flush

/-!
# Writing the outputs of a merge
-/

set_option linter.unusedSectionVars false

namespace Tonbo.Lemmas.Compact
open Tonbo.Model Tonbo.Model.Mem Tonbo.Model.Sst Tonbo.Model.Flush Tonbo.Model.Compact Tonbo.Spec
open Tonbo.Lemmas.Flush

variable {K R : Type} [LinearOrder K]

/-! ## Statistics -/

/-- The key bounds are exact for these keys. -/
def KeysOk (s : Stats K) (P : K → Prop) : Prop := LeastIs P s.minKey ∧ GreatestIs P s.maxKey

/-- The commit bounds are exact for these timestamps. -/
def TsOk (s : Stats K) (P : Nat → Prop) : Prop := LeastIs P s.minTs ∧ GreatestIs P s.maxTs

theorem KeysOk.congr {s : Stats K} {P Q : K → Prop} (h : KeysOk s P) (hq : ∀ k, P k ↔ Q k) : KeysOk s Q :=
  ⟨(least_congr hq).1 h.1, (greatest_congr hq).1 h.2⟩

theorem TsOk.congr {s : Stats K} {P Q : Nat → Prop} (h : TsOk s P) (hq : ∀ k, P k ↔ Q k) : TsOk s Q :=
  ⟨(least_congr hq).1 h.1, (greatest_congr hq).1 h.2⟩

theorem firstLast_keys {s : Stats K} {P : K → Prop} (h : KeysOk s P) {l : List (KT K)}
    (hs : l.Pairwise (fun a b => a.key < b.key)) :
    KeysOk (Stats.firstLast s l) (fun k => P k ∨ ∃ kt ∈ l, kt.key = k) := by
  cases l with
  | nil =>
    exact KeysOk.congr h (by simp)
  | cons a l =>
    obtain ⟨z, hz⟩ : ∃ z, (a :: l).getLast? = some z := ⟨_, List.getLast?_eq_some_getLast (by simp)⟩
    have he : Stats.firstLast s (a :: l) = s.updateKeys a.key z.key := by
      simp only [Stats.firstLast, List.head?_cons, hz]
    rw [he]
    constructor
    · refine lower_least h.1 ⟨⟨a, List.mem_cons_self, rfl⟩, ?_⟩
      rintro k ⟨kt, hk, rfl⟩
      rcases List.mem_cons.1 hk with rfl | hk
      · exact le_refl _
      · exact le_of_lt ((List.pairwise_cons.1 hs).1 kt hk)
    · refine raise_greatest h.2 ⟨⟨z, List.mem_of_getLast? hz, rfl⟩, ?_⟩
      rintro k ⟨kt, hk, rfl⟩
      obtain ⟨pre, hpre⟩ := List.getLast?_eq_some_iff.1 hz
      rw [hpre] at hs hk
      rcases List.mem_append.1 hk with hk | hk
      · exact le_of_lt ((List.pairwise_append.1 hs).2.2 kt hk z (by simp))
      · rw [List.mem_singleton.1 hk]

theorem firstLast_rest (s : Stats K) (l : List (KT K)) :
    (Stats.firstLast s l).minTs = s.minTs ∧ (Stats.firstLast s l).maxTs = s.maxTs ∧
    (Stats.firstLast s l).segments = s.segments ∧ (Stats.firstLast s l).rows = s.rows ∧
    (Stats.firstLast s l).tombstones = s.tombstones := by
  unfold Stats.firstLast
  split <;> simp [Stats.updateKeys]

theorem maybeTs_ts {s : Stats K} {P : Nat → Prop} (h : TsOk s P) (l : List Nat) :
    TsOk (s.maybeTs (tsRange l)) (fun t => P t ∨ t ∈ l) := by
  obtain ⟨h1, h2⟩ := tsRange_spec l
  cases hl : (tsRange l).1 with
  | none =>
    rw [hl] at h1
    have hm : s.maybeTs (tsRange l) = s := by
      rw [show tsRange l = (none, (tsRange l).2) from Prod.ext hl rfl]; rfl
    rw [hm]
    exact TsOk.congr h (fun t => ⟨.inl, fun hh => hh.elim id (fun hh => absurd hh (h1 t))⟩)
  | some lo =>
    rw [hl] at h1
    cases hg : (tsRange l).2 with
    | none => rw [hg] at h2; exact absurd h1.1 (h2 lo)
    | some hi =>
      rw [hg] at h2
      have hm : s.maybeTs (tsRange l) = s.updateTs lo hi := by
        rw [show tsRange l = (some lo, some hi) from Prod.ext hl hg]; rfl
      rw [hm]
      exact ⟨lower_least h.1 h1, raise_greatest h.2 h2⟩

theorem maybeTs_rest (s : Stats K) (r : Option Nat × Option Nat) :
    (s.maybeTs r).minKey = s.minKey ∧ (s.maybeTs r).maxKey = s.maxKey ∧
    (s.maybeTs r).segments = s.segments ∧ (s.maybeTs r).rows = s.rows ∧
    (s.maybeTs r).tombstones = s.tombstones := by
  unfold Stats.maybeTs
  split <;> simp [Stats.updateTs]

/-- The statistics describe these rows and deletions. -/
structure StatsFor (s : Stats K) (data : List (KT K × R)) (dels : List (KT K)) : Prop where
  keys : KeysOk s (fun k => (∃ p ∈ data, p.1.key = k) ∨ ∃ kt ∈ dels, kt.key = k)
  ts : TsOk s (fun t => (∃ p ∈ data, p.1.ts = t) ∨ ∃ kt ∈ dels, kt.ts = t)
  rows : s.rows = data.length
  tombs : s.tombstones = dels.length

theorem stageStream_spec {s : Stats K} {data : List (KT K × R)} {dels : List (KT K)}
    (h : StatsFor s data dels) {b : Batch K R} (hne : ¬ (b.data = [] ∧ b.kts .del = []))
    (h1 : b.data.Pairwise (fun a b => a.1.key < b.1.key))
    (h2 : (b.kts .del).Pairwise (fun a b => a.key < b.key)) :
    StatsFor (stageStream s b) (data ++ b.data) (dels ++ b.kts .del) ∧
      (stageStream s b).segments = s.segments + 1 := by
  have hne' : ¬ (b.data.length = 0 ∧ (b.kts .del).length = 0) := by
    rwa [List.length_eq_zero_iff, List.length_eq_zero_iff]
  have h1' : (b.kts .data).Pairwise (fun a b => a.key < b.key) := List.pairwise_map.2 h1
  obtain ⟨a1, a2, a3, a4, a5⟩ := firstLast_rest s (b.kts .data)
  obtain ⟨b1, b2, b3, b4, b5⟩ := firstLast_rest (Stats.firstLast s (b.kts .data)) (b.kts .del)
  obtain ⟨c1, c2, c3, c4, c5⟩ := maybeTs_rest
    (Stats.firstLast (Stats.firstLast s (b.kts .data)) (b.kts .del))
    (tsRange ((b.kts .data ++ b.kts .del).map (·.ts)))
  have hk := firstLast_keys (firstLast_keys h.keys h1') h2
  have ht : TsOk (Stats.firstLast (Stats.firstLast s (b.kts .data)) (b.kts .del))
      (fun t => (∃ p ∈ data, p.1.ts = t) ∨ ∃ kt ∈ dels, kt.ts = t) := by
    have := h.ts
    unfold TsOk at this ⊢
    rw [b1, b2, a1, a2]
    exact this
  have ht' := maybeTs_ts ht ((b.kts .data ++ b.kts .del).map (·.ts))
  unfold stageStream
  rw [if_neg hne']
  refine ⟨⟨?_, ?_, ?_, ?_⟩, ?_⟩
  · refine KeysOk.congr (P := fun k => (((∃ p ∈ data, p.1.key = k) ∨ ∃ kt ∈ dels, kt.key = k) ∨
      ∃ kt ∈ b.kts .data, kt.key = k) ∨ ∃ kt ∈ b.kts .del, kt.key = k) ?_ ?_
    · unfold KeysOk at hk ⊢
      simp only
      rw [c1, c2]
      exact hk
    · intro k
      constructor
      · rintro (((⟨p, hp, e⟩ | ⟨p, hp, e⟩) | ⟨p, hp, e⟩) | ⟨p, hp, e⟩)
        · exact .inl ⟨p, List.mem_append_left _ hp, e⟩
        · exact .inr ⟨p, List.mem_append_left _ hp, e⟩
        · obtain ⟨q, hq, rfl⟩ := List.mem_map.1 hp
          exact .inl ⟨q, List.mem_append_right _ hq, e⟩
        · exact .inr ⟨p, List.mem_append_right _ hp, e⟩
      · rintro (⟨p, hp, e⟩ | ⟨p, hp, e⟩)
        · rcases List.mem_append.1 hp with hp | hp
          · exact .inl (.inl (.inl ⟨p, hp, e⟩))
          · exact .inl (.inr ⟨p.1, List.mem_map_of_mem hp, e⟩)
        · rcases List.mem_append.1 hp with hp | hp
          · exact .inl (.inl (.inr ⟨p, hp, e⟩))
          · exact .inr ⟨p, hp, e⟩
  · refine TsOk.congr (P := fun t => ((∃ p ∈ data, p.1.ts = t) ∨ ∃ kt ∈ dels, kt.ts = t) ∨
      t ∈ (b.kts .data ++ b.kts .del).map (fun kt => kt.ts)) ?_ ?_
    · exact ht'
    intro t
    constructor
    · rintro ((⟨p, hp, e⟩ | ⟨p, hp, e⟩) | hp)
      · exact .inl ⟨p, List.mem_append_left _ hp, e⟩
      · exact .inr ⟨p, List.mem_append_left _ hp, e⟩
      · obtain ⟨q, hq, e⟩ := List.mem_map.1 hp
        rcases List.mem_append.1 hq with hq | hq
        · obtain ⟨q', hq', rfl⟩ := List.mem_map.1 hq
          exact .inl ⟨q', List.mem_append_right _ hq', e⟩
        · exact .inr ⟨q, List.mem_append_right _ hq, e⟩
    · rintro (⟨p, hp, e⟩ | ⟨p, hp, e⟩)
      · rcases List.mem_append.1 hp with hp | hp
        · exact .inl (.inl ⟨p, hp, e⟩)
        · exact .inr (List.mem_map.2 ⟨p.1, List.mem_append_left _ (List.mem_map_of_mem hp), e⟩)
      · rcases List.mem_append.1 hp with hp | hp
        · exact .inl (.inr ⟨p, hp, e⟩)
        · exact .inr (List.mem_map.2 ⟨p, List.mem_append_right _ hp, e⟩)
  · simp only [List.length_append]
    rw [c4, b4, a4, h.rows]
  · simp only [List.length_append]
    rw [c5, b5, a5, h.tombs]
  · simp only
    rw [c3, b3, a3]

theorem stageAll_spec : ∀ (bs : List (Batch K R)) (s : Stats K) (data : List (KT K × R)) (dels : List (KT K)),
    StatsFor s data dels → (∀ b ∈ bs, ¬ (b.data = [] ∧ b.kts .del = [])) →
    (bs.flatMap (·.data)).Pairwise (fun a b => a.1.key < b.1.key) →
    (bs.flatMap (fun b => b.kts .del)).Pairwise (fun a b => a.key < b.key) →
    StatsFor (bs.foldl stageStream s) (data ++ bs.flatMap (·.data)) (dels ++ bs.flatMap (fun b => b.kts .del)) ∧
      (bs.foldl stageStream s).segments = s.segments + bs.length
  | [], s, data, dels, h, _, _, _ => by simpa using h
  | b :: bs, s, data, dels, h, hne, h1, h2 => by
    rw [List.flatMap_cons] at h1 h2
    obtain ⟨g1, g2⟩ := stageStream_spec h (hne b List.mem_cons_self) (List.pairwise_append.1 h1).1
      (List.pairwise_append.1 h2).1
    obtain ⟨f1, f2⟩ := stageAll_spec bs (stageStream s b) _ _ g1
      (fun b' hb' => hne b' (List.mem_cons_of_mem _ hb')) (List.pairwise_append.1 h1).2.1
      (List.pairwise_append.1 h2).2.1
    rw [List.foldl_cons, List.flatMap_cons, List.flatMap_cons, ← List.append_assoc, ← List.append_assoc]
    refine ⟨f1, ?_⟩
    rw [f2, g2, List.length_cons]
    omega

theorem statsFor_new : StatsFor (Stats.new : Stats K) ([] : List (KT K × R)) [] := by
  refine ⟨⟨?_, ?_⟩, ⟨?_, ?_⟩, rfl, rfl⟩ <;> simp [LeastIs, GreatestIs, Stats.new]

/-! ## Outputs -/

/-- The row of an entry. -/
def rowOf (p : KT K × Option R) : Option (KT K × R) := p.2.map (fun r => (p.1, r))

/-- The deletion of an entry. -/
def delOf (p : KT K × Option R) : Option (KT K) := if p.2.isNone then some p.1 else none

/-- The file that holds these entries. -/
def fileOf (ws : List (KT K × Option R)) : File K R := ⟨ws.filterMap rowOf, ws.filterMap delOf⟩

/-- Keys strictly ascending. -/
def Asc (ws : List (KT K × Option R)) : Prop := ws.Pairwise (fun a b => a.1.key < b.1.key)

theorem mem_rowOf {ws : List (KT K × Option R)} {q : KT K × R} :
    q ∈ ws.filterMap rowOf ↔ (q.1, some q.2) ∈ ws := by
  rw [List.mem_filterMap]
  constructor
  · rintro ⟨⟨kt, o⟩, h, e⟩
    cases o with
    | none => cases e
    | some r => cases e; exact h
  · intro h
    exact ⟨_, h, rfl⟩

theorem mem_delOf {ws : List (KT K × Option R)} {kt : KT K} : kt ∈ ws.filterMap delOf ↔ (kt, none) ∈ ws := by
  rw [List.mem_filterMap]
  constructor
  · rintro ⟨⟨kt', o⟩, h, e⟩
    cases o with
    | none => cases e; exact h
    | some r => cases e
  · intro h
    exact ⟨_, h, rfl⟩

theorem asc_rows {ws : List (KT K × Option R)} (h : Asc ws) :
    (ws.filterMap rowOf).Pairwise (fun a b => a.1.key < b.1.key) := by
  refine List.Pairwise.filterMap rowOf ?_ h
  rintro ⟨k1, o1⟩ ⟨k2, o2⟩ hlt a ha b hb
  cases o1 <;> cases o2 <;> simp_all [rowOf]
  rw [← ha, ← hb]; exact hlt

theorem asc_dels {ws : List (KT K × Option R)} (h : Asc ws) :
    (ws.filterMap delOf).Pairwise (fun a b => a.key < b.key) := by
  refine List.Pairwise.filterMap delOf ?_ h
  rintro ⟨k1, o1⟩ ⟨k2, o2⟩ hlt a ha b hb
  cases o1 <;> cases o2 <;> simp_all [delOf]

/-- The output being written holds these entries. -/
structure OutRep (o : Out K R) (ws : List (KT K × Option R)) : Prop where
  data : o.batches.flatMap (·.data) ++ o.data = ws.filterMap rowOf
  dels : o.batches.flatMap (fun b => b.kts .del) ++ o.dels = ws.filterMap delOf
  ne : ∀ b ∈ o.batches, ¬ (b.data = [] ∧ b.kts .del = [])
  rows : o.rows = (ws.filterMap rowOf).length
  tombs : o.tombs = (ws.filterMap delOf).length

theorem outRep_new : OutRep (Out.new : Out K R) [] := ⟨rfl, rfl, by simp [Out.new], rfl, rfl⟩

theorem outRep_flush {o : Out K R} {ws : List (KT K × Option R)} (h : OutRep o ws) :
    OutRep o.flushChunk ws ∧ o.flushChunk.data = [] ∧ o.flushChunk.dels = [] := by
  unfold Out.flushChunk
  by_cases hc : o.data = [] ∧ o.dels = []
  · rw [if_pos hc]; exact ⟨h, hc⟩
  · rw [if_neg hc]
    have hk : (⟨o.data, if o.dels = [] then none else some o.dels⟩ : Batch K R).kts .del = o.dels := by
      unfold Batch.kts
      by_cases hd : o.dels = []
      · simp [hd]
      · simp [hd]
    refine ⟨⟨?_, ?_, ?_, h.rows, h.tombs⟩, rfl, rfl⟩
    · simp only [List.flatMap_append, List.flatMap_cons, List.flatMap_nil, List.append_nil]
      exact h.data
    · simp only [List.flatMap_append, List.flatMap_cons, List.flatMap_nil, List.append_nil]
      rw [hk]
      exact h.dels
    · intro b hb
      rcases List.mem_append.1 hb with hb | hb
      · exact h.ne b hb
      · rw [List.mem_singleton.1 hb, hk]
        exact hc

/-- Pushing an entry. -/
def push (cfg : Cfg K R) (o : Out K R) (x : KT K × Option R) : Out K R :=
  match x.2 with
  | some r => o.pushData (x.1, r) (cfg.sizeData (x.1, r))
  | none => o.pushDel x.1 (cfg.sizeDel x.1)

theorem outRep_push (cfg : Cfg K R) {o : Out K R} {ws : List (KT K × Option R)} (h : OutRep o ws)
    (x : KT K × Option R) : OutRep (push cfg o x) (ws ++ [x]) := by
  obtain ⟨kt, r⟩ := x
  cases r with
  | some r =>
    refine ⟨?_, ?_, h.ne, ?_, ?_⟩
    · rw [List.filterMap_append, ← h.data]
      simp [push, Out.pushData, rowOf]
    · rw [List.filterMap_append, ← h.dels]
      simp [push, Out.pushData, delOf]
    · rw [List.filterMap_append]
      simp [push, Out.pushData, rowOf, h.rows]
    · rw [List.filterMap_append]
      simp [push, Out.pushData, delOf, h.tombs]
  | none =>
    refine ⟨?_, ?_, h.ne, ?_, ?_⟩
    · rw [List.filterMap_append, ← h.data]
      simp [push, Out.pushDel, rowOf]
    · rw [List.filterMap_append, ← h.dels]
      simp [push, Out.pushDel, delOf]
    · rw [List.filterMap_append]
      simp [push, Out.pushDel, rowOf, h.rows]
    · rw [List.filterMap_append]
      simp [push, Out.pushDel, delOf, h.tombs]

theorem rows_dels_nil {ws : List (KT K × Option R)} (h1 : ws.filterMap rowOf = [])
    (h2 : ws.filterMap delOf = []) : ws = [] := by
  apply List.eq_nil_iff_forall_not_mem.2
  rintro ⟨kt, o⟩ hm
  cases o with
  | none =>
    have := mem_delOf.2 hm
    rw [h2] at this; cases this
  | some r =>
    have : (kt, r) ∈ ws.filterMap rowOf := mem_rowOf.2 hm
    rw [h1] at this; cases this

/-- A table that was written holds these entries. -/
structure TableRep (cfg : Cfg K R) (t : OTable K R) (ws : List (KT K × Option R)) : Prop where
  ne : ws ≠ []
  file : t.file = fileOf ws
  exact : StatsExact t.file t.stats.minKey t.stats.maxKey t.stats.minTs t.stats.maxTs
  rows : t.stats.rows = t.file.data.length
  tombs : t.stats.tombstones = t.file.dels.length
  wal : t.wal = cfg.wal

theorem finish_spec (cfg : Cfg K R) {o : Out K R} {ws : List (KT K × Option R)} (h : OutRep o ws)
    (hne : ws ≠ []) (ha : Asc ws) (id : Nat) :
    ∃ t, o.finish id cfg.wal = .ok t ∧ t.id = id ∧ TableRep cfg t ws := by
  obtain ⟨hf, e1, e2⟩ := outRep_flush h
  have hd := hf.data
  have hx := hf.dels
  rw [e1, List.append_nil] at hd
  rw [e2, List.append_nil] at hx
  obtain ⟨g1, g2⟩ := stageAll_spec o.flushChunk.batches Stats.new [] [] statsFor_new hf.ne
    (by rw [hd]; exact asc_rows ha) (by rw [hx]; exact asc_dels ha)
  rw [List.nil_append, List.nil_append, hd, hx] at g1
  have hb : o.flushChunk.batches ≠ [] := by
    intro hb
    rw [hb] at hd hx
    exact hne (rows_dels_nil hd.symm hx.symm)
  have hseg : (o.flushChunk.batches.foldl stageStream (Stats.new : Stats K)).segments ≠ 0 := by
    rw [g2]
    have := List.length_pos_iff.2 hb
    omega
  refine ⟨_, by unfold Out.finish; rw [if_neg hseg], rfl, ⟨hne, ?_, ?_, ?_, ?_, rfl⟩⟩
  · simp only [hd, hx]; rfl
  · simp only [hd, hx]
    have hkk : ∀ k, ((∃ p ∈ ws.filterMap rowOf, p.1.key = k) ∨ ∃ kt ∈ ws.filterMap delOf, kt.key = k) ↔
        ∃ kt, Stored (⟨ws.filterMap rowOf, ws.filterMap delOf⟩ : File K R) kt ∧ kt.key = k := by
      intro k
      constructor
      · rintro (⟨p, hp, e⟩ | ⟨p, hp, e⟩)
        · exact ⟨p.1, .inl ⟨p.2, hp⟩, e⟩
        · exact ⟨p, .inr hp, e⟩
      · rintro ⟨kt, ⟨r, hr⟩ | hr, e⟩
        · exact .inl ⟨_, hr, e⟩
        · exact .inr ⟨_, hr, e⟩
    have htt : ∀ t, ((∃ p ∈ ws.filterMap rowOf, p.1.ts = t) ∨ ∃ kt ∈ ws.filterMap delOf, kt.ts = t) ↔
        ∃ kt, Stored (⟨ws.filterMap rowOf, ws.filterMap delOf⟩ : File K R) kt ∧ kt.ts = t := by
      intro k
      constructor
      · rintro (⟨p, hp, e⟩ | ⟨p, hp, e⟩)
        · exact ⟨p.1, .inl ⟨p.2, hp⟩, e⟩
        · exact ⟨p, .inr hp, e⟩
      · rintro ⟨kt, ⟨r, hr⟩ | hr, e⟩
        · exact .inl ⟨_, hr, e⟩
        · exact .inr ⟨_, hr, e⟩
    exact ⟨(g1.keys.congr hkk).1, (g1.keys.congr hkk).2, (g1.ts.congr htt).1, (g1.ts.congr htt).2⟩
  · simp only [hd]; exact g1.rows
  · simp only [hx]; exact g1.tombs

theorem hasPending_iff {o : Out K R} {ws : List (KT K × Option R)} (h : OutRep o ws) :
    o.hasPending = true ↔ ws ≠ [] := by
  constructor
  · intro hp hw
    subst hw
    have h1 := h.data
    have h2 := h.dels
    simp only [List.filterMap_nil, List.append_eq_nil_iff] at h1 h2
    have hb : o.batches = [] := by
      apply List.eq_nil_iff_forall_not_mem.2
      intro b hb
      exact h.ne b hb ⟨List.flatMap_eq_nil_iff.1 h1.1 b hb, List.flatMap_eq_nil_iff.1 h2.1 b hb⟩
    have h3 := h.rows
    have h4 := h.tombs
    simp [Out.hasPending, hb, h1.2, h2.2, h3, h4] at hp
  · intro hw
    by_contra hp
    unfold Out.hasPending at hp
    simp only [Bool.or_eq_true, Bool.not_eq_true', decide_eq_true_eq, not_or, Bool.not_eq_false,
      List.isEmpty_iff] at hp
    obtain ⟨⟨_, h3⟩, h4⟩ := hp
    have h5 := h.rows
    have h6 := h.tombs
    exact hw (rows_dels_nil (List.length_eq_zero_iff.1 (by omega)) (List.length_eq_zero_iff.1 (by omega)))

/-- `append_data` / `append_delete`. -/
theorem append_spec (cfg : Cfg K R) {srcs : List (Cursor K R)} {e : HEntry K} {c : Cursor K R}
    {x : KT K × Option R} {t : List (KT K × Option R)} (hc : srcs[e.src]? = some c)
    (hr : rem c e.kind = x :: t) (hrow : c.idx e.kind = e.row) (o : Out K R) :
    append cfg srcs e o = some (push cfg o x) := by
  unfold append
  cases hb : c.batch with
  | none => simp [rem, hb] at hr
  | some b =>
    simp only [hc, hb]
    have hx : (items b e.kind)[e.row]? = some x := by
      rw [← List.head?_drop, ← hrow]
      have : (items b e.kind).drop (c.idx e.kind) = rem c e.kind := by simp [rem, hb]
      rw [this, hr]; rfl
    cases hk : e.kind with
    | data =>
      rw [hk] at hx
      simp only [items, List.getElem?_map] at hx
      cases hg : b.data[e.row]? with
      | none => rw [hg] at hx; cases hx
      | some p =>
        rw [hg] at hx
        cases hx
        rfl
    | del =>
      rw [hk] at hx
      simp only [items, List.getElem?_map] at hx
      cases hd : b.del with
      | none => rw [hd] at hx; simp at hx
      | some l =>
        rw [hd] at hx
        simp only [Option.getD_some] at hx
        cases hg : l[e.row]? with
        | none => rw [hg] at hx; cases hx
        | some kt =>
          rw [hg] at hx
          cases hx
          simp [hg, push]

end Tonbo.Lemmas.Compact
