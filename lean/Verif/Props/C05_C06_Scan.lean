import Verif.Lemmas.Package
import Verif.Lemmas.SstScan
import Verif.Props.C02_C04_Memtable

/-!
# C05, C06: the merged scan and its limit

A source is a list of poll results (`none` is `Pending`). `ready s` are the entries it yields.
-/

set_option linter.unusedSectionVars false

namespace Tonbo.Props.C05
open Tonbo.Model Tonbo.Model.Mem Tonbo.Model.Merge Tonbo.Spec Tonbo.Lemmas.Merge Tonbo.Lemmas.Sst

variable {K R : Type} [LinearOrder K]

/-- The entries a source yields. -/
abbrev ready (s : List (Option (Entry K R))) : List (Entry K R) := s.filterMap id

private theorem mem_ready {e : Entry K R} {s : List (Option (Entry K R))} :
    e ∈ ready s ↔ some e ∈ s := by
  simp [ready, List.mem_filterMap]

private theorem hkey_le {i j : Nat} {p q : Prio} {e x : Entry K R} (hk : e.kt.key = x.kt.key) :
    hkey i p e ≤ hkey j q x ↔ x.kt.ts < e.kt.ts ∨
      (x.kt.ts = e.kt.ts ∧ (p.rank < q.rank ∨ (p.rank = q.rank ∧ i ≤ j))) := by
  simp only [hkey, Prod.Lex.le_iff, ofLex_toLex, KT.lt_def, hk, lt_irrefl, false_or]
  constructor
  · rintro (h | ⟨h, g⟩)
    · exact .inl h.2
    · rw [h]; exact .inr ⟨rfl, g⟩
  · rintro (h | ⟨h, g⟩)
    · exact .inl ⟨trivial, h⟩
    · exact .inr ⟨KT.ext' hk h.symm, g⟩

/-- Which entry wins a key, whatever the sources hold: the highest timestamp; among equal
timestamps the source of higher priority, then the source listed first. It is emitted unless it is
a tombstone. Entries come out in strictly ascending key order. -/
theorem merged_entries (streams : List (Prio × List (Option (Entry K R))))
    (ha : ∀ ps ∈ streams, (ready ps.2).Pairwise (fun a b => a.kt.key < b.kt.key)) :
    ∃ tr, mergeAll streams none = some tr ∧
      (ready tr).Pairwise (fun a b => a.kt.key < b.kt.key) ∧
      ∀ e, e ∈ ready tr ↔ (e.isTomb = false ∧ ∃ (i : Nat) (p : Prio) (s : _), streams[i]? = some (p, s) ∧
        e ∈ ready s ∧ ∀ (j : Nat) (q : Prio) (s' : _) (e' : _), streams[j]? = some (q, s') → e' ∈ ready s' → e'.kt.key = e.kt.key →
          (e'.kt.ts < e.kt.ts ∨ (e'.kt.ts = e.kt.ts ∧
            (p.rank < q.rank ∨ (p.rank = q.rank ∧ i ≤ j))))) := by
  obtain ⟨L, h1, h2, tr, h3, h4⟩ := mergeAll_spec streams none ha
  have hk : ∀ y ∈ L, ∃ p, y.1 = hkey y.2.1 p y.2.2 := by
    intro y hy
    obtain ⟨i, p, s, e, _, _, rfl⟩ := (h2 y).1 hy
    exact ⟨p, rfl⟩
  obtain ⟨w1, w2⟩ := emit_winners h1 hk
  have h4' : ready tr = emit none (L.map (·.2.2)) := h4
  refine ⟨tr, h3, by rw [h4']; exact w1, ?_⟩
  intro e
  rw [h4', w2 e]
  refine and_congr_right (fun _ => ?_)
  constructor
  · rintro ⟨y, hy, rfl, hmin⟩
    obtain ⟨i, p, s, e, hs, he, rfl⟩ := (h2 y).1 hy
    refine ⟨i, p, s, hs, mem_ready.2 he, ?_⟩
    intro j q s' e' hs' he' hkey'
    have := hmin (hkey j q e', j, e') ((h2 _).2 ⟨j, q, s', e', hs', mem_ready.1 he', rfl⟩) hkey'
    exact (hkey_le hkey'.symm).1 this
  · rintro ⟨i, p, s, hs, he, hmin⟩
    refine ⟨(hkey i p e, i, e), (h2 _).2 ⟨i, p, s, e, hs, mem_ready.1 he, rfl⟩, rfl, ?_⟩
    intro z hz hkey'
    obtain ⟨j, q, s', e', hs', he', rfl⟩ := (h2 z).1 hz
    exact (hkey_le hkey'.symm).2 (hmin j q s' e' hs' (mem_ready.2 he') hkey')

private theorem mem_map_toVer {w : Ver K R} {l : List (Entry K R)} :
    w ∈ l.map toVer ↔ ∃ e ∈ l, toVer e = w := List.mem_map

theorem mem_rowsOf {k : K} {r : R} {l : List (Entry K R)} :
    (k, r) ∈ rowsOf l ↔ ∃ t, Entry.row ⟨k, t⟩ r ∈ l := by
  simp only [rowsOf, List.mem_filterMap]
  constructor
  · rintro ⟨e, he, h⟩
    cases e with
    | tomb kt => simp at h
    | row kt r' =>
      obtain ⟨a, t⟩ := kt
      simp only [Option.some.injEq, Prod.mk.injEq] at h
      obtain ⟨rfl, rfl⟩ := h
      exact ⟨t, he⟩
  · rintro ⟨t, h⟩
    exact ⟨_, h, rfl⟩

theorem pairwise_rowsOf : ∀ {l : List (Entry K R)},
    l.Pairwise (fun a b => a.kt.key < b.kt.key) → (rowsOf l).Pairwise (fun a b => a.1 < b.1)
  | [], _ => by simp [rowsOf]
  | e :: l, h => by
    obtain ⟨h1, h2⟩ := List.pairwise_cons.1 h
    have ih := pairwise_rowsOf h2
    cases e with
    | tomb kt => simpa [rowsOf] using ih
    | row kt r =>
      show ((kt.key, r) :: rowsOf l).Pairwise _
      refine List.pairwise_cons.2 ⟨?_, ih⟩
      rintro ⟨k, r'⟩ hm
      obtain ⟨t, ht⟩ := mem_rowsOf.1 hm
      exact h1 _ ht

/-- **C05**, on the keys `good` only. Sources may report anything about other keys, as long as their
keys ascend. On good keys, if every source `i` reports the newest visible version of its own history
`H i`, and no two sources disagree about one key at one timestamp, the merged scan returns exactly the
rows visible in the union of the histories. Rows come out in strictly ascending key order, and each of
them was reported by some source. -/
theorem merged_scan_on (streams : List (Prio × List (Option (Entry K R))))
    (H : Nat → Ver K R → Prop) (rts : Nat) (good : K → Prop)
    (hasc : ∀ ps ∈ streams, ((ready ps.2).map toVer).Pairwise (fun a b => a.key < b.key))
    (hsrc : ∀ (i : Nat) (p : Prio) (s : _), streams[i]? = some (p, s) →
      ∀ w, good w.key → (w ∈ (ready s).map toVer ↔ Newest (H i) rts w))
    (hfun : ∀ k, good k → Functional (fun w => w.key = k ∧ ∃ i < streams.length, H i w)) :
    ∃ tr, mergeAll streams none = some tr ∧
      (rowsOf (ready tr)).Pairwise (fun a b => a.1 < b.1) ∧
      (∀ k r, good k → ((k, r) ∈ rowsOf (ready tr) ↔
        Visible (fun w => ∃ i < streams.length, H i w) rts k r)) ∧
      ∀ k r, (k, r) ∈ rowsOf (ready tr) → ∃ ps ∈ streams, (k, r) ∈ rowsOf (ready ps.2) := by
  have ha : ∀ ps ∈ streams, (ready ps.2).Pairwise (fun a b => a.kt.key < b.kt.key) := by
    intro ps hps
    have := hasc ps hps
    rw [List.pairwise_map] at this
    exact this.imp (fun h => by simpa [toVer_key] using h)
  obtain ⟨tr, h1, h2, h3⟩ := merged_entries streams ha
  refine ⟨tr, h1, pairwise_rowsOf h2, ?_, ?_⟩
  rotate_left
  · intro k r hm
    obtain ⟨t, ht⟩ := mem_rowsOf.1 hm
    obtain ⟨_, i, p, s, hs, he, _⟩ := (h3 _).1 ht
    exact ⟨(p, s), List.mem_of_getElem? hs, mem_rowsOf.2 ⟨t, he⟩⟩
  intro k r hr
  rw [mem_rowsOf]
  constructor
  · rintro ⟨t, ht⟩
    obtain ⟨_, i, p, s, hs, he, hmin⟩ := (h3 _).1 ht
    have g2 := hsrc i p s hs
    obtain ⟨hn, hle, _⟩ := (g2 ⟨k, t, .put r⟩ hr).1 (List.mem_map.2 ⟨_, he, rfl⟩)
    refine ⟨t, ⟨i, (List.getElem?_eq_some_iff.1 hs).1, hn⟩, hle, ?_⟩
    -- any other visible version of the key is beaten by the newest of its own source
    rintro u ⟨j, hj, hu⟩ huk hut
    obtain ⟨⟨q, s'⟩, hs'⟩ : ∃ x, streams[j]? = some x := ⟨_, List.getElem?_eq_getElem hj⟩
    have g2' := hsrc j q s' hs'
    -- the newest version of source j for key k
    have hex : ∃ w, Newest (H j) rts w ∧ w.key = k ∧ u.ts ≤ w.ts := by
      classical
      have bound : ∀ n, (∃ w, H j w ∧ w.key = k ∧ w.ts ≤ rts ∧ rts - w.ts ≤ n ∧ u.ts ≤ w.ts) →
          ∃ w, Newest (H j) rts w ∧ w.key = k ∧ u.ts ≤ w.ts := by
        intro n
        induction n with
        | zero =>
          rintro ⟨w, a1, a2, a3, a4, a5⟩
          refine ⟨w, ⟨a1, a3, fun x hx hxk hxt => by omega⟩, a2, a5⟩
        | succ n ih =>
          rintro ⟨w, a1, a2, a3, a4, a5⟩
          by_cases hb : ∃ x, H j x ∧ x.key = k ∧ x.ts ≤ rts ∧ w.ts < x.ts
          · obtain ⟨x, b1, b2, b3, b4⟩ := hb
            exact ih ⟨x, b1, b2, b3, by omega, by omega⟩
          · refine ⟨w, ⟨a1, a3, fun x hx hxk hxt => ?_⟩, a2, a5⟩
            by_contra hc
            exact hb ⟨x, hx, hxk.trans a2, hxt, by omega⟩
      exact bound (rts - u.ts) ⟨u, hu, huk, hut, by omega, by omega⟩
    obtain ⟨w, hw, hwk, hwu⟩ := hex
    have hmem := (g2' w (by rw [hwk]; exact hr)).2 hw
    obtain ⟨e', he', rfl⟩ := List.mem_map.1 hmem
    have hts : (toVer e').ts = e'.kt.ts := by cases e' <;> rfl
    rw [toVer_key] at hwk
    rcases hmin j q s' e' hs' he' hwk with h | ⟨h, _⟩
    · show u.ts ≤ t
      have : e'.kt.ts < t := h
      omega
    · show u.ts ≤ t
      have : e'.kt.ts = t := h
      omega
  · rintro ⟨t, ⟨i, hi, hH⟩, hle, hnew⟩
    obtain ⟨⟨p, s⟩, hs⟩ : ∃ x, streams[i]? = some x := ⟨_, List.getElem?_eq_getElem hi⟩
    refine ⟨t, ?_⟩
    -- among the sources holding this version, take the one that wins
    have hin : Entry.row ⟨k, t⟩ r ∈ ready s := by
      have g2 := hsrc i p s hs
      obtain ⟨e, he, hev⟩ := List.mem_map.1 ((g2 ⟨k, t, .put r⟩ hr).2
        ⟨hH, hle, fun u hu huk hut => hnew u ⟨i, hi, hu⟩ huk hut⟩)
      have : e = Entry.row ⟨k, t⟩ r := toVer_inj (by rw [hev]; rfl)
      rwa [this] at he
    -- every entry with this key in any source is this version or older
    have hall : ∀ (j : Nat) (q : Prio) (s' : _) (e' : _), streams[j]? = some (q, s') → e' ∈ ready s' → e'.kt.key = k →
        e'.kt.ts < t ∨ e' = Entry.row ⟨k, t⟩ r := by
      intro j q s' e' hs' he' hk'
      have g2 := hsrc j q s' hs'
      have hkk : (toVer e').key = k := by rw [toVer_key]; exact hk'
      obtain ⟨hn, hle', _⟩ := (g2 (toVer e') (hkk ▸ hr)).1 (List.mem_map.2 ⟨_, he', rfl⟩)
      have hj := (List.getElem?_eq_some_iff.1 hs').1
      have hts : (toVer e').ts = e'.kt.ts := by cases e' <;> rfl
      have hle2 : (toVer e').ts ≤ t := hnew _ ⟨j, hj, hn⟩ hkk hle'
      rcases Nat.lt_or_ge e'.kt.ts t with h | h
      · exact .inl h
      · right
        have hte : (toVer e').ts = t := by omega
        have hop := hfun k hr (toVer e') ⟨k, t, .put r⟩ ⟨hkk, j, hj, hn⟩ ⟨rfl, i, hi, hH⟩ hkk hte
        apply toVer_inj
        show toVer e' = ⟨k, t, .put r⟩
        cases hx : toVer e' with
        | mk a b c =>
          rw [hx] at hop hkk hte
          simp only at hop hkk hte
          rw [hop, hkk, hte]
    -- the least holder in (priority, index) order
    rw [h3]
    refine ⟨rfl, ?_⟩
    classical
    have least : ∀ (n i : Nat) (p : Prio) (s : _), streams[i]? = some (p, s) → Entry.row ⟨k, t⟩ r ∈ ready s →
        p.rank * (streams.length + 1) + i ≤ n →
        ∃ (i : Nat) (p : Prio) (s : _), streams[i]? = some (p, s) ∧ Entry.row ⟨k, t⟩ r ∈ ready s ∧
          ∀ (j : Nat) (q : Prio) (s' : _), streams[j]? = some (q, s') → Entry.row ⟨k, t⟩ r ∈ ready s' →
            (p.rank < q.rank ∨ (p.rank = q.rank ∧ i ≤ j)) := by
      intro n
      induction n with
      | zero =>
        intro i p s hs he hn
        refine ⟨i, p, s, hs, he, fun j q s' _ _ => ?_⟩
        have hi0 : i = 0 := by omega
        have hp0 : p.rank = 0 := by
          rcases Nat.eq_zero_or_pos p.rank with h | h
          · exact h
          · have := Nat.mul_pos h (by omega : 0 < streams.length + 1); omega
        rcases Nat.eq_zero_or_pos q.rank with h | h
        · exact .inr ⟨by omega, by omega⟩
        · exact .inl (by omega)
      | succ n ih =>
        intro i p s hs he hn
        by_cases hb : ∃ (j : Nat) (q : Prio) (s' : _), streams[j]? = some (q, s') ∧ Entry.row ⟨k, t⟩ r ∈ ready s' ∧
            ¬ (p.rank < q.rank ∨ (p.rank = q.rank ∧ i ≤ j))
        · obtain ⟨j, q, s', b1, b2, b3⟩ := hb
          refine ih j q s' b1 b2 ?_
          have hj := (List.getElem?_eq_some_iff.1 b1).1
          have hi := (List.getElem?_eq_some_iff.1 hs).1
          rcases Nat.lt_trichotomy q.rank p.rank with h | h | h
          · have : (q.rank + 1) * (streams.length + 1) ≤ p.rank * (streams.length + 1) :=
              Nat.mul_le_mul_right _ h
            rw [Nat.add_mul] at this
            omega
          · rw [h]
            have : j < i := by
              by_contra hc
              exact b3 (.inr ⟨h.symm, by omega⟩)
            omega
          · exact absurd (.inl h) b3
        · refine ⟨i, p, s, hs, he, fun j q s' h1 h2 => ?_⟩
          by_contra hc
          exact hb ⟨j, q, s', h1, h2, hc⟩
    obtain ⟨i, p, s, hs, he, hmin⟩ := least _ i p s hs hin (Nat.le_refl _)
    refine ⟨i, p, s, hs, he, ?_⟩
    intro j q s' e' hs' he' hk'
    rcases hall j q s' e' hs' he' hk' with h | rfl
    · exact .inl h
    · exact .inr ⟨rfl, hmin j q s' hs' he'⟩

/-- **C05.** If every source `i` reports the newest visible versions of its own history `H i`, and
no two sources disagree about one key at one timestamp, the merged scan returns exactly the rows
visible in the union of the histories, in strictly ascending key order. -/
theorem merged_scan (streams : List (Prio × List (Option (Entry K R)))) (H : Nat → Ver K R → Prop)
    (rts : Nat) (inRange : K → Prop)
    (hsrc : ∀ (i : Nat) (p : Prio) (s : _), streams[i]? = some (p, s) →
      IsVersionScan (H i) rts inRange ((ready s).map toVer))
    (hfun : Functional (fun w => ∃ i < streams.length, H i w)) :
    ∃ tr, mergeAll streams none = some tr ∧
      IsRangeScan (fun w => ∃ i < streams.length, H i w) rts inRange (rowsOf (ready tr)) := by
  obtain ⟨tr, h1, h2, h3, h4⟩ := merged_scan_on streams H rts inRange
    (fun ps hps => by
      obtain ⟨i, hi⟩ := List.mem_iff_getElem?.1 hps
      exact (hsrc i ps.1 ps.2 hi).1)
    (fun i p s hs w hw => by
      rw [(hsrc i p s hs).2 w]
      exact ⟨fun h => h.2, fun h => ⟨hw, h⟩⟩)
    (fun k _ a b ha hb => hfun a b ha.2 hb.2)
  refine ⟨tr, h1, h2, fun k r => ⟨fun hm => ?_, fun h => (h3 k r h.1).2 h.2⟩⟩
  obtain ⟨ps, hps, hr⟩ := h4 k r hm
  obtain ⟨i, hi⟩ := List.mem_iff_getElem?.1 hps
  obtain ⟨t, ht⟩ := mem_rowsOf.1 hr
  have hk := ((hsrc i ps.1 ps.2 hi).2 ⟨k, t, .put r⟩).1 (List.mem_map.2 ⟨_, ht, rfl⟩)
  exact ⟨hk.1, (h3 k r hk.1).1 hm⟩

theorem sorted_unique {L L' : List (HE K R)} (h : SMap.Sorted L) (h' : SMap.Sorted L')
    (he : ∀ y, y ∈ L ↔ y ∈ L') : L = L' := by
  induction L generalizing L' with
  | nil =>
    cases L' with
    | nil => rfl
    | cons b L' => exact absurd ((he b).2 List.mem_cons_self) (by simp)
  | cons a L ih =>
    cases L' with
    | nil => exact absurd ((he a).1 List.mem_cons_self) (by simp)
    | cons b L' =>
      obtain ⟨ha, hL⟩ := List.pairwise_cons.1 h
      obtain ⟨hb, hL'⟩ := List.pairwise_cons.1 h'
      have hab : a = b := by
        rcases List.mem_cons.1 ((he a).1 List.mem_cons_self) with h1 | h1
        · exact h1
        · rcases List.mem_cons.1 ((he b).2 List.mem_cons_self) with h2 | h2
          · exact h2.symm
          · exact absurd (lt_trans (hb a h1) (ha b h2)) (lt_irrefl _)
      subst hab
      congr 1
      refine ih hL hL' (fun y => ?_)
      have := he y
      simp only [List.mem_cons] at this
      constructor
      · intro hy
        rcases this.1 (.inr hy) with rfl | h1
        · exact absurd (ha _ hy) (lt_irrefl _)
        · exact h1
      · intro hy
        rcases this.2 (.inr hy) with rfl | h1
        · exact absurd (hb _ hy) (lt_irrefl _)
        · exact h1

/-- The result does not depend on when sources are ready: two sets of sources yielding the same
entries, with any `Pending`s in between, give the same rows for every limit. -/
theorem readiness_irrelevant (streams streams' : List (Prio × List (Option (Entry K R))))
    (ha : ∀ ps ∈ streams, (ready ps.2).Pairwise (fun a b => a.kt.key < b.kt.key))
    (he : streams.map (fun ps => (ps.1, ready ps.2)) = streams'.map (fun ps => (ps.1, ready ps.2)))
    (limit : Option Nat) :
    ∃ tr tr', mergeAll streams limit = some tr ∧ mergeAll streams' limit = some tr' ∧
      ready tr = ready tr' := by
  have hget : ∀ (i : Nat) (p : Prio) (s : _), streams[i]? = some (p, s) → ∃ s', streams'[i]? = some (p, s') ∧
      ready s = ready s' := by
    intro i p s h
    have := congrArg (·[i]?) he
    simp only [List.getElem?_map, h, Option.map_some] at this
    cases h' : streams'[i]? with
    | none => simp [h'] at this
    | some x =>
      simp only [h', Option.map_some, Option.some.injEq, Prod.mk.injEq] at this
      exact ⟨x.2, by rw [this.1], this.2⟩
  have hget' : ∀ (i : Nat) (p : Prio) (s : _), streams'[i]? = some (p, s) → ∃ s', streams[i]? = some (p, s') ∧
      ready s = ready s' := by
    intro i p s h
    have := congrArg (·[i]?) he
    simp only [List.getElem?_map, h, Option.map_some] at this
    cases h' : streams[i]? with
    | none => simp [h'] at this
    | some x =>
      simp only [h', Option.map_some, Option.some.injEq, Prod.mk.injEq] at this
      exact ⟨x.2, by rw [← this.1], this.2.symm⟩
  have ha' : ∀ ps ∈ streams', (ready ps.2).Pairwise (fun a b => a.kt.key < b.kt.key) := by
    intro ps hps
    obtain ⟨i, hi⟩ := List.mem_iff_getElem?.1 hps
    obtain ⟨s', h1, h2⟩ := hget' i ps.1 ps.2 hi
    have := ha _ (List.mem_of_getElem? h1)
    rw [h2]; exact this
  obtain ⟨L, h1, h2, tr, h3, h4⟩ := mergeAll_spec streams limit ha
  obtain ⟨L', h1', h2', tr', h3', h4'⟩ := mergeAll_spec streams' limit ha'
  refine ⟨tr, tr', h3, h3', ?_⟩
  have : L = L' := sorted_unique h1 h1' (fun y => by
    rw [h2, h2']
    constructor
    · rintro ⟨i, p, s, e, g1, g2, rfl⟩
      obtain ⟨s', g3, g4⟩ := hget i p s g1
      exact ⟨i, p, s', e, g3, mem_ready.1 (g4 ▸ mem_ready.2 g2), rfl⟩
    · rintro ⟨i, p, s, e, g1, g2, rfl⟩
      obtain ⟨s', g3, g4⟩ := hget' i p s g1
      exact ⟨i, p, s', e, g3, mem_ready.1 (g4 ▸ mem_ready.2 g2), rfl⟩)
  show tr.filterMap id = tr'.filterMap id
  rw [h4, h4', this]

/-! Three sources: memory holds a newer version of key 1 and a delete of key 2, a frozen run holds
keys 1, 2 and 3, a table file holds key 4; the second source is not ready at first. -/
section Example

def exStreams : List (Prio × List (Option (Entry Nat Nat))) :=
  [(.mutable, [some (.row ⟨1, 9⟩ 11), some (.tomb ⟨2, 8⟩)]),
   (.immutable, [none, some (.row ⟨1, 5⟩ 10), some (.row ⟨2, 6⟩ 20), none, some (.row ⟨3, 6⟩ 30)]),
   (.sstable, [some (.row ⟨4, 1⟩ 40)])]

example : (∀ ps ∈ exStreams, (ready ps.2).Pairwise (fun a b => a.kt.key < b.kt.key)) ∧
    (mergeAll exStreams none).map ready =
      some [.row ⟨1, 9⟩ 11, .row ⟨3, 6⟩ 30, .row ⟨4, 1⟩ 40] ∧
    (mergeAll exStreams (some 2)).map ready = some [.row ⟨1, 9⟩ 11, .row ⟨3, 6⟩ 30] := by
  decide

/-- The hypotheses of `merged_scan` hold of a two-source case. -/
example : (∀ i p s, [(Prio.mutable, [some (Entry.tomb ⟨2, 8⟩ : Entry Nat Nat)]),
        (Prio.immutable, [none, some (Entry.row ⟨2, 6⟩ 20)])][i]? = some (p, s) →
      IsVersionScan (fun w => (i = 0 ∧ w = ⟨2, 8, .del⟩) ∨ (i = 1 ∧ w = ⟨2, 6, .put 20⟩)) 9
        (fun _ => True) ((ready s).map toVer)) := by
  intro i p s h
  match i with
  | 0 =>
    simp at h
    obtain ⟨rfl, rfl⟩ := h
    refine ⟨by simp [toVer, ready], ?_⟩
    intro w
    simp [toVer, ready, Newest]
    rintro rfl
    exact ⟨by decide, by rintro _; decide⟩
  | 1 =>
    simp at h
    obtain ⟨rfl, rfl⟩ := h
    refine ⟨by simp [toVer, ready], ?_⟩
    intro w
    simp [toVer, ready, Newest]
    rintro rfl
    exact ⟨by decide, by rintro _; decide⟩
  | i + 2 => simp at h

end Example

/-- Equal timestamps: when two runs of one kind hold different mutations of one key at one
timestamp, the run listed first wins, although the other one is the later write. Here the older of
two frozen runs has the row and the newer the deletion made at the same timestamp; the deleted row
is returned. -/
theorem equal_timestamps_older_run_wins :
    (mergeAll [(Prio.immutable, [some (Entry.row ⟨1, 5⟩ 10 : Entry Nat Nat)]),
      (Prio.immutable, [some (Entry.tomb ⟨1, 5⟩)])] none).map ready =
      some [.row ⟨1, 5⟩ 10] := by decide

end Tonbo.Props.C05

namespace Tonbo.Props.C06
open Tonbo.Model Tonbo.Model.Mem Tonbo.Model.Merge Tonbo.Model.Package Tonbo.Spec
open Tonbo.Lemmas.Merge Tonbo.Lemmas.Package Tonbo.Props.C05

variable {K R Q E : Type} [LinearOrder K]

private theorem matched_ready (eval : Option (R → Except E Bool)) (proj : R → Q) :
    ∀ up : List (Option (Entry K R)),
      matched eval proj up = matched eval proj ((ready up).map some)
  | [] => rfl
  | none :: up => by simpa [matched, ready] using matched_ready eval proj up
  | some (.tomb kt) :: up => by
    have := matched_ready eval proj up
    simpa [matched, ready] using this
  | some (.row kt r) :: up => by
    have ih := matched_ready eval proj up
    show _ = matched eval proj (some (.row kt r) :: (ready up).map some)
    simp only [matched]
    rw [ih]

private theorem matched_none (proj : R → Q) : ∀ l : List (Entry K R),
    (∀ e ∈ l, e.isTomb = false) →
    matched (E := E) none proj (l.map some) = ((rowsOf l).map (fun p => proj p.2), none) ∧
      (rowsOf l).length = l.length ∧ ∀ n, rowsOf (l.take n) = (rowsOf l).take n
  | [], _ => by simp [matched, rowsOf]
  | .tomb kt :: l, h => by
    have := h _ List.mem_cons_self; simp [Entry.isTomb] at this
  | .row kt r :: l, h => by
    obtain ⟨h1, h2, h3⟩ := matched_none proj l (fun e he => h e (List.mem_cons_of_mem _ he))
    have hr : rowsOf (.row kt r :: l) = (kt.key, r) :: rowsOf l := rfl
    refine ⟨?_, by simp [hr, h2], ?_⟩
    · simp [matched, hr, h1]
    · intro n
      cases n with
      | zero => rfl
      | succ n =>
        simp only [List.take_succ_cons, hr]
        rw [← h3 n]; rfl

private theorem emit_no_tomb : ∀ (l : List (Entry K R)) (b : Option (Entry K R)) (e : Entry K R),
    e ∈ emit b l → e.isTomb = false
  | l, b, e => by
    intro h
    induction l generalizing b with
    | nil =>
      cases b with
      | none => simp [emit] at h
      | some x =>
        simp only [emit] at h
        split at h <;> simp_all
    | cons a l ih =>
      cases b with
      | none =>
        simp only [emit] at h
        exact ih _ h
      | some x =>
        simp only [emit] at h
        grind

/-- The rows on which the filter is true, projected; defined when no evaluation fails. -/
def selected (eval : Option (R → Except E Bool)) (proj : R → Q) (rows : List (K × R)) : List Q :=
  (rows.filter (fun p => match eval with
    | none => true
    | some ev => (match ev p.2 with | .ok true => true | _ => false))).map (fun p => proj p.2)

private theorem matched_selected (eval : Option (R → Except E Bool)) (proj : R → Q) :
    ∀ l : List (Entry K R),
      (∀ ev, eval = some ev → ∀ p ∈ rowsOf l, ∃ b, ev p.2 = .ok b) →
      matched eval proj (l.map some) = (selected eval proj (rowsOf l), none)
  | [], _ => rfl
  | .tomb kt :: l, h => by
    have := matched_selected eval proj l h
    simpa [matched, rowsOf] using this
  | .row kt r :: l, h => by
    have ih := matched_selected eval proj l (fun ev he p hp => h ev he p (List.mem_cons_of_mem _ hp))
    have hr : rowsOf (.row kt r :: l) = (kt.key, r) :: rowsOf l := rfl
    rw [hr]
    cases heval : eval with
    | none =>
      subst heval
      simp only [List.map_cons, matched, ih]
      simp [selected]
    | some ev =>
      subst heval
      obtain ⟨b, hb⟩ := h ev rfl (kt.key, r) (by rw [hr]; exact List.mem_cons_self)
      simp only at hb
      simp only [List.map_cons, matched, hb, ih]
      cases b <;> simp [selected, hb]

/-- **C06, C05.** If the filter can be evaluated on every merged row, the batches of a scan hold, in
order, the projections of the first `limit` merged rows on which the filter is true. No batch is
empty or larger than the batch size. -/
theorem scan_batches (eval : Option (R → Except E Bool)) (proj : R → Q) (batchSize : Nat)
    (hb : 0 < batchSize) (limit : Option Nat) (streams : List (Prio × List (Option (Entry K R))))
    (ha : ∀ ps ∈ streams, (ready ps.2).Pairwise (fun a b => a.kt.key < b.kt.key)) :
    ∃ tr, mergeAll streams none = some tr ∧
      ((∀ ev, eval = some ev → ∀ p ∈ rowsOf (ready tr), ∃ b, ev p.2 = .ok b) →
        ∃ bs, scanStreams eval proj batchSize limit streams = some (bs, none) ∧
          (∀ b ∈ bs, b ≠ [] ∧ b.length ≤ batchSize) ∧
          bs.flatten = (match limit with
            | none => selected eval proj (rowsOf (ready tr))
            | some n => (selected eval proj (rowsOf (ready tr))).take n)) := by
  obtain ⟨L, h1, h2, tr, h3, h4⟩ := mergeAll_spec streams none ha
  refine ⟨tr, h3, ?_⟩
  intro hok
  have h4' : ready tr = emit none (L.map (·.2.2)) := h4
  by_cases hs : streams = []
  · subst hs
    refine ⟨[], by simp [scanStreams], by simp, ?_⟩
    have hL : L = [] := by
      cases L with
      | nil => rfl
      | cons y L =>
        obtain ⟨i, p, s, e, g, _⟩ := (h2 y).1 List.mem_cons_self
        simp at g
    have : ready tr = [] := by rw [h4', hL]; rfl
    rw [this]
    cases limit <;> simp [selected, rowsOf]
  · simp only [scanStreams, if_neg hs]
    cases heval : eval with
    | some ev =>
      subst heval
      simp only [Option.isSome_some, if_true, h3]
      obtain ⟨bs, er, q1, q2, q3⟩ := drive_spec (some ev) proj batchSize hb limit (tr.length + 1) tr 0
        (by omega)
      have hm : matched (some ev) proj tr = (selected (some ev) proj (rowsOf (ready tr)), none) := by
        rw [matched_ready]; exact matched_selected _ _ _ hok
      rw [hm] at q3
      cases er with
      | some e => exact absurd q3.1 (by simp)
      | none =>
        refine ⟨bs, q1, q2, ?_⟩
        have := q3.1
        cases limit <;> simpa [left, takeOpt] using this
    | none =>
      subst heval
      obtain ⟨L', h1', h2', tr', h3', h4''⟩ := mergeAll_spec streams limit ha
      have hLL : L = L' := by
        exact sorted_unique h1 h1' (fun y => by rw [h2, h2'])
      subst hLL
      simp only [Option.isSome_none, Bool.false_eq_true, if_false, h3']
      obtain ⟨bs, er, q1, q2, q3⟩ := drive_spec (E := E) none proj batchSize hb none (tr'.length + 1) tr' 0
        (by omega)
      have hnt : ∀ e ∈ ready tr, e.isTomb = false := by
        rw [h4']; exact fun e he => emit_no_tomb _ _ _ he
      have htr' : ready tr' = takeOpt limit (ready tr) := by rw [h4']; exact h4''
      have hnt' : ∀ e ∈ ready tr', e.isTomb = false := by
        rw [htr']; intro e he
        cases limit with
        | none => exact hnt e he
        | some n => exact hnt e (List.mem_of_mem_take he)
      have hm : matched (E := E) none proj tr' = ((rowsOf (ready tr')).map (fun p => proj p.2), none) := by
        rw [matched_ready]; exact (matched_none proj _ hnt').1
      rw [hm] at q3
      cases er with
      | some e => exact absurd q3.1 (by simp)
      | none =>
        refine ⟨bs, q1, q2, ?_⟩
        have q4 : bs.flatten = (rowsOf (ready tr')).map (fun p => proj p.2) := q3.1
        have hsel : selected (E := E) none proj (rowsOf (ready tr)) =
            (rowsOf (ready tr)).map (fun p => proj p.2) := by simp [selected]
        rw [q4, htr', hsel]
        cases limit with
        | none => rfl
        | some n =>
          show List.map _ (rowsOf ((ready tr).take n)) = _
          rw [(matched_none (E := E) proj _ hnt).2.2 n, List.map_take]

/-- **C06.** A limit returns the first `n` rows of the same scan without limit, with or without a
filter. -/
theorem limit_is_prefix (eval : Option (R → Except E Bool)) (proj : R → Q) (batchSize : Nat)
    (hb : 0 < batchSize) (streams : List (Prio × List (Option (Entry K R))))
    (ha : ∀ ps ∈ streams, (ready ps.2).Pairwise (fun a b => a.kt.key < b.kt.key))
    (full : List (List Q)) (hfull : scanStreams eval proj batchSize none streams = some (full, none))
    (n : Nat) :
    ∃ bs, scanStreams eval proj batchSize (some n) streams = some (bs, none) ∧
      bs.flatten = full.flatten.take n := by
  cases heval : eval with
  | none =>
    subst heval
    obtain ⟨tr, h1, h2⟩ := scan_batches (E := E) none proj batchSize hb none streams ha
    obtain ⟨tr', h1', h2'⟩ := scan_batches (E := E) none proj batchSize hb (some n) streams ha
    rw [h1] at h1'
    obtain rfl := Option.some.inj h1'
    obtain ⟨bs, q1, _, q3⟩ := h2 (by simp)
    obtain ⟨bs', q1', _, q3'⟩ := h2' (by simp)
    rw [hfull] at q1
    obtain ⟨rfl, _⟩ := Prod.mk.inj (Option.some.inj q1)
    exact ⟨bs', q1', by rw [q3', q3]⟩
  | some ev =>
    subst heval
    by_cases hs : streams = []
    · subst hs
      simp [scanStreams] at hfull ⊢
      simp [hfull]
    · obtain ⟨L, h1, h2, tr, h3, h4⟩ := mergeAll_spec streams none ha
      simp only [scanStreams, if_neg hs, Option.isSome_some, if_true, h3] at hfull ⊢
      obtain ⟨bs, er, q1, q2, q3⟩ := drive_spec (some ev) proj batchSize hb none (tr.length + 1) tr 0
        (by omega)
      obtain ⟨bs', er', q1', q2', q3'⟩ := drive_spec (some ev) proj batchSize hb (some n)
        (tr.length + 1) tr 0 (by omega)
      unfold package at hfull ⊢
      rw [hfull] at q1
      obtain ⟨rfl, rfl⟩ := Prod.mk.inj (Option.some.inj q1)
      simp only at q3
      have hnone : (matched (some ev) proj tr).2 = none := by
        rcases q3.2 with h | ⟨l, hl, _⟩
        · exact h
        · cases hl
      cases er' with
      | some e => rw [hnone] at q3'; exact absurd q3'.1 (by simp)
      | none => exact ⟨bs', q1', by rw [q3'.1, q3.1]; rfl⟩

/-- **C06**, when evaluating the filter fails on some row: the limited scan either fails with the
same error or has already returned `n` rows; it never reports success with fewer. -/
theorem limit_with_error (ev : R → Except E Bool) (proj : R → Q) (batchSize : Nat)
    (hb : 0 < batchSize) (streams : List (Prio × List (Option (Entry K R))))
    (ha : ∀ ps ∈ streams, (ready ps.2).Pairwise (fun a b => a.kt.key < b.kt.key))
    (full : List (List Q)) (e : E)
    (hfull : scanStreams (some ev) proj batchSize none streams = some (full, some e))
    (n : Nat) :
    ∃ bs er, scanStreams (some ev) proj batchSize (some n) streams = some (bs, er) ∧
      (er = some e ∨ (er = none ∧ bs.flatten.length = n)) := by
  by_cases hs : streams = []
  · subst hs
    simp [scanStreams] at hfull
  · obtain ⟨L, h1, h2, tr, h3, h4⟩ := mergeAll_spec streams none ha
    simp only [scanStreams, if_neg hs, Option.isSome_some, if_true, h3] at hfull ⊢
    obtain ⟨bs, er, q1, q2, q3⟩ := drive_spec (some ev) proj batchSize hb none (tr.length + 1) tr 0
      (by omega)
    obtain ⟨bs', er', q1', q2', q3'⟩ := drive_spec (some ev) proj batchSize hb (some n)
      (tr.length + 1) tr 0 (by omega)
    unfold package at hfull ⊢
    rw [hfull] at q1
    obtain ⟨rfl, rfl⟩ := Prod.mk.inj (Option.some.inj q1)
    simp only at q3
    refine ⟨bs', er', q1', ?_⟩
    cases er' with
    | some e' =>
      left
      have := q3'.1
      rw [q3.1] at this
      exact this.symm
    | none =>
      right
      refine ⟨rfl, ?_⟩
      rcases q3'.2 with h | ⟨l, hl, hle⟩
      · rw [q3.1] at h; cases h
      · obtain rfl := Option.some.inj hl
        rw [q3'.1]
        simp only [left, Option.map_some, takeOpt, List.length_take]
        omega

/-! The example of C05 with a filter that drops key 3, in batches of two, and with one that fails on
key 3. -/
section Example

def exEven (v : Nat) : Except String Bool := .ok (v != 30)
def exFail (v : Nat) : Except String Bool := if v = 30 then .error "bad" else .ok true

example : scanStreams (some exEven) (· + 1) 2 none exStreams = some ([[12], [41]], none) ∧
    scanStreams (some exEven) (· + 1) 2 (some 1) exStreams = some ([[12]], none) ∧
    scanStreams (some exFail) (· + 1) 2 none exStreams = some ([[12]], some "bad") ∧
    scanStreams (some exFail) (· + 1) 2 (some 1) exStreams = some ([[12]], none) ∧
    scanStreams (E := String) none (· + 1) 2 (some 3) exStreams = some ([[12], [31, 41]], none) := by
  decide

end Example

end Tonbo.Props.C06
