import Verif.Spec.SstView
import Verif.Spec.MemView

set_option linter.unusedSectionVars false

namespace Tonbo.Lemmas.Sst
open Tonbo.Model
open Tonbo.Model.Mem hiding scan scanLoop
open Tonbo.Model.Sst Tonbo.Spec

variable {K R : Type} [LinearOrder K]

/-- The entry wins its key among the data rows `d` and deletions `x`. -/
def Win (d : List (KT K × R)) (x : List (KT K)) : Entry K R → Prop
  | .tomb kt => kt ∈ x ∧ (∀ u ∈ x, u.key = kt.key → u.ts ≤ kt.ts) ∧
      (∀ p ∈ d, p.1.key = kt.key → p.1.ts ≤ kt.ts)
  | .row kt r => FirstIn d kt r ∧ (∀ p ∈ d, p.1.key = kt.key → p.1.ts ≤ kt.ts) ∧
      (∀ u ∈ x, u.key = kt.key → u.ts < kt.ts)

theorem firstIn_mem {d : List (KT K × R)} {kt : KT K} {r : R} (h : FirstIn d kt r) :
    (kt, r) ∈ d := by
  obtain ⟨pre, post, rfl, _⟩ := h; simp

theorem firstIn_cons {d : List (KT K × R)} {p : KT K × R} {kt : KT K} {r : R} :
    FirstIn (p :: d) kt r ↔ p = (kt, r) ∨ (p.1 ≠ kt ∧ FirstIn d kt r) := by
  constructor
  · rintro ⟨pre, post, h1, h2⟩
    cases pre with
    | nil => simp at h1; exact .inl h1.1
    | cons q pre =>
      simp at h1; obtain ⟨rfl, rfl⟩ := h1
      exact .inr ⟨h2 _ List.mem_cons_self, pre, post, rfl,
        fun u hu => h2 u (List.mem_cons_of_mem _ hu)⟩
  · rintro (rfl | ⟨hne, pre, post, rfl, h2⟩)
    · exact ⟨[], d, rfl, by simp⟩
    · refine ⟨p :: pre, post, rfl, ?_⟩
      intro u hu
      rcases List.mem_cons.1 hu with rfl | hu
      · exact hne
      · exact h2 u hu

theorem win_skip_data {d : List (KT K × R)} {x : List (KT K)} {p : KT K × R} {e : Entry K R}
    (h : e.kt.key ≠ p.1.key) : Win (p :: d) x e ↔ Win d x e := by
  cases e with
  | tomb kt =>
    simp only [Win, Entry.kt] at *
    constructor
    · rintro ⟨h1, h2, h3⟩; exact ⟨h1, h2, fun q hq => h3 q (List.mem_cons_of_mem _ hq)⟩
    · rintro ⟨h1, h2, h3⟩
      refine ⟨h1, h2, ?_⟩
      intro q hq hk
      rcases List.mem_cons.1 hq with rfl | hq
      · exact absurd hk.symm h
      · exact h3 q hq hk
  | row kt r =>
    simp only [Win, Entry.kt] at *
    rw [firstIn_cons]
    constructor
    · rintro ⟨h1 | h1, h2, h3⟩
      · rw [h1] at h; exact absurd rfl h
      · exact ⟨h1.2, fun q hq => h2 q (List.mem_cons_of_mem _ hq), h3⟩
    · rintro ⟨h1, h2, h3⟩
      refine ⟨.inr ⟨fun e => h (by rw [e]), h1⟩, ?_, h3⟩
      intro q hq hk
      rcases List.mem_cons.1 hq with rfl | hq
      · exact absurd hk.symm h
      · exact h2 q hq hk

theorem win_skip_del {d : List (KT K × R)} {x : List (KT K)} {u : KT K} {e : Entry K R}
    (h : e.kt.key ≠ u.key) : Win d (u :: x) e ↔ Win d x e := by
  cases e with
  | tomb kt =>
    simp only [Win, Entry.kt] at *
    constructor
    · rintro ⟨h1, h2, h3⟩
      rcases List.mem_cons.1 h1 with rfl | h1
      · exact absurd rfl h
      · exact ⟨h1, fun q hq => h2 q (List.mem_cons_of_mem _ hq), h3⟩
    · rintro ⟨h1, h2, h3⟩
      refine ⟨List.mem_cons_of_mem _ h1, ?_, h3⟩
      intro q hq hk
      rcases List.mem_cons.1 hq with rfl | hq
      · exact absurd hk.symm h
      · exact h2 q hq hk
  | row kt r =>
    simp only [Win, Entry.kt] at *
    constructor
    · rintro ⟨h1, h2, h3⟩; exact ⟨h1, h2, fun q hq => h3 q (List.mem_cons_of_mem _ hq)⟩
    · rintro ⟨h1, h2, h3⟩
      refine ⟨h1, h2, ?_⟩
      intro q hq hk
      rcases List.mem_cons.1 hq with rfl | hq
      · exact absurd hk.symm h
      · exact h3 q hq hk

theorem firstIn_unique {d : List (KT K × R)} {kt : KT K} {r r' : R} (h : FirstIn d kt r)
    (h' : FirstIn d kt r') : r = r' := by
  induction d with
  | nil => exact absurd (firstIn_mem h) (by simp)
  | cons p d ih =>
    rcases firstIn_cons.1 h with h1 | h1 <;> rcases firstIn_cons.1 h' with h2 | h2
    · have := h1.symm.trans h2
      simpa using this
    · exact absurd (by rw [h1]) h2.1
    · exact absurd (by rw [h2]) h1.1
    · exact ih h1.2 h2.2

theorem win_unique {d : List (KT K × R)} {x : List (KT K)} {e e' : Entry K R}
    (h : Win d x e) (h' : Win d x e') (hk : e.kt.key = e'.kt.key) : e = e' := by
  cases e with
  | tomb kt =>
    cases e' with
    | tomb kt' =>
      simp only [Entry.kt] at hk
      have h1 := h.2.1 kt' h'.1 hk.symm
      have h2 := h'.2.1 kt h.1 hk
      rw [KT.ext' hk (Nat.le_antisymm h2 h1)]
    | row kt' r' =>
      simp only [Entry.kt] at hk
      have h1 := h.2.2 (kt', r') (firstIn_mem h'.1) hk.symm
      have h2 := h'.2.2 kt h.1 hk
      simp at h1; omega
  | row kt r =>
    cases e' with
    | tomb kt' =>
      simp only [Entry.kt] at hk
      have h1 := h'.2.2 (kt, r) (firstIn_mem h.1) hk
      have h2 := h.2.2 kt' h'.1 hk.symm
      simp at h1; omega
    | row kt' r' =>
      simp only [Entry.kt] at hk
      have h1 := h.2.1 (kt', r') (firstIn_mem h'.1) hk.symm
      have h2 := h'.2.1 (kt, r) (firstIn_mem h.1) hk
      have : kt = kt' := KT.ext' hk (by simp at h1 h2; omega)
      subst this
      rw [firstIn_unique h.1 h'.1]

/-- Keys in `d` and `x` are at least the current key. -/
def Ge (c : Option K) (d : List (KT K × R)) (x : List (KT K)) : Prop :=
  ∀ k, c = some k → (∀ p ∈ d, k ≤ p.1.key) ∧ (∀ u ∈ x, k ≤ u.key)

/-- What the loop returns: the winners of all keys other than the current one. -/
def Good (c : Option K) (d : List (KT K × R)) (x : List (KT K)) (out : List (Entry K R)) : Prop :=
  out.Pairwise (fun a b => a.kt.key < b.kt.key) ∧
  (∀ e, e ∈ out ↔ (c ≠ some e.kt.key ∧ Win d x e))

theorem key_mem {d : List (KT K × R)} {x : List (KT K)} {e : Entry K R} (h : Win d x e) :
    (∃ p ∈ d, p.1.key = e.kt.key) ∨ (∃ u ∈ x, u.key = e.kt.key) := by
  cases e with
  | tomb kt => exact .inr ⟨kt, h.1, rfl⟩
  | row kt r => exact .inl ⟨_, firstIn_mem h.1, rfl⟩

/-- One iteration: the heads with key `k` are consumed, `w` is the winner of `k`. -/
theorem step {d d' : List (KT K × R)} {x x' : List (KT K)} {k : K} {cur : Option K} {em : Bool}
    {w : Entry K R} {out : List (Entry K R)} {rest : Option (List (Entry K R))}
    (hem : em = cur.isSome) (hge : Ge cur d x)
    (hwk : w.kt.key = k) (hw : cur ≠ some k → Win d x w)
    (hskip : ∀ e : Entry K R, e.kt.key ≠ k → (Win d x e ↔ Win d' x' e))
    (hk' : (∀ p ∈ d', k ≤ p.1.key) ∧ ∀ u ∈ x', k ≤ u.key)
    (hr : rest = some out) (hgood : Good (some k) d' x' out) :
    ∃ out', emitIf (process k cur em).1 w rest = some out' ∧ Good cur d x out' := by
  have hgt : ∀ e ∈ out, k < e.kt.key := by
    intro e he
    obtain ⟨h1, h2⟩ := (hgood.2 e).1 he
    have hne : k ≠ e.kt.key := fun h => h1 (by rw [h])
    rcases key_mem h2 with ⟨p, hp, hpk⟩ | ⟨u, hu, huk⟩
    · exact lt_of_le_of_ne (hpk ▸ hk'.1 p hp) hne
    · exact lt_of_le_of_ne (huk ▸ hk'.2 u hu) hne
  by_cases hc : cur = some k
  · subst hc
    have : (process k (some k) em).1 = false := by simp [process, hem]
    rw [this, hr]
    refine ⟨out, rfl, hgood.1, ?_⟩
    intro e
    rw [hgood.2 e]
    constructor
    · rintro ⟨h1, h2⟩
      exact ⟨h1, (hskip e (fun h => h1 (by rw [h]))).2 h2⟩
    · rintro ⟨h1, h2⟩
      exact ⟨h1, (hskip e (fun h => h1 (by rw [h]))).1 h2⟩
  · have : (process k cur em).1 = true := by simp [process, hc]
    rw [this, hr]
    refine ⟨w :: out, rfl, ?_, ?_⟩
    · rw [List.pairwise_cons]
      exact ⟨fun e he => by rw [hwk]; exact hgt e he, hgood.1⟩
    · intro e
      rw [List.mem_cons]
      constructor
      · rintro (rfl | he)
        · exact ⟨by rw [hwk]; exact hc, hw hc⟩
        · have := (hgood.2 e).1 he
          refine ⟨?_, (hskip e (fun h => this.1 (by rw [h]))).2 this.2⟩
          intro hcur
          have h1 := hge _ hcur
          have h2 := hgt e he
          obtain ⟨h3, h4⟩ := this
          have hwin := hw hc
          rcases key_mem hwin with ⟨p, hp, hpk⟩ | ⟨u, hu, huk⟩
          · have := h1.1 p hp
            rw [hpk, hwk] at this
            exact absurd (lt_of_lt_of_le h2 this) (lt_irrefl _)
          · have := h1.2 u hu
            rw [huk, hwk] at this
            exact absurd (lt_of_lt_of_le h2 this) (lt_irrefl _)
      · rintro ⟨h1, h2⟩
        by_cases hek : e.kt.key = k
        · exact .inl (win_unique h2 (hw hc) (hek.trans hwk.symm))
        · exact .inr ((hgood.2 e).2 ⟨fun h => hek (by simpa using h.symm), (hskip e hek).1 h2⟩)

theorem ts_le_of_le {a b : KT K} (h : a ≤ b) (hk : b.key = a.key) : b.ts ≤ a.ts := by
  rcases h with h | ⟨_, h⟩
  · rw [hk] at h; exact absurd h (lt_irrefl _)
  · exact h

theorem key_le_of_le {a b : KT K} (h : a ≤ b) : a.key ≤ b.key := by
  rcases h with h | ⟨h, _⟩
  · exact le_of_lt h
  · exact le_of_eq h

theorem process_next (k : K) (cur : Option K) (em : Bool) :
    (process k cur em).2.1 = some k ∧ (process k cur em).2.2 = true := by
  by_cases h : cur = some k <;> cases em <;> simp [process, h]

theorem scanLoop_good : ∀ (n : Nat) (d : List (KT K × R)) (x : List (KT K)) (cur : Option K)
    (em : Bool), d.Pairwise (fun a b => a.1 ≤ b.1) → x.Pairwise (· ≤ ·) → em = cur.isSome →
    Ge cur d x → d.length + x.length < n →
    ∃ out, scanLoop n d x cur em = some out ∧ Good cur d x out
  | 0, _, _, _, _, _, _, _, _, hn => absurd hn (Nat.not_lt_zero _)
  | n + 1, [], [], cur, em, _, _, _, _, _ => by
    refine ⟨[], rfl, by simp, ?_⟩
    intro e
    cases e with
    | tomb kt => simp [Win]
    | row kt r =>
      simp only [List.not_mem_nil, false_iff]
      rintro ⟨_, h, _⟩; simpa using firstIn_mem h
  | n + 1, (kt, r) :: d, [], cur, em, hd, hx, hem, hge, hn => by
    have hd' := List.pairwise_cons.1 hd
    have hk : ∀ p ∈ d, kt.key ≤ p.1.key := fun p hp => key_le_of_le (hd'.1 p hp)
    obtain ⟨out, h1, h2⟩ := scanLoop_good n d [] (some kt.key) true hd'.2 hx rfl
      (by intro k hk2; cases hk2; exact ⟨hk, by simp⟩) (by simp at hn ⊢; omega)
    simp only [scanLoop, (process_next kt.key cur em).1, (process_next kt.key cur em).2]
    refine step hem hge rfl ?_ (fun e he => win_skip_data he) ⟨hk, by simp⟩ h1 h2
    intro _
    refine ⟨⟨[], d, rfl, by simp⟩, ?_, by simp⟩
    intro p hp hpk
    rcases List.mem_cons.1 hp with rfl | hp
    · exact Nat.le_refl _
    · exact ts_le_of_le (hd'.1 p hp) hpk
  | n + 1, [], kt :: x, cur, em, hd, hx, hem, hge, hn => by
    have hx' := List.pairwise_cons.1 hx
    have hk : ∀ u ∈ x, kt.key ≤ u.key := fun u hu => key_le_of_le (hx'.1 u hu)
    obtain ⟨out, h1, h2⟩ := scanLoop_good n ([] : List (KT K × R)) x (some kt.key) true hd hx'.2 rfl
      (by intro k hk2; cases hk2; exact ⟨by simp, hk⟩) (by simp at hn ⊢; omega)
    simp only [scanLoop, (process_next kt.key cur em).1, (process_next kt.key cur em).2]
    refine step hem hge rfl ?_ (fun e he => win_skip_del he) ⟨by simp, hk⟩ h1 h2
    intro _
    refine ⟨List.mem_cons_self, ?_, by simp⟩
    intro u hu huk
    rcases List.mem_cons.1 hu with rfl | hu
    · exact Nat.le_refl _
    · exact ts_le_of_le (hx'.1 u hu) huk
  | n + 1, (kt, r) :: d, dt :: x, cur, em, hd, hx, hem, hge, hn => by
    have hd' := List.pairwise_cons.1 hd
    have hx' := List.pairwise_cons.1 hx
    have hkd : ∀ p ∈ d, kt.key ≤ p.1.key := fun p hp => key_le_of_le (hd'.1 p hp)
    have hkx : ∀ u ∈ x, dt.key ≤ u.key := fun u hu => key_le_of_le (hx'.1 u hu)
    have hdts : ∀ p ∈ (kt, r) :: d, p.1.key = kt.key → p.1.ts ≤ kt.ts := by
      intro p hp hpk
      rcases List.mem_cons.1 hp with rfl | hp
      · exact Nat.le_refl _
      · exact ts_le_of_le (hd'.1 p hp) hpk
    have hxts : ∀ u ∈ dt :: x, u.key = dt.key → u.ts ≤ dt.ts := by
      intro u hu huk
      rcases List.mem_cons.1 hu with rfl | hu
      · exact Nat.le_refl _
      · exact ts_le_of_le (hx'.1 u hu) huk
    have hxall : ∀ u ∈ dt :: x, dt.key ≤ u.key := by
      intro u hu
      rcases List.mem_cons.1 hu with rfl | hu
      · exact le_refl _
      · exact hkx u hu
    have hdall : ∀ p ∈ (kt, r) :: d, kt.key ≤ p.1.key := by
      intro p hp
      rcases List.mem_cons.1 hp with rfl | hp
      · exact le_refl _
      · exact hkd p hp
    simp only [scanLoop]
    by_cases c1 : kt.key < dt.key
    · rw [if_pos c1]
      have hx2 : ∀ u ∈ dt :: x, kt.key ≤ u.key := fun u hu => le_trans (le_of_lt c1) (hxall u hu)
      obtain ⟨out, h1, h2⟩ := scanLoop_good n d (dt :: x) (some kt.key) true hd'.2 hx rfl
        (by intro k hk2; cases hk2; exact ⟨hkd, hx2⟩) (by simp at hn ⊢; omega)
      simp only [(process_next kt.key cur em).1, (process_next kt.key cur em).2]
      refine step hem hge rfl ?_ (fun e he => win_skip_data he) ⟨hkd, hx2⟩ h1 h2
      intro _
      refine ⟨⟨[], d, rfl, by simp⟩, hdts, ?_⟩
      intro u hu huk
      exact absurd (lt_of_lt_of_le c1 (hxall u hu)) (by rw [huk]; exact lt_irrefl _)
    · rw [if_neg c1]
      by_cases c2 : dt.key < kt.key
      · rw [if_pos c2]
        have hd2 : ∀ p ∈ (kt, r) :: d, dt.key ≤ p.1.key :=
          fun p hp => le_trans (le_of_lt c2) (hdall p hp)
        obtain ⟨out, h1, h2⟩ := scanLoop_good n ((kt, r) :: d) x (some dt.key) true hd hx'.2 rfl
          (by intro k hk2; cases hk2; exact ⟨hd2, hkx⟩) (by simp at hn ⊢; omega)
        simp only [(process_next dt.key cur em).1, (process_next dt.key cur em).2]
        refine step hem hge rfl ?_ (fun e he => win_skip_del he) ⟨hd2, hkx⟩ h1 h2
        intro _
        refine ⟨List.mem_cons_self, hxts, ?_⟩
        intro p hp hpk
        exact absurd (lt_of_lt_of_le c2 (hdall p hp)) (by rw [hpk]; exact lt_irrefl _)
      · rw [if_neg c2]
        have heq : kt.key = dt.key := le_antisymm (not_lt.1 c2) (not_lt.1 c1)
        have hd2 : ∀ p ∈ d, dt.key ≤ p.1.key := fun p hp => heq ▸ hkd p hp
        have hskip : ∀ e : Entry K R, e.kt.key ≠ dt.key →
            (Win ((kt, r) :: d) (dt :: x) e ↔ Win d x e) := by
          intro e he
          rw [win_skip_data (show e.kt.key ≠ (kt, r).1.key by simpa [heq] using he),
            win_skip_del he]
        by_cases c3 : kt.ts ≤ dt.ts
        · rw [if_pos c3]
          obtain ⟨out, h1, h2⟩ := scanLoop_good n d x (some dt.key) true hd'.2 hx'.2 rfl
            (by intro k hk2; cases hk2; exact ⟨hd2, hkx⟩) (by simp at hn ⊢; omega)
          simp only [(process_next dt.key cur em).1, (process_next dt.key cur em).2]
          refine step hem hge rfl ?_ hskip ⟨hd2, hkx⟩ h1 h2
          intro _
          refine ⟨List.mem_cons_self, hxts, ?_⟩
          intro p hp hpk
          exact Nat.le_trans (hdts p hp (hpk.trans heq.symm)) c3
        · rw [if_neg c3]
          obtain ⟨out, h1, h2⟩ := scanLoop_good n d x (some kt.key) true hd'.2 hx'.2 rfl
            (by intro k hk2; cases hk2; exact ⟨hkd, heq ▸ hkx⟩) (by simp at hn ⊢; omega)
          simp only [(process_next kt.key cur em).1, (process_next kt.key cur em).2]
          refine step hem hge rfl ?_ (by rw [heq]; exact hskip) ⟨hkd, heq ▸ hkx⟩ h1 h2
          intro _
          refine ⟨⟨[], d, rfl, by simp⟩, hdts, ?_⟩
          intro u hu huk
          have := hxts u hu (huk.trans heq)
          omega

/-- `FileVersions` after keeping only the rows selected by a filter. -/
def filtered (f : File K R) (keep : R → Bool) : File K R :=
  { f with data := f.data.filter (fun e => keep e.2) }

theorem firstIn_filter_ts {d : List (KT K × R)} {rts : Nat} {kt : KT K} {r : R} :
    FirstIn (d.filter (fun e => decide (e.1.ts ≤ rts))) kt r ↔ FirstIn d kt r ∧ kt.ts ≤ rts := by
  induction d with
  | nil =>
    constructor
    · intro h; simpa using firstIn_mem h
    · intro h; simpa using firstIn_mem h.1
  | cons p d ih =>
    rw [List.filter_cons]
    split
    · rename_i hp
      rw [firstIn_cons, firstIn_cons, ih]
      constructor
      · rintro (rfl | h)
        · exact ⟨.inl rfl, by simpa using hp⟩
        · exact ⟨.inr ⟨h.1, h.2.1⟩, h.2.2⟩
      · rintro ⟨h | h, h'⟩
        · exact .inl h
        · exact .inr ⟨h.1, h.2, h'⟩
    · rename_i hp
      rw [ih, firstIn_cons]
      constructor
      · rintro ⟨h1, h2⟩
        refine ⟨.inr ⟨?_, h1⟩, h2⟩
        rintro rfl
        exact hp (by simpa using h2)
      · rintro ⟨rfl | h, h'⟩
        · exact absurd (by simpa using h') hp
        · exact ⟨h.2, h'⟩

theorem firstIn_of_mem {d : List (KT K × R)} {p : KT K × R} (h : p ∈ d) :
    ∃ r, FirstIn d p.1 r := by
  induction d with
  | nil => simp at h
  | cons q d ih =>
    by_cases e : q.1 = p.1
    · exact ⟨q.2, firstIn_cons.2 (.inl (by rw [← e]))⟩
    · rcases List.mem_cons.1 h with rfl | h
      · exact absurd rfl e
      · obtain ⟨r, hr⟩ := ih h
        exact ⟨r, firstIn_cons.2 (.inr ⟨e, hr⟩)⟩

/-- Every row or deletion of a file yields a version with its key and timestamp. -/
theorem version_of_mem {f : File K R} {kt : KT K} (h : (∃ r, (kt, r) ∈ f.data) ∨ kt ∈ f.dels) :
    ∃ m, FileVersions f ⟨kt.key, kt.ts, m⟩ := by
  by_cases hd : kt ∈ f.dels
  · exact ⟨.del, hd⟩
  · rcases h with ⟨r, hr⟩ | h
    · obtain ⟨r', h'⟩ := firstIn_of_mem hr
      exact ⟨.put r', h', hd⟩
    · exact absurd h hd

theorem win_iff_newest {f : File K R} {rts : Nat} {e : Entry K R} :
    Win (f.data.filter (fun e => decide (e.1.ts ≤ rts))) (f.dels.filter (fun kt => decide (kt.ts ≤ rts))) e
      ↔ Newest (FileVersions f) rts (toVer e) := by
  have hall : ∀ (kt : KT K) (w : Ver K R), w.key = kt.key → w.ts = kt.ts →
      ((∀ u, FileVersions f u → u.key = w.key → u.ts ≤ rts → u.ts ≤ w.ts) ↔
        ((∀ p ∈ f.data, p.1.ts ≤ rts → p.1.key = kt.key → p.1.ts ≤ kt.ts) ∧
         (∀ u ∈ f.dels, u.ts ≤ rts → u.key = kt.key → u.ts ≤ kt.ts))) := by
    intro kt w h1 h2
    rw [h1, h2]
    constructor
    · intro h
      constructor
      · intro p hp hts hk
        obtain ⟨m, hm⟩ := version_of_mem (f := f) (kt := p.1) (.inl ⟨p.2, hp⟩)
        exact h _ hm hk hts
      · intro u hu hts hk
        obtain ⟨m, hm⟩ := version_of_mem (f := f) (kt := u) (.inr hu)
        exact h _ hm hk hts
    · rintro ⟨h3, h4⟩ u hu hk hts
      unfold FileVersions at hu
      split at hu
      · exact h3 _ (firstIn_mem hu.1) hts hk
      · exact h4 _ hu hts hk
  cases e with
  | tomb kt =>
    unfold Newest
    rw [hall kt (toVer (.tomb kt)) rfl rfl]
    simp only [Win, toVer, FileVersions, List.mem_filter, decide_eq_true_eq]
    constructor
    · rintro ⟨⟨h1, h2⟩, h3, h4⟩
      exact ⟨h1, h2, fun p hp hts => h4 p ⟨hp, hts⟩, fun u hu hts => h3 u ⟨hu, hts⟩⟩
    · rintro ⟨h1, h2, h3, h4⟩
      exact ⟨⟨h1, h2⟩, fun u hu => h4 u hu.1 hu.2, fun p hp => h3 p hp.1 hp.2⟩
  | row kt r =>
    unfold Newest
    rw [hall kt (toVer (.row kt r)) rfl rfl]
    simp only [Win, toVer, FileVersions, List.mem_filter, decide_eq_true_eq, firstIn_filter_ts]
    constructor
    · rintro ⟨⟨h1, h2⟩, h3, h4⟩
      refine ⟨⟨h1, ?_⟩, h2, fun p hp hts => h3 p ⟨hp, hts⟩,
        fun u hu hts hk => Nat.le_of_lt (h4 u ⟨hu, hts⟩ hk)⟩
      intro hd
      exact absurd (h4 kt ⟨hd, h2⟩ rfl) (Nat.lt_irrefl _)
    · rintro ⟨⟨h1, h1'⟩, h2, h3, h4⟩
      refine ⟨⟨h1, h2⟩, fun p hp => h3 p hp.1 hp.2, ?_⟩
      intro u hu hk
      refine Nat.lt_of_le_of_ne (h4 u hu.1 hu.2 hk) ?_
      intro hts
      exact h1' (by
        have : u = (⟨kt.key, kt.ts⟩ : KT K) := KT.ext' hk hts
        rw [← this]; exact hu.1)

theorem toVer_entry (w : Ver K R) : ∃ e : Entry K R, toVer e = w := by
  obtain ⟨k, t, m⟩ := w
  cases m with
  | put r => exact ⟨.row ⟨k, t⟩ r, rfl⟩
  | del => exact ⟨.tomb ⟨k, t⟩, rfl⟩

theorem toVer_inj {e e' : Entry K R} (h : toVer e = toVer e') : e = e' := by
  cases e with
  | row a r => cases e' with
    | row b r' =>
      simp only [toVer, Ver.mk.injEq, Mut.put.injEq] at h
      rw [KT.ext' h.1 h.2.1, h.2.2]
    | tomb b => simp [toVer] at h
  | tomb a => cases e' with
    | row b r' => simp [toVer] at h
    | tomb b => simp only [toVer, Ver.mk.injEq] at h; rw [KT.ext' h.1 h.2.1]

theorem toVer_key (e : Entry K R) : (toVer e).key = e.kt.key := by cases e <;> rfl

/-- A scan with a row filter is the exact version scan of the filtered file. -/
theorem scan_spec (f : File K R) (hs : FileSorted f) (keep : R → Bool) (rts : Nat) :
    ∃ out, scan f keep rts = some out ∧
      IsVersionScan (FileVersions (filtered f keep)) rts (fun _ => True) (out.map toVer) := by
  have hf : f.data.filter (fun e => keep e.2 && decide (e.1.ts ≤ rts)) =
      (filtered f keep).data.filter (fun e => decide (e.1.ts ≤ rts)) := by
    simp only [filtered, List.filter_filter]
    congr 1
    funext e
    rw [Bool.and_comm]
  unfold scan
  rw [hf]
  obtain ⟨out, h1, h2⟩ := scanLoop_good _ ((filtered f keep).data.filter (fun e => decide (e.1.ts ≤ rts)))
    (f.dels.filter (fun kt => decide (kt.ts ≤ rts))) none false
    ((hs.1.filter _).filter _) (hs.2.filter _) rfl (by intro k hk; cases hk) (Nat.lt_succ_self _)
  refine ⟨out, h1, ?_, ?_⟩
  · rw [List.pairwise_map]
    exact h2.1.imp (fun h => by simpa [toVer_key] using h)
  · intro w
    obtain ⟨e, rfl⟩ := toVer_entry w
    have : f.dels = (filtered f keep).dels := rfl
    rw [this] at h2
    show _ ↔ True ∧ _
    rw [true_and, ← win_iff_newest]
    constructor
    · intro h
      obtain ⟨e', he', heq⟩ := List.mem_map.1 h
      rw [toVer_inj heq] at he'
      exact ((h2.2 e).1 he').2
    · intro h
      exact List.mem_map.2 ⟨e, (h2.2 e).2 ⟨by simp, h⟩, rfl⟩

end Tonbo.Lemmas.Sst
