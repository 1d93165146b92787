import Verif.Spec.ManifestView
import Mathlib.Tactic.SplitIfs
import Mathlib.Data.List.Induction

/-!
# Lemmas about the manifest
-/

set_option linter.unusedSectionVars false

namespace Tonbo.Lemmas.Manifest
open Tonbo.Model.Manifest Tonbo.Spec

variable {P : Type}

/-- No identifier twice in a bucket. -/
def NoDup (ssts : List (List (Entry P))) : Prop := ∀ b ∈ ssts, (b.map (·.id)).Nodup

theorem modify_getD {α : Type} (f : List α → List α) (hf : True) : ∀ (l : List (List α)) (i j : Nat), i < l.length →
    (l.modify i f).getD j [] = if j = i then f (l.getD j []) else l.getD j [] := by
  intro l i j hi
  simp only [List.getD_eq_getElem?_getD, List.getElem?_modify]
  by_cases h : i = j
  · subst h
    simp [hi]
  · rw [if_neg (fun h' => h h'.symm)]
    simp [h]

theorem ensure_length (s : List (List (Entry P))) (l : Nat) :
    (ensureLevel s l).length = max s.length (l + 1) := by
  unfold ensureLevel
  split_ifs with h
  · simp; omega
  · omega

theorem ensure_getD (s : List (List (Entry P))) (l j : Nat) :
    (ensureLevel s l).getD j [] = s.getD j [] := by
  unfold ensureLevel
  split_ifs with h
  · simp only [List.getD_eq_getElem?_getD, List.getElem?_append]
    split_ifs with hj
    · rfl
    · rw [List.getElem?_eq_none (Nat.le_of_not_lt hj)]
      cases hr : (List.replicate (l + 1 - s.length) ([] : List (Entry P)))[j - s.length]? with
      | none => rfl
      | some b =>
        have := List.mem_of_getElem? hr
        simp [List.eq_of_mem_replicate this]
  · rfl

theorem mem_addEntry {b : List (Entry P)} {e x : Entry P} :
    x ∈ addEntry b e ↔ (x ∈ b ∧ x.id ≠ e.id) ∨ x = e := by
  simp [addEntry]

theorem nodup_addEntry {b : List (Entry P)} {e : Entry P} (h : (b.map (·.id)).Nodup) :
    ((addEntry b e).map (·.id)).Nodup := by
  unfold addEntry
  rw [List.map_append, List.nodup_append]
  refine ⟨?_, by simp, ?_⟩
  · exact h.sublist (List.Sublist.map _ List.filter_sublist)
  · intro a ha c hc
    simp only [List.mem_map, List.mem_filter, decide_eq_true_eq] at ha
    obtain ⟨x, ⟨_, hx⟩, rfl⟩ := ha
    simp only [List.map_cons, List.map_nil, List.mem_singleton] at hc
    rw [hc]; exact hx

theorem lastEntry_concat (es : List (Entry P)) (e : Entry P) (i : Nat) :
    lastEntry (es ++ [e]) i = if e.id = i then some e else lastEntry es i := by
  simp only [lastEntry, List.reverse_append, List.reverse_cons, List.reverse_nil, List.nil_append,
    List.singleton_append, List.find?_cons]
  by_cases h : e.id = i <;> simp [h]

theorem lastEntry_id {es : List (Entry P)} {i : Nat} {e : Entry P} (h : lastEntry es i = some e) :
    e.id = i ∧ e ∈ es := by
  unfold lastEntry at h
  have h1 := List.find?_some h
  exact ⟨by simpa using h1, by simpa using List.mem_of_find?_eq_some h⟩

/-- Adding entries one by one: the last entry of an identifier wins. -/
theorem foldl_add (es : List (Entry P)) : ∀ (b : List (Entry P)), (b.map (·.id)).Nodup →
    ((es.foldl addEntry b).map (·.id)).Nodup ∧
    ∀ x, x ∈ es.foldl addEntry b ↔ lastEntry es x.id = some x ∨ (lastEntry es x.id = none ∧ x ∈ b) := by
  induction es using List.reverseRecOn with
  | nil => intro b h; exact ⟨h, fun x => by simp [lastEntry]⟩
  | append_singleton es e ih =>
    intro b h
    obtain ⟨h1, h2⟩ := ih b h
    rw [List.foldl_append, List.foldl_cons, List.foldl_nil]
    refine ⟨nodup_addEntry h1, fun x => ?_⟩
    rw [mem_addEntry, lastEntry_concat, h2 x]
    by_cases he : e.id = x.id
    · rw [if_pos he]
      constructor
      · rintro (⟨_, hne⟩ | rfl)
        · exact absurd he.symm hne
        · exact .inl rfl
      · rintro (h | ⟨h, _⟩)
        · cases h; exact .inr rfl
        · cases h
    · rw [if_neg he]
      constructor
      · rintro (⟨hx, _⟩ | rfl)
        · exact hx
        · exact absurd rfl he
      · intro hx
        exact .inl ⟨hx, fun h => he h.symm⟩

theorem lists_getD {s : List (List (Entry P))} {l : Nat} {b : List (Entry P)} (h : s.getD l [] = b)
    (hne : b ≠ []) : b ∈ s := by
  rw [List.getD_eq_getElem?_getD] at h
  cases hc : s[l]? with
  | none => rw [hc] at h; exact absurd h.symm hne
  | some c => rw [hc] at h; cases h; exact List.mem_of_getElem? hc

theorem nodup_getD {s : List (List (Entry P))} (h : NoDup s) (l : Nat) : ((s.getD l []).map (·.id)).Nodup := by
  by_cases hb : s.getD l [] = []
  · rw [hb]; simp
  · exact h _ (lists_getD rfl hb)

theorem noDup_of_getD {s : List (List (Entry P))} (h : ∀ l, ((s.getD l []).map (·.id)).Nodup) : NoDup s := by
  intro b hb
  obtain ⟨i, hi⟩ := List.mem_iff_getElem?.1 hb
  have := h i
  rw [List.getD_eq_getElem?_getD, hi] at this
  exact this

/-- One edit, on the levels. -/
theorem applyEdit_spec (v : Version P) (e : Edit P) (f : LevelMap P) (hn : NoDup v.ssts)
    (hl : Lists v.ssts f) :
    (Refused v.ssts.length [e] ∧ applyEdit v e = .error .missingLevel) ∨
    (¬ Refused v.ssts.length [e] ∧ ∃ v', applyEdit v e = .ok v' ∧ NoDup v'.ssts ∧
      Lists v'.ssts (editMeans f e) ∧ v'.table = v.table ∧ v'.ts = v.ts ∧
      v'.wal = walAfter v.wal [e] ∧ v'.watermark = watermarkAfter v.watermark [e] ∧
      ∀ r : List (Edit P), Refused v.ssts.length (e :: r) ↔ Refused v'.ssts.length r) := by
  cases e with
  | addSsts l es =>
    right
    refine ⟨by simp [Refused], _, rfl, ?_, ?_, rfl, rfl, rfl, rfl, ?_⟩
    · by_cases he : es = []
      · simpa [addSsts, he] using hn
      · simp only [addSsts, if_neg he]
        apply noDup_of_getD
        intro j
        rw [modify_getD _ trivial _ _ _ (by rw [ensure_length]; omega), ensure_getD]
        split_ifs with hj
        · exact (foldl_add es _ (nodup_getD hn j)).1
        · exact nodup_getD hn j
    · by_cases he : es = []
      · subst he
        simp only [addSsts, if_true]
        intro j x
        simp only [editMeans, lastEntry, List.reverse_nil, List.find?_nil, Option.none_or, ite_self]
        exact hl j x
      · simp only [addSsts, if_neg he]
        intro j x
        rw [modify_getD _ trivial _ _ _ (by rw [ensure_length]; omega), ensure_getD]
        simp only [editMeans]
        split_ifs with hj
        · rw [(foldl_add es _ (nodup_getD hn j)).2 x, hl j x]
          cases lastEntry es x.id with
          | none => simp
          | some y => simp
        · exact hl j x
    · intro r
      by_cases he : es = []
      · simp [Refused, addSsts, he]
      · simp [Refused, addSsts, he, ensure_length]
  | removeSsts l ids =>
    by_cases hi : ids = []
    · right
      refine ⟨by simp [Refused, hi], v, by simp [applyEdit, removeSsts, hi], hn, ?_, rfl, rfl, rfl, rfl, ?_⟩
      · intro j x
        simp only [editMeans, hi, List.not_mem_nil, and_false, if_false]
        exact hl j x
      · intro r; simp [Refused, hi]
    · by_cases hlen : v.ssts.length ≤ l
      · left
        exact ⟨.inl ⟨hi, hlen⟩, by simp [applyEdit, removeSsts, hi, hlen]⟩
      · right
        refine ⟨by simp [Refused, hi]; omega, ⟨v.table, v.ts,
          v.ssts.modify l (fun b => b.filter (fun e => decide (e.id ∉ ids))), v.wal, v.floor, v.watermark⟩, ?_, ?_, ?_, rfl, rfl, rfl, rfl, ?_⟩
        · simp only [applyEdit, removeSsts, if_neg hi, if_neg hlen]
        · apply noDup_of_getD
          intro j
          simp only
          rw [modify_getD _ trivial _ _ _ (by omega)]
          split_ifs with hj
          · exact (nodup_getD hn j).sublist (List.Sublist.map _ List.filter_sublist)
          · exact nodup_getD hn j
        · intro j x
          simp only
          rw [modify_getD _ trivial _ _ _ (by omega)]
          simp only [editMeans]
          by_cases hj : j = l
          · simp only [hj, if_true, true_and, List.mem_filter, decide_eq_true_eq]
            rw [hl l x]
            by_cases hx : x.id ∈ ids <;> simp [hx]
          · simp only [hj, if_false, false_and]
            exact hl j x
        · intro r
          simp only [Refused, List.length_modify]
          constructor
          · rintro (⟨_, h⟩ | h)
            · omega
            · exact h
          · exact .inr
  | setWal w =>
    right
    exact ⟨by simp [Refused], _, rfl, hn, hl, rfl, rfl, rfl, rfl, fun r => by simp [Refused]⟩
  | setWatermark w =>
    right
    exact ⟨by simp [Refused], _, rfl, hn, hl, rfl, rfl, rfl, rfl, fun r => by simp [Refused]⟩

theorem walAfter_cons (w : List WalRef) (e : Edit P) (r : List (Edit P)) :
    walAfter w (e :: r) = walAfter (walAfter w [e]) r := by cases e <;> rfl

theorem watermarkAfter_cons (w : Option Nat) (e : Edit P) (r : List (Edit P)) :
    watermarkAfter w (e :: r) = watermarkAfter (watermarkAfter w [e]) r := by cases e <;> rfl

theorem refused_head {n : Nat} {e : Edit P} {r : List (Edit P)} (h : Refused n [e]) : Refused n (e :: r) := by
  cases e <;> simp [Refused] at h ⊢
  exact .inl h

theorem applyLoop_spec : ∀ (es : List (Edit P)) (v : Version P) (f : LevelMap P), NoDup v.ssts →
    Lists v.ssts f →
    (Refused v.ssts.length es ∧ applyLoop v es = .error .missingLevel) ∨
    (¬ Refused v.ssts.length es ∧ ∃ v', applyLoop v es = .ok v' ∧ NoDup v'.ssts ∧
      Lists v'.ssts (es.foldl editMeans f) ∧ v'.table = v.table ∧ v'.ts = v.ts ∧
      v'.wal = walAfter v.wal es ∧ v'.watermark = watermarkAfter v.watermark es)
  | [], v, f, hn, hl => .inr ⟨by simp [Refused], v, rfl, hn, hl, rfl, rfl, rfl, rfl⟩
  | e :: es, v, f, hn, hl => by
    rcases applyEdit_spec v e f hn hl with ⟨h1, h2⟩ | ⟨h1, v', h2, hn', hl', ht, hts, hw, hm, hr⟩
    · exact .inl ⟨refused_head h1, by simp [applyLoop, h2]⟩
    · simp only [applyLoop, h2, hr]
      rcases applyLoop_spec es v' _ hn' hl' with ⟨g1, g2⟩ | ⟨g1, v'', g2, a, b, c, d, w, m⟩
      · exact .inl ⟨g1, g2⟩
      · exact .inr ⟨g1, v'', g2, a, b, by rw [c, ht], by rw [d, hts],
          by rw [w, hw, ← walAfter_cons], by rw [m, hm, ← watermarkAfter_cons]⟩

theorem trim_getD : ∀ (s : List (List (Entry P))) (j : Nat), (trim s).getD j [] = s.getD j []
  | [], j => rfl
  | b :: bs, j => by
    have ih := trim_getD bs
    unfold trim
    split
    · next h =>
      rw [h] at ih
      have hb : ∀ k, bs.getD k [] = [] := fun k => (ih k).symm
      cases j with
      | zero => split_ifs with hb' <;> simp [hb']
      | succ k =>
        rw [List.getD_cons_succ, hb k]
        split_ifs <;> simp
    · next c cs h =>
      rw [h] at ih
      cases j with
      | zero => rfl
      | succ k => rw [List.getD_cons_succ, List.getD_cons_succ]; exact ih k

theorem trim_last : ∀ (s : List (List (Entry P))), (trim s).getLast? ≠ some []
  | [] => by simp [trim]
  | b :: bs => by
    have ih := trim_last bs
    unfold trim
    split
    · split_ifs with hb
      · simp
      · simpa using hb
    · next c cs h =>
      rw [h] at ih
      rw [List.getLast?_cons_cons]
      exact ih

theorem trim_length_le : ∀ (s : List (List (Entry P))), (trim s).length ≤ s.length
  | [] => Nat.le_refl _
  | b :: bs => by
    have ih := trim_length_le bs
    unfold trim
    split
    · split_ifs <;> simp
    · next c cs h => rw [h] at ih; simp at ih ⊢; omega

theorem map_getD {α β : Type} (g : List α → List β) (hg : g [] = []) (s : List (List α)) (j : Nat) :
    (s.map g).getD j [] = g (s.getD j []) := by
  simp only [List.getD_eq_getElem?_getD, List.getElem?_map]
  cases s[j]? with
  | none => simp [hg]
  | some b => rfl

instance : IsTrans (Entry P) (fun a b => a.id ≤ b.id) := ⟨fun _ _ _ h h' => Nat.le_trans h h'⟩
instance : Std.Total (fun a b : Entry P => a.id ≤ b.id) := ⟨fun a b => Nat.le_total a.id b.id⟩

theorem sortBucket_spec {b : List (Entry P)} (h : (b.map (·.id)).Nodup) :
    (sortBucket b).Pairwise (fun a c => a.id < c.id) ∧ ∀ x, x ∈ sortBucket b ↔ x ∈ b := by
  have hp := List.perm_insertionSort (fun a b : Entry P => a.id ≤ b.id) b
  have hs := List.pairwise_insertionSort (fun a b : Entry P => a.id ≤ b.id) b
  refine ⟨?_, fun x => hp.mem_iff⟩
  have hd : ((sortBucket b).map (·.id)).Nodup := (hp.map (·.id)).nodup_iff.2 h
  have hd' := List.pairwise_map.1 hd
  exact (hs.and hd').imp (fun h => Nat.lt_of_le_of_ne h.1 h.2)

theorem walRef_total (a b : WalRef) : a.le b ∨ b.le a := by unfold WalRef.le; omega

theorem walRef_trans {a b c : WalRef} (h : a.le b) (h' : b.le c) : a.le c := by
  unfold WalRef.le at *; omega

instance : IsTrans WalRef WalRef.le := ⟨fun _ _ _ h h' => walRef_trans h h'⟩
instance : Std.Total WalRef.le := ⟨walRef_total⟩

theorem normalise_spec (v : Version P) :
    (normaliseWal v).table = v.table ∧ (normaliseWal v).ts = v.ts ∧ (normaliseWal v).ssts = v.ssts ∧
    (normaliseWal v).watermark = v.watermark ∧ (normaliseWal v).wal.Perm v.wal ∧
    (normaliseWal v).wal.Pairwise WalRef.le ∧ ((normaliseWal v).floor = none ↔ (normaliseWal v).wal = []) ∧
    ∀ w, (normaliseWal v).floor = some w → LeastWal (normaliseWal v).wal w := by
  unfold normaliseWal
  split_ifs with h
  · exact ⟨rfl, rfl, rfl, rfl, List.Perm.refl _, by simp [h], by simp [h], by simp⟩
  · have hp := List.perm_insertionSort WalRef.le v.wal
    have hs := List.pairwise_insertionSort WalRef.le v.wal
    refine ⟨rfl, rfl, rfl, rfl, hp, hs, ?_, ?_⟩
    · simp [List.head?_eq_none_iff]
    · intro w hw
      simp only at hw
      cases hl : v.wal.insertionSort WalRef.le with
      | nil => rw [hl] at hw; cases hw
      | cons a l =>
        rw [hl] at hw hs
        cases hw
        refine ⟨by simp [hl], ?_⟩
        intro x hx
        simp only [hl, List.mem_cons] at hx
        rcases hx with rfl | hx
        · exact .inr ⟨rfl, Nat.le_refl _⟩
        · have := (List.pairwise_cons.1 hs).1 x hx
          unfold WalRef.le at this
          omega

theorem noDup_of_ok {v : Version P} (h : VersionOk v) : NoDup v.ssts := by
  intro b hb
  refine List.pairwise_map.2 ((h.asc b hb).imp (fun h => Nat.ne_of_lt h))

theorem applyEdits_spec (v : Version P) (es : List (Edit P)) (f : LevelMap P) (hn : NoDup v.ssts)
    (hl : Lists v.ssts f) :
    (Refused v.ssts.length es ∧ applyEdits v es = .error .missingLevel) ∨
    (¬ Refused v.ssts.length es ∧ ∃ v', applyEdits v es = .ok v' ∧ VersionOk v' ∧
      Lists v'.ssts (es.foldl editMeans f) ∧ v'.table = v.table ∧ v'.ts = v.ts ∧
      v'.wal.Perm (walAfter v.wal es) ∧ v'.watermark = watermarkAfter v.watermark es) := by
  rcases applyLoop_spec es v f hn hl with ⟨h1, h2⟩ | ⟨h1, v', h2, a, b, c, d, w, m⟩
  · exact .inl ⟨h1, by simp [applyEdits, h2]⟩
  · right
    obtain ⟨n1, n2, n3, n4, n5, n6, n7, n8⟩ := normalise_spec { v' with ssts := trim (v'.ssts.map sortBucket) }
    have hg : ∀ j, (trim (v'.ssts.map sortBucket)).getD j [] = sortBucket (v'.ssts.getD j []) := by
      intro j; rw [trim_getD, map_getD sortBucket rfl]
    refine ⟨h1, _, by simp [applyEdits, h2], ⟨?_, ?_, n6.imp (fun {a b} h => by unfold WalRef.le at h; omega), n7, n8⟩, ?_, ?_, ?_, ?_, ?_⟩
    · rw [n3]
      intro x hx
      obtain ⟨j, hj⟩ := List.mem_iff_getElem?.1 hx
      have := hg j
      rw [List.getD_eq_getElem?_getD, hj] at this
      change x = _ at this
      rw [this]
      exact (sortBucket_spec (nodup_getD a j)).1
    · rw [n3]; exact trim_last _
    · intro j x
      rw [n3, hg j, (sortBucket_spec (nodup_getD a j)).2 x]
      exact b j x
    · rw [n1]; exact c
    · rw [n2]; exact d
    · rw [← w]; exact n5
    · rw [n4]; exact m

theorem lists_of (s : List (List (Entry P))) (hn : NoDup s) :
    Lists s (fun l i => (s.getD l []).find? (fun e => decide (e.id = i))) := by
  intro l e
  have hd := nodup_getD hn l
  constructor
  · intro h
    cases hc : (s.getD l []).find? (fun x => decide (x.id = e.id)) with
    | none =>
      have := List.find?_eq_none.1 hc e h
      simp at this
    | some x =>
      have h1 := List.find?_some hc
      have h2 := List.mem_of_find?_eq_some hc
      simp only [decide_eq_true_eq] at h1
      rw [← List.inj_on_of_nodup_map hd h2 h h1]
      simp only
      rw [h1]; exact hc
  · intro h
    exact List.mem_of_find?_eq_some h

/-! ### The key/value map -/

/-- No key twice. -/
def KeysNodup (m : Kv P) : Prop := (m.map (·.1)).Nodup

theorem get_del (m : Kv P) (k k' : Key) : kget (del m k) k' = if k' = k then none else kget m k' := by
  unfold kget del
  rw [List.find?_filter]
  by_cases h : k' = k
  · subst h
    rw [if_pos rfl]
    have : (m.find? fun a => decide (a.1 ≠ k') && decide (a.1 = k')) = none := by
      rw [List.find?_eq_none]; intro x _ hx; simp at hx
    simp [this]
  · rw [if_neg h]
    congr 2
    funext a
    by_cases ha : a.1 = k'
    · simp [ha, h]
    · simp [ha]

theorem get_put (m : Kv P) (k k' : Key) (v : Val P) :
    kget (put m k v) k' = if k' = k then some v else kget m k' := by
  by_cases h : k' = k
  · subst h; simp [kget, put]
  · rw [if_neg h]
    have : kget (put m k v) k' = kget (del m k) k' := by
      unfold kget put
      rw [List.find?_cons]
      have : decide (k = k') = false := by simpa using fun h' => h h'.symm
      simp [this]
    rw [this, get_del, if_neg h]

theorem nodup_del {m : Kv P} (h : KeysNodup m) (k : Key) : KeysNodup (del m k) :=
  h.sublist (List.Sublist.map _ List.filter_sublist)

theorem nodup_put {m : Kv P} (h : KeysNodup m) (k : Key) (v : Val P) : KeysNodup (put m k v) := by
  refine List.nodup_cons.2 ⟨?_, nodup_del h k⟩
  simp [del]

theorem mem_iff_get {m : Kv P} (h : KeysNodup m) (k : Key) (v : Val P) : (k, v) ∈ m ↔ kget m k = some v := by
  unfold kget
  constructor
  · intro hm
    cases hc : m.find? (fun p => decide (p.1 = k)) with
    | none =>
      have := List.find?_eq_none.1 hc (k, v) hm
      simp at this
    | some p =>
      have h1 := List.find?_some hc
      have h2 := List.mem_of_find?_eq_some hc
      simp only [decide_eq_true_eq] at h1
      rw [List.inj_on_of_nodup_map h h2 hm h1]
      rfl
  · intro hg
    cases hc : m.find? (fun p => decide (p.1 = k)) with
    | none => rw [hc] at hg; cases hg
    | some p =>
      rw [hc] at hg
      cases hg
      have h1 := List.find?_some hc
      simp only [decide_eq_true_eq] at h1
      have h2 := List.mem_of_find?_eq_some hc
      rw [← h1]; exact h2

/-- What the head records as the last version. -/
def lastOf (n : Nat) : Option Nat := if n = 0 then none else some n

/-- A table with `n` published versions. -/
structure TableOk (m : Kv P) (t n : Nat) (h : Head) : Prop where
  head : kget m (.head t) = some (.head h)
  table : h.table = t
  last : h.last = lastOf n
  some : ∀ k, 1 ≤ k → k ≤ n → ∃ v, kget m (.version t k) = some (.version v) ∧ v.ts = k ∧ v.table = t ∧ VersionOk v
  none : ∀ k, (k = 0 ∨ n < k) → kget m (.version t k) = Option.none
  floor0 : n = 0 → h.floor = Option.none
  floorN : ∀ v, kget m (.version t n) = Option.some (.version v) → h.floor = v.floor
  walFloor : kget m (.walFloor t) = h.floor.map .walFloor

/-- Reachable maps. -/
structure Good (m : Kv P) : Prop where
  nodup : KeysNodup m
  tbl : ∀ t, (kget m (.head t) = none ∧ (∀ k, kget m (.version t k) = none) ∧ kget m (.walFloor t) = none) ∨
    ∃ n h, TableOk m t n h

theorem good_nil : Good ([] : Kv P) := ⟨by simp [KeysNodup], fun _ => .inl ⟨rfl, fun _ => rfl, rfl⟩⟩

/-- Writing only keys of one table leaves the others as they are. -/
theorem tableOk_of_get_eq {m m' : Kv P} {t : Nat}
    (h1 : kget m' (.head t) = kget m (.head t)) (h2 : ∀ k, kget m' (.version t k) = kget m (.version t k))
    (h3 : kget m' (.walFloor t) = kget m (.walFloor t)) {n : Nat} {h : Head} (hok : TableOk m t n h) :
    TableOk m' t n h :=
  ⟨by rw [h1]; exact hok.head, hok.table, hok.last,
   fun k a b => by rw [h2]; exact hok.some k a b,
   fun k a => by rw [h2]; exact hok.none k a, hok.floor0, fun v hv => hok.floorN v (by rw [← h2]; exact hv),
   by rw [h3]; exact hok.walFloor⟩

theorem good_init {m : Kv P} (hg : Good m) (t s : Nat) : Good (initHead m t (newHead t s)) := by
  unfold initHead
  cases hh : kget m (.head t) with
  | some v => exact hg
  | none =>
    simp only
    refine ⟨nodup_put hg.nodup _ _, fun t' => ?_⟩
    by_cases ht : t' = t
    · subst ht
      right
      rcases hg.tbl t' with ⟨_, h2, h3⟩ | ⟨n, h, hok⟩
      · refine ⟨0, newHead t' s, ⟨by simp [get_put], rfl, rfl, fun k a b => by omega, fun k _ => ?_, fun _ => rfl,
          fun v hv => ?_, ?_⟩⟩
        · simp [get_put, h2]
        · simp [get_put, h2] at hv
        · simp [get_put, h3, newHead]
      · rw [hok.head] at hh; cases hh
    · have e1 : kget (put m (.head t) (.head (newHead t s))) (.head t') = kget m (.head t') := by
        rw [get_put, if_neg (by simpa using ht)]
      have e2 : ∀ k, kget (put m (.head t) (.head (newHead t s))) (.version t' k) = kget m (.version t' k) := by
        intro k; simp [get_put]
      have e3 : kget (put m (.head t) (.head (newHead t s))) (.walFloor t') = kget m (.walFloor t') := by
        simp [get_put]
      rcases hg.tbl t' with ⟨a, b, c⟩ | ⟨n, h, hok⟩
      · exact .inl ⟨by rw [e1]; exact a, fun k => by rw [e2]; exact b k, by rw [e3]; exact c⟩
      · exact .inr ⟨n, h, tableOk_of_get_eq e1 e2 e3 hok⟩

/-- What publishing leaves under each key. -/
theorem publish_get (m : Kv P) (t : Nat) (h : Head) (v : Version P) (k : Key) :
    kget (publish m t h v).1 k =
      if k = .walFloor t then v.floor.map .walFloor
      else if k = .head t then some (.head { h with last := some (v.ts + 1), floor := v.floor })
      else if k = .version t (v.ts + 1) then some (.version { v with ts := v.ts + 1 })
      else kget m k := by
  unfold publish
  cases hf : v.floor with
  | none => simp only [get_del, get_put, Option.map_none]
  | some f => simp only [get_put, Option.map_some]

theorem base_spec {m : Kv P} {t n : Nat} {h : Head} (hok : TableOk m t n h) :
    ∃ v, baseVersion m t h = .ok v ∧ v.ts = n ∧ v.table = t ∧ VersionOk v ∧
      (n = 0 → v = Version.empty t) ∧ (0 < n → kget m (.version t n) = some (.version v)) := by
  unfold baseVersion
  rw [hok.last]
  by_cases hn : n = 0
  · subst hn
    refine ⟨Version.empty t, rfl, rfl, rfl, ⟨?_, ?_, ?_, ?_, ?_⟩, fun _ => rfl, fun h => absurd h (by omega)⟩
    · intro b hb; cases hb
    · simp [Version.empty]
    · simp [Version.empty]
    · simp [Version.empty]
    · intro w hw; cases hw
  · obtain ⟨v, h1, h2, h3, h4⟩ := hok.some n (by omega) (Nat.le_refl _)
    simp only [lastOf, if_neg hn, h1, asVersion]
    exact ⟨v, rfl, h2, h3, h4, fun h => absurd h hn, fun _ => rfl⟩

theorem publish_ok {m : Kv P} {t n : Nat} {h : Head} (hok : TableOk m t n h) {v : Version P}
    (hts : v.ts = n) (htb : v.table = t) (hv : VersionOk v) :
    TableOk (publish m t h v).1 t (n + 1) { h with last := some (n + 1), floor := v.floor } := by
  have hv' : VersionOk { v with ts := n + 1 } := ⟨hv.asc, hv.last, hv.walAsc, hv.floorNone, hv.floor⟩
  constructor
  · rw [publish_get]; simp [hts]
  · exact hok.table
  · simp [lastOf]
  · intro k hk hk'
    rw [publish_get]
    by_cases e : k = n + 1
    · subst e
      refine ⟨{ v with ts := n + 1 }, by simp [hts], rfl, htb, hv'⟩
    · obtain ⟨u, hu⟩ := hok.some k hk (by omega)
      refine ⟨u, ?_, hu.2⟩
      rw [hts]
      simp [e, hu.1]
  · intro k hk
    rw [publish_get, hts]
    have : k ≠ n + 1 := by omega
    simp [this, hok.none k (by omega)]
  · intro h; omega
  · intro u hu
    rw [publish_get, hts] at hu
    simp at hu
    rw [← hu]
  · rw [publish_get]; simp

theorem good_publish {m : Kv P} (hg : Good m) {t n : Nat} {h : Head} (hok : TableOk m t n h) {v : Version P}
    (hts : v.ts = n) (htb : v.table = t) (hv : VersionOk v) : Good (publish m t h v).1 := by
  refine ⟨?_, fun t' => ?_⟩
  · unfold publish
    simp only
    cases v.floor with
    | none => exact nodup_del (nodup_put (nodup_put hg.nodup _ _) _ _) _
    | some f => exact nodup_put (nodup_put (nodup_put hg.nodup _ _) _ _) _ _
  · by_cases ht : t' = t
    · subst ht
      exact .inr ⟨_, _, publish_ok hok hts htb hv⟩
    · have e1 : kget (publish m t h v).1 (.head t') = kget m (.head t') := by rw [publish_get]; simp [ht]
      have e2 : ∀ k, kget (publish m t h v).1 (.version t' k) = kget m (.version t' k) := by
        intro k; rw [publish_get]; simp [ht]
      have e3 : kget (publish m t h v).1 (.walFloor t') = kget m (.walFloor t') := by
        rw [publish_get]; simp [ht]
      rcases hg.tbl t' with ⟨a, b, c⟩ | ⟨k, g, hk⟩
      · exact .inl ⟨by rw [e1]; exact a, fun k => by rw [e2]; exact b k, by rw [e3]; exact c⟩
      · exact .inr ⟨k, g, tableOk_of_get_eq e1 e2 e3 hk⟩

/-- Everything `apply` can do to a reachable map. -/
theorem apply_cases {m : Kv P} (hg : Good m) (t : Nat) (es : List (Edit P)) (x : Option (Option Nat)) :
    (es = [] ∧ apply m t es x = (m, .error .noEdits)) ∨
    (es ≠ [] ∧ kget m (.head t) = none ∧ apply m t es x = (m, .error .noHead)) ∨
    ∃ n h, TableOk m t n h ∧ es ≠ [] ∧
      ((x ≠ none ∧ x ≠ some (lastOf n) ∧ apply m t es x = (m, .error .casConflict)) ∨
       ((x = none ∨ x = some (lastOf n)) ∧ ∃ v, baseVersion m t h = .ok v ∧ v.ts = n ∧ VersionOk v ∧
        ((Refused v.ssts.length es ∧ apply m t es x = (m, .error .missingLevel)) ∨
         (¬ Refused v.ssts.length es ∧ ∃ v', applyEdits v es = .ok v' ∧ v'.ts = n ∧ v'.table = t ∧ VersionOk v' ∧
          apply m t es x = ((publish m t h v').1, .ok (n + 1)))))) := by
  unfold apply
  by_cases he : es = []
  · exact .inl ⟨he, by simp [he]⟩
  · right
    rcases hg.tbl t with ⟨h1, _⟩ | ⟨n, h, hok⟩
    · exact .inl ⟨he, h1, by simp [he, h1]⟩
    · right
      refine ⟨n, h, hok, he, ?_⟩
      simp only [if_neg he, hok.head, asHead]
      by_cases hx : x ≠ none ∧ x ≠ some (lastOf n)
      · left
        refine ⟨hx.1, hx.2, ?_⟩
        have : x.any (fun e => decide (h.last ≠ e)) = true := by
          cases x with
          | none => exact absurd rfl hx.1
          | some e =>
            have : lastOf n ≠ e := fun h => hx.2 (by rw [h])
            simp [hok.last, this]
        rw [if_pos this]
      · right
        have hx' : x = none ∨ x = some (lastOf n) := by
          by_cases h0 : x = none
          · exact .inl h0
          · exact .inr (by_contra fun h1 => hx ⟨h0, h1⟩)
        have hany : ¬ (x.any (fun e => decide (h.last ≠ e)) = true) := by
          rcases hx' with rfl | rfl <;> simp [hok.last]
        rw [if_neg hany]
        obtain ⟨v, b1, b2, b3, b4, _, _⟩ := base_spec hok
        refine ⟨hx', v, b1, b2, b4, ?_⟩
        simp only [b1]
        rcases applyEdits_spec v es _ (noDup_of_ok b4) (lists_of _ (noDup_of_ok b4)) with
          ⟨r1, r2⟩ | ⟨r1, v', r2, r3, _, r5, r6, _⟩
        · exact .inl ⟨r1, by simp [r2]⟩
        · refine .inr ⟨r1, v', r2, by rw [r6, b2], by rw [r5, b3], r3, ?_⟩
          simp [r2, publish, r6, b2]

theorem good_apply {m : Kv P} (hg : Good m) (t : Nat) (es : List (Edit P)) (x : Option (Option Nat)) :
    Good (apply m t es x).1 := by
  rcases apply_cases hg t es x with ⟨_, h⟩ | ⟨_, _, h⟩ |
    ⟨n, hd, hok, _, ⟨_, _, h⟩ | ⟨_, v, _, _, _, ⟨_, h⟩ | ⟨_, v', _, hts, htb, hv, h⟩⟩⟩
  · rw [h]; exact hg
  · rw [h]; exact hg
  · rw [h]; exact hg
  · rw [h]; exact hg
  · rw [h]; exact good_publish hg hok hts htb hv

theorem good_foldl : ∀ (ops : List (Op P)) (m : Kv P), Good m → Good (ops.foldl step m)
  | [], _, h => h
  | o :: ops, m, h => by
    refine good_foldl ops _ ?_
    cases o with
    | init t s => exact good_init h t s
    | apply t es x => exact good_apply h t es x

theorem good_run (ops : List (Op P)) : Good (run ops) := good_foldl ops _ good_nil

/-- One call keeps every version, and the number of versions never falls. -/
theorem step_keeps {m : Kv P} (hg : Good m) (o : Op P) {t n : Nat} {h : Head} (hok : TableOk m t n h) :
    ∃ n' h', n ≤ n' ∧ TableOk (step m o) t n' h' ∧
      ∀ k, k ≤ n → kget (step m o) (.version t k) = kget m (.version t k) := by
  cases o with
  | init t' s =>
    simp only [step, initHead]
    cases hh : kget m (.head t') with
    | some v => exact ⟨n, h, Nat.le_refl _, hok, fun _ _ => rfl⟩
    | none =>
      have ht : t ≠ t' := by
        rintro rfl
        rw [hok.head] at hh; cases hh
      refine ⟨n, h, Nat.le_refl _, tableOk_of_get_eq ?_ ?_ ?_ hok, fun k _ => by simp [get_put]⟩
      · simp [get_put, ht]
      · intro k; simp [get_put]
      · simp [get_put]
  | apply t' es x =>
    simp only [step]
    rcases apply_cases hg t' es x with ⟨_, e⟩ | ⟨_, _, e⟩ |
      ⟨n', hd, hok', _, ⟨_, _, e⟩ | ⟨_, v, _, _, _, ⟨_, e⟩ | ⟨_, v', _, hts, htb, hv, e⟩⟩⟩
    · rw [e]; exact ⟨n, h, Nat.le_refl _, hok, fun _ _ => rfl⟩
    · rw [e]; exact ⟨n, h, Nat.le_refl _, hok, fun _ _ => rfl⟩
    · rw [e]; exact ⟨n, h, Nat.le_refl _, hok, fun _ _ => rfl⟩
    · rw [e]; exact ⟨n, h, Nat.le_refl _, hok, fun _ _ => rfl⟩
    · rw [e]
      by_cases ht : t = t'
      · subst ht
        have hn : n = n' ∧ h = hd := by
          have h1 := hok.head
          rw [hok'.head] at h1
          cases h1
          refine ⟨?_, rfl⟩
          have h2 := hok.last
          rw [hok'.last] at h2
          unfold lastOf at h2
          split_ifs at h2 <;> first | omega | (simp at h2; omega)
        obtain ⟨rfl, rfl⟩ := hn
        refine ⟨n + 1, _, by omega, publish_ok hok hts htb hv, fun k hk => ?_⟩
        rw [publish_get, hts]
        have : k ≠ n + 1 := by omega
        simp [this]
      · refine ⟨n, h, Nat.le_refl _, tableOk_of_get_eq ?_ ?_ ?_ hok, fun k _ => ?_⟩
        · rw [publish_get]; simp [ht]
        · intro k; rw [publish_get]; simp [ht]
        · rw [publish_get]; simp [ht]
        · rw [publish_get]; simp [ht]

theorem foldl_keeps : ∀ (ops : List (Op P)) (m : Kv P), Good m → ∀ {t n : Nat} {h : Head}, TableOk m t n h →
    ∃ n' h', n ≤ n' ∧ TableOk (ops.foldl step m) t n' h' ∧
      ∀ k, k ≤ n → kget (ops.foldl step m) (.version t k) = kget m (.version t k)
  | [], m, _, t, n, h, hok => ⟨n, h, Nat.le_refl _, hok, fun _ _ => rfl⟩
  | o :: ops, m, hg, t, n, h, hok => by
    obtain ⟨n1, h1, l1, k1, g1⟩ := step_keeps hg o hok
    obtain ⟨n2, h2, l2, k2, g2⟩ := foldl_keeps ops (step m o) (good_foldl [o] m hg) k1
    exact ⟨n2, h2, Nat.le_trans l1 l2, k2, fun k hk => by
      rw [List.foldl_cons, g2 k (Nat.le_trans hk l1), g1 k hk]⟩

theorem tableOk_unique {m : Kv P} {t n n' : Nat} {h h' : Head} (a : TableOk m t n h) (b : TableOk m t n' h') :
    n = n' ∧ h = h' := by
  have h1 := a.head
  rw [b.head] at h1
  cases h1
  refine ⟨?_, rfl⟩
  have h2 := a.last
  rw [b.last] at h2
  unfold lastOf at h2
  split_ifs at h2 <;> first | omega | (simp at h2; omega)

theorem readVersion_spec {m : Kv P} (hg : Good m) (t k : Nat) :
    ∃ o, readVersion m t k = .ok o ∧ ∀ v, o = some v ↔ kget m (.version t k) = some (.version v) := by
  unfold readVersion
  rcases hg.tbl t with ⟨_, h, _⟩ | ⟨n, h, hok⟩
  · rw [h k]; exact ⟨none, rfl, by simp⟩
  · by_cases hk : 1 ≤ k ∧ k ≤ n
    · obtain ⟨v, hv, _⟩ := hok.some k hk.1 hk.2
      rw [hv]
      exact ⟨some v, rfl, fun u => by simp⟩
    · rw [hok.none k (by omega)]
      exact ⟨none, rfl, by simp⟩

theorem readVersion_some {m : Kv P} (hg : Good m) {t k : Nat} {v : Version P} :
    readVersion m t k = .ok (some v) ↔ kget m (.version t k) = some (.version v) := by
  obtain ⟨o, h1, h2⟩ := readVersion_spec hg t k
  rw [h1]
  rw [← h2 v]
  constructor
  · intro h; cases h; rfl
  · intro h; rw [h]

theorem snapshotLatest_spec {m : Kv P} {t n : Nat} {h : Head} (hok : TableOk m t n h) :
    (n = 0 ∧ snapshotLatest m t = .ok (h, none)) ∨
    (0 < n ∧ ∃ v, kget m (.version t n) = some (.version v) ∧ v.ts = n ∧ snapshotLatest m t = .ok (h, some v)) := by
  unfold snapshotLatest readHead
  simp only [hok.head, asHead, hok.last]
  by_cases hn : n = 0
  · exact .inl ⟨hn, by simp [lastOf, hn]⟩
  · right
    obtain ⟨v, h1, h2, _⟩ := hok.some n (by omega) (Nat.le_refl _)
    refine ⟨by omega, v, h1, h2, ?_⟩
    simp [lastOf, hn, readVersion, h1, asVersion]

theorem collect_spec : ∀ (l : List (Val P)), (∀ x ∈ l, ∃ v, x = .version v) →
    ∃ vs, collect l = .ok vs ∧ vs.map Val.version = l
  | [], _ => ⟨[], rfl, rfl⟩
  | x :: l, h => by
    obtain ⟨v, rfl⟩ := h x List.mem_cons_self
    obtain ⟨vs, h1, h2⟩ := collect_spec l (fun y hy => h y (List.mem_cons_of_mem _ hy))
    exact ⟨v :: vs, by simp [collect, asVersion, h1], by simp [h2]⟩

theorem mem_versionEntries {m : Kv P} (hk : KeysNodup m) (t : Nat) (x : Val P) :
    x ∈ versionEntries m t ↔ ∃ k, kget m (.version t k) = some x := by
  unfold versionEntries
  simp only [List.mem_filterMap]
  constructor
  · rintro ⟨⟨k, v⟩, hm, hx⟩
    cases k with
    | version t' k =>
      simp only at hx
      split_ifs at hx with h
      cases hx
      subst h
      exact ⟨k, (mem_iff_get hk _ _).1 hm⟩
    | head _ => cases hx
    | walFloor _ => cases hx
  · rintro ⟨k, h⟩
    exact ⟨(.version t k, x), (mem_iff_get hk _ _).2 h, by simp⟩

instance : IsTrans (Version P) (fun a b => b.ts ≤ a.ts) := ⟨fun _ _ _ h h' => Nat.le_trans h' h⟩
instance : Std.Total (fun a b : Version P => b.ts ≤ a.ts) := ⟨fun a b => Nat.le_total b.ts a.ts⟩

/-- The version numbers found by the range scan are distinct. -/
theorem entries_nodup (t : Nat) : ∀ (m : Kv P), KeysNodup m →
    (∀ k v, (Key.version t k, v) ∈ m → ∃ u : Version P, v = .version u ∧ u.ts = k) →
    ((versionEntries m t).map (fun x => match x with | .version u => u.ts | _ => 0)).Nodup
  | [], _, _ => by simp [versionEntries]
  | (k, v) :: m, hn, hv => by
    have ih := entries_nodup t m (List.nodup_cons.1 hn).2 (fun a b h => hv a b (List.mem_cons_of_mem _ h))
    have hnot := (List.nodup_cons.1 hn).1
    have hn' := (List.nodup_cons.1 hn).2
    unfold versionEntries at ih ⊢
    rw [List.filterMap_cons]
    split
    · exact ih
    · next x hx =>
      rw [List.map_cons, List.nodup_cons]
      refine ⟨?_, ih⟩
      cases k with
      | version t' k =>
        simp only at hx
        split_ifs at hx with h
        cases hx
        subst h
        obtain ⟨u, rfl, rfl⟩ := hv k v List.mem_cons_self
        simp only [List.mem_map]
        rintro ⟨y, hy, he⟩
        obtain ⟨k', hk'⟩ := (mem_versionEntries hn' t' y).1 hy
        have hm := (mem_iff_get hn' _ _).2 hk'
        obtain ⟨u', rfl, rfl⟩ := hv k' y (List.mem_cons_of_mem _ hm)
        simp only at he
        apply hnot
        rw [← he]
        exact List.mem_map.2 ⟨_, hm, rfl⟩
      | head _ => cases hx
      | walFloor _ => cases hx

theorem listVersions_spec {m : Kv P} (hg : Good m) (t limit : Nat) :
    ∃ all : List (Version P), all.Pairwise (fun a b => b.ts < a.ts) ∧
      (∀ v, v ∈ all ↔ kget m (.version t v.ts) = some (.version v)) ∧
      listVersions m t limit = .ok (if limit = 0 then all else all.take limit) := by
  have hval : ∀ k x, kget m (.version t k) = some x → ∃ v : Version P, x = .version v ∧ v.ts = k := by
    intro k x hx
    rcases hg.tbl t with ⟨_, h, _⟩ | ⟨n, h, hok⟩
    · rw [h k] at hx; cases hx
    · by_cases hk : 1 ≤ k ∧ k ≤ n
      · obtain ⟨v, hv, hts, _⟩ := hok.some k hk.1 hk.2
        rw [hv] at hx; cases hx
        exact ⟨v, rfl, hts⟩
      · rw [hok.none k (by omega)] at hx; cases hx
  obtain ⟨vs, c1, c2⟩ := collect_spec (versionEntries m t) (by
    intro x hx
    obtain ⟨k, hk⟩ := (mem_versionEntries hg.nodup t x).1 hx
    obtain ⟨v, hv, _⟩ := hval k x hk
    exact ⟨v, hv⟩)
  have hp := List.perm_insertionSort (fun a b : Version P => b.ts ≤ a.ts) vs
  have hs := List.pairwise_insertionSort (fun a b : Version P => b.ts ≤ a.ts) vs
  have hnd : (vs.map (·.ts)).Nodup := by
    have := entries_nodup t m hg.nodup (fun k v h => hval k v ((mem_iff_get hg.nodup _ _).1 h))
    rw [← c2, List.map_map] at this
    exact this
  refine ⟨vs.insertionSort (fun a b => b.ts ≤ a.ts), ?_, ?_, ?_⟩
  · have hd : ((vs.insertionSort (fun a b => b.ts ≤ a.ts)).map (·.ts)).Nodup := (hp.map (·.ts)).nodup_iff.2 hnd
    exact (hs.and (List.pairwise_map.1 hd)).imp (fun h => Nat.lt_of_le_of_ne h.1 (fun e => h.2 e.symm))
  · intro v
    rw [hp.mem_iff]
    have : v ∈ vs ↔ Val.version v ∈ versionEntries m t := by
      rw [← c2]; simp
    rw [this, mem_versionEntries hg.nodup]
    constructor
    · rintro ⟨k, hk⟩
      obtain ⟨u, hu, rfl⟩ := hval k _ hk
      cases hu; exact hk
    · intro h; exact ⟨_, h⟩
  · unfold listVersions
    simp only [c1]
    congr 1
    by_cases h0 : limit = 0
    · simp [h0]
    · simp only [h0, if_false]
      split_ifs with h
      · rfl
      · rw [List.take_of_length_le (by omega)]

end Tonbo.Lemmas.Manifest
