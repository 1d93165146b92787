import Verif.Spec.CacheView
import Mathlib.Data.List.Nodup
import Mathlib.Data.List.Induction
import Mathlib.Tactic.SplitIfs

/-!
# Lemmas on the caches and on batched reads
-/

namespace Tonbo.Lemmas.Cache
open Tonbo.Model.Cache Tonbo.Spec.CacheView

variable {K V : Type} [DecidableEq K]

theorem find_remove (m : List (K × V)) (k k' : K) :
    find (remove m k) k' = if k' = k then none else find m k' := by
  unfold find remove
  by_cases h : k' = k
  · subst h
    rw [if_pos rfl, Option.map_eq_none_iff, List.find?_eq_none]
    intro p hp
    simpa using (List.mem_filter.1 hp).2
  · rw [if_neg h]
    congr 1
    induction m with
    | nil => rfl
    | cons p m ih =>
      by_cases hp : p.1 = k
      · rw [List.filter_cons_of_neg (by simpa using hp), ih, List.find?_cons_of_neg]
        simp only [decide_eq_true_eq]
        intro h'; exact h (h' ▸ hp)
      · rw [List.filter_cons_of_pos (by simpa using hp)]
        by_cases hq : p.1 = k'
        · rw [List.find?_cons_of_pos (by simpa using hq), List.find?_cons_of_pos (by simpa using hq)]
        · rw [List.find?_cons_of_neg (by simpa using hq), List.find?_cons_of_neg (by simpa using hq), ih]

theorem find_put (m : List (K × V)) (k k' : K) (v : V) :
    find (put m k v) k' = if k' = k then some v else find m k' := by
  unfold put
  by_cases h : k' = k
  · subst h; simp [find]
  · have : find ((k, v) :: remove m k) k' = find (remove m k) k' := by
      unfold find
      rw [List.find?_cons_of_neg (by simpa using fun h' => h h'.symm)]
    rw [this, find_remove, if_neg h, if_neg h]

theorem find_isSome (m : List (K × V)) (k : K) : (find m k).isSome ↔ k ∈ m.map (·.1) := by
  unfold find
  rw [Option.isSome_map, List.find?_isSome]
  simp [List.mem_map]

theorem remove_keys (m : List (K × V)) (k : K) :
    (remove m k).map (·.1) = (m.map (·.1)).filter (fun x => decide (x ≠ k)) := by
  unfold remove
  rw [List.filter_map]
  rfl

/-- A cache in order: the queue lists the keys, each once. -/
structure Ok (c : Cache K V) : Prop where
  cap : 1 ≤ c.max
  nodup : c.order.Nodup
  keys : (c.entries.map (·.1)).Perm c.order
  size : c.order.length ≤ c.max

theorem ok_new (n : Nat) : Ok (new n : Cache K V) :=
  ⟨le_max_right _ _, List.nodup_nil, List.Perm.nil, Nat.zero_le _⟩

theorem ok_keys {c : Cache K V} (h : Ok c) (k : K) : (find c.entries k).isSome ↔ k ∈ c.order := by
  rw [find_isSome]; exact h.keys.mem_iff

theorem len_eq {c : Cache K V} (h : Ok c) : c.entries.length = c.order.length := by
  rw [← h.keys.length_eq, List.length_map]

theorem filter_self {l : List K} {k : K} (h : k ∉ l) : l.filter (fun x => decide (x ≠ k)) = l := by
  rw [List.filter_eq_self]
  intro x hx
  simp only [ne_eq, decide_eq_true_eq]
  rintro rfl; exact h hx

/-- One insertion: the queue changes as specified, the value is the new one. -/
theorem insert_spec {c : Cache K V} (h : Ok c) (k : K) (v : V) :
    ∃ c', Model.Cache.insert c k v = some c' ∧ Ok c' ∧ c'.max = c.max ∧ c'.order = letIn c.max c.order k ∧
      ∀ k', kget c' k' = if k' ∈ c'.order then (if k' = k then some v else kget c k') else none := by
  unfold Model.Cache.insert
  by_cases hk : (find c.entries k).isSome
  · rw [if_pos hk]
    have hmem := (ok_keys h k).1 hk
    have hp : ((put c.entries k v).map (·.1)).Perm c.order := by
      unfold put
      rw [List.map_cons, remove_keys]
      have h1 : ((c.entries.map (·.1)).filter (fun x => decide (x ≠ k))).Perm (c.order.filter (fun x => decide (x ≠ k))) :=
        h.keys.filter _
      have h2 : (k :: c.order.filter (fun x => decide (x ≠ k))).Perm c.order := by
        have := List.perm_cons_erase hmem
        rw [h.nodup.erase_eq_filter] at this
        refine List.Perm.trans ?_ this.symm
        apply List.Perm.of_eq
        congr 1
        apply List.filter_congr
        intro x _
        by_cases hx : x = k <;> simp [hx, bne]
      exact (h1.cons k).trans h2
    refine ⟨_, rfl, ⟨h.cap, h.nodup, hp, h.size⟩, rfl, ?_, fun k' => ?_⟩
    · unfold letIn; rw [if_pos hmem]
    · unfold kget
      simp only [find_put]
      by_cases hk' : k' ∈ c.order
      · rw [if_pos hk']
      · rw [if_neg hk']
        have : k' ≠ k := fun e => hk' (e ▸ hmem)
        rw [if_neg this]
        cases hf : find c.entries k' with
        | none => rfl
        | some x => exact absurd ((ok_keys h k').1 (by rw [hf]; rfl)) hk'
  · rw [if_neg hk]
    have hmem : k ∉ c.order := fun hm => hk ((ok_keys h k).2 hm)
    have hrem : remove c.entries k = c.entries := by
      unfold remove
      rw [List.filter_eq_self]
      intro p hp
      simp only [ne_eq, decide_eq_true_eq]
      rintro rfl
      exact hk ((find_isSome _ _).2 (List.mem_map.2 ⟨p, hp, rfl⟩))
    have hlen : (put c.entries k v).length = c.order.length + 1 := by
      unfold put; rw [hrem, List.length_cons, len_eq h]
    have hnd : (c.order ++ [k]).Nodup := by
      rw [List.nodup_append]
      refine ⟨h.nodup, by simp, ?_⟩
      intro a ha b hb
      simp only [List.mem_singleton] at hb
      subst hb
      rintro rfl; exact hmem ha
    have hperm : ((put c.entries k v).map (·.1)).Perm (c.order ++ [k]) := by
      unfold put
      rw [hrem, List.map_cons]
      exact (h.keys.cons k).trans (List.perm_append_singleton k c.order).symm
    have hlet : letIn c.max c.order k = (c.order ++ [k]).drop (c.order.length + 1 - c.max) := by
      unfold letIn; rw [if_neg hmem]; simp
    by_cases hfull : c.max < c.order.length + 1
    · -- one entry leaves
      have hle := h.size
      have heq : c.order.length = c.max := by omega
      have hcap := h.cap
      obtain ⟨a, rest, hord⟩ : ∃ a rest, c.order = a :: rest := by
        cases ho : c.order with
        | nil => rw [ho] at heq; simp at heq; omega
        | cons a r => exact ⟨a, r, rfl⟩
      have hak : a ≠ k := by
        rintro rfl
        exact hmem (by rw [hord]; simp)
      have hrl : rest.length + 1 = c.max := by rw [hord] at heq; simpa using heq
      have hanot : a ∉ rest ++ [k] := by
        rw [hord] at hnd
        exact (List.nodup_cons.1 hnd).1
      have hp2 : ((remove (put c.entries k v) a).map (·.1)).Perm (rest ++ [k]) := by
        rw [remove_keys]
        have := hperm.filter (fun x => decide (x ≠ a))
        rw [hord, List.cons_append, List.filter_cons_of_neg (by simp), filter_self hanot] at this
        exact this
      have hl2 : (remove (put c.entries k v) a).length = rest.length + 1 := by
        have := hp2.length_eq
        simpa using this
      have hev : evict c.max (c.order ++ [k]) (put c.entries k v) =
          some (rest ++ [k], remove (put c.entries k v) a) := by
        rw [hord, List.cons_append]
        unfold evict
        rw [if_pos (by rw [hlen]; exact hfull)]
        cases hr : rest ++ [k] with
        | nil => simp at hr
        | cons x xs =>
          unfold evict
          rw [if_neg (by rw [hl2]; omega)]
      refine ⟨⟨c.max, rest ++ [k], remove (put c.entries k v) a⟩, by rw [hev]; rfl, ⟨hcap, ?_, hp2, ?_⟩, rfl, ?_, ?_⟩
      · rw [hord] at hnd; exact (List.nodup_cons.1 hnd).2
      · simp; omega
      · rw [hlet, hord]
        have : (a :: rest).length + 1 - c.max = 1 := by simp; omega
        rw [this]; rfl
      · intro k'
        simp only
        have hin : (find (remove (put c.entries k v) a) k').isSome ↔ k' ∈ rest ++ [k] := by
          rw [find_isSome]; exact hp2.mem_iff
        by_cases hk' : k' ∈ rest ++ [k]
        · rw [if_pos hk']
          have : k' ≠ a := fun e => hanot (e ▸ hk')
          unfold kget
          simp only
          rw [find_remove, if_neg this, find_put]
        · rw [if_neg hk']
          unfold kget
          simp only
          cases hf : find (remove (put c.entries k v) a) k' with
          | none => rfl
          | some x => exact absurd (hin.1 (by rw [hf]; rfl)) hk'
    · have hev : evict c.max (c.order ++ [k]) (put c.entries k v) = some (c.order ++ [k], put c.entries k v) := by
        cases hr : c.order ++ [k] with
        | nil => simp at hr
        | cons x xs =>
          unfold evict
          rw [if_neg (by rw [hlen]; exact hfull)]
      refine ⟨⟨c.max, c.order ++ [k], put c.entries k v⟩, by rw [hev]; rfl, ⟨h.cap, hnd, hperm, ?_⟩, rfl, ?_, ?_⟩
      · simp; omega
      · rw [hlet]
        have : c.order.length + 1 - c.max = 0 := by omega
        rw [this]; rfl
      · intro k'
        simp only
        have hin : (find (put c.entries k v) k').isSome ↔ k' ∈ c.order ++ [k] := by
          rw [find_isSome]; exact hperm.mem_iff
        by_cases hk' : k' ∈ c.order ++ [k]
        · rw [if_pos hk']
          unfold kget
          simp only
          rw [find_put]
        · rw [if_neg hk']
          unfold kget
          simp only
          cases hf : find (put c.entries k v) k' with
          | none => rfl
          | some x => exact absurd (hin.1 (by rw [hf]; rfl)) hk'

theorem mem_letIn {max : Nat} {l : List K} {k k' : K} (h : k' ∈ letIn max l k) : k' ∈ l ∨ k' = k := by
  unfold letIn at h
  split_ifs at h
  · exact .inl h
  · simpa using List.mem_of_mem_drop h

theorem mem_held {max : Nat} : ∀ (hist : List (K × V)) (k : K), k ∈ held max hist → k ∈ hist.map (·.1) := by
  intro hist
  induction hist using List.reverseRecOn with
  | nil => intro k h; cases h
  | append_singleton l p ih =>
    intro k h
    have e : held max (l ++ [p]) = letIn max (held max l) p.1 := by
      unfold held; rw [List.map_append, List.foldl_append]; rfl
    rw [e] at h
    rcases mem_letIn h with h | h
    · simpa using .inl (by simpa using ih k h)
    · subst h; simp

theorem lastValue_concat (hist : List (K × V)) (p : K × V) (k : K) :
    lastValue (hist ++ [p]) k = if k = p.1 then some p.2 else lastValue hist k := by
  unfold lastValue
  rw [List.reverse_append]
  simp only [List.reverse_cons, List.reverse_nil, List.nil_append, List.singleton_append]
  by_cases h : k = p.1
  · rw [if_pos h, List.find?_cons_of_pos (by simpa using h.symm)]; rfl
  · rw [if_neg h, List.find?_cons_of_neg (by simpa using fun h' => h h'.symm)]

/-- A history of insertions. -/
theorem fill_spec (n : Nat) (hist : List (K × V)) :
    ∃ c, fill n hist = some c ∧ Ok c ∧ c.max = max n 1 ∧ c.order = held (max n 1) hist ∧
      ∀ k, kget c k = answer (max n 1) hist k := by
  induction hist using List.reverseRecOn with
  | nil => exact ⟨new n, rfl, ok_new n, rfl, rfl, fun k => rfl⟩
  | append_singleton l p ih =>
    obtain ⟨c, hc, hok, hmax, hord, hget⟩ := ih
    obtain ⟨c', hi, hok', hmax', hord', hget'⟩ := insert_spec hok p.1 p.2
    refine ⟨c', ?_, hok', by rw [hmax', hmax], ?_, fun k => ?_⟩
    · unfold fill at hc ⊢
      rw [List.foldl_append, hc]
      exact hi
    · rw [hord', hmax, hord]
      unfold held
      rw [List.map_append, List.foldl_append]; rfl
    · have hh : c'.order = held (max n 1) (l ++ [p]) := by
        rw [hord', hmax, hord]
        unfold held
        rw [List.map_append, List.foldl_append]; rfl
      rw [hget', hh]
      unfold answer
      by_cases hm : k ∈ held (max n 1) (l ++ [p])
      · rw [if_pos hm, if_pos hm, lastValue_concat]
        by_cases hk : k = p.1
        · rw [if_pos hk, if_pos hk]
        · rw [if_neg hk, if_neg hk, hget]
          unfold answer
          rw [if_pos]
          rw [← hh, hord', hmax, hord] at hm
          rcases mem_letIn hm with h | h
          · exact h
          · exact absurd h hk
      · rw [if_neg hm, if_neg hm]

/-! ## Tasks -/

/-- Everything cached or returned is what the file says. -/
structure TaskInv (load : K → Option V) (s : St K V) (n : Nat) : Prop where
  ok : Ok s.cache
  max : s.cache.max = max n 1
  cached : ∀ k v, kget s.cache k = some v → load k = some v
  tasks : ∀ t k r, s.tasks t = some (.done k r) → r = load k

theorem step_inv {load : K → Option V} {s : St K V} {n : Nat} (h : TaskInv load s n) (o : Op K) :
    ∃ s', step load s o = some s' ∧ TaskInv load s' n := by
  cases o with
  | start t k =>
    simp only [step, lookup]
    cases hg : kget s.cache k with
    | some v =>
      refine ⟨_, rfl, h.ok, h.max, h.cached, fun t' k' r' ht => ?_⟩
      by_cases he : t' = t
      · subst he
        simp only [Function.update_self, Option.some.injEq, Slot.done.injEq] at ht
        obtain ⟨rfl, rfl⟩ := ht
        exact (h.cached k v hg).symm
      · simp only [Function.update_of_ne he] at ht
        exact h.tasks t' k' r' ht
    | none =>
      refine ⟨_, rfl, h.ok, h.max, h.cached, fun t' k' r' ht => ?_⟩
      by_cases he : t' = t
      · subst he
        simp at ht
      · simp only [Function.update_of_ne he] at ht
        exact h.tasks t' k' r' ht
  | finish t =>
    simp only [step]
    cases ht : s.tasks t with
    | none => exact ⟨s, rfl, h⟩
    | some sl =>
      cases sl with
      | done k r => exact ⟨s, rfl, h⟩
      | loading k =>
        simp only
        cases hl : load k with
        | none =>
          refine ⟨_, rfl, h.ok, h.max, h.cached, fun t' k' r' ht' => ?_⟩
          by_cases he : t' = t
          · subst he
            simp only [Function.update_self, Option.some.injEq, Slot.done.injEq] at ht'
            obtain ⟨rfl, rfl⟩ := ht'
            exact hl.symm
          · simp only [Function.update_of_ne he] at ht'
            exact h.tasks t' k' r' ht'
        | some v =>
          obtain ⟨c', hi, hok', hmax', _, hget'⟩ := insert_spec h.ok k v
          simp only [store, hi]
          refine ⟨_, rfl, hok', by rw [hmax', h.max], fun k' v' hk' => ?_, fun t' k' r' ht' => ?_⟩
          · simp only at hk'
            rw [hget'] at hk'
            split_ifs at hk' with h1 h2
            · cases hk'; rw [h2]; exact hl
            · exact h.cached k' v' hk'
          · by_cases he : t' = t
            · subst he
              simp only [Function.update_self, Option.some.injEq, Slot.done.injEq] at ht'
              obtain ⟨rfl, rfl⟩ := ht'
              exact hl.symm
            · simp only [Function.update_of_ne he] at ht'
              exact h.tasks t' k' r' ht'

theorem run_inv (load : K → Option V) (n : Nat) (ops : List (Op K)) :
    ∃ s, run load n ops = some s ∧ TaskInv load s n := by
  induction ops using List.reverseRecOn with
  | nil => exact ⟨_, rfl, ok_new n, rfl, fun k v h => (by cases h), fun t k r h => (by cases h)⟩
  | append_singleton l o ih =>
    obtain ⟨s, hs, hi⟩ := ih
    obtain ⟨s', hs', hi'⟩ := step_inv hi o
    refine ⟨s', ?_, hi'⟩
    unfold run at hs ⊢
    rw [List.foldl_append, hs]
    exact hs'

/-! ## Batched reads -/

/-- A batch that covers its items. -/
def BOk (b : Batch) : Prop :=
  (∀ p ∈ b.items, b.start ≤ p.2.start ∧ p.2.start ≤ p.2.stop ∧ p.2.stop ≤ b.stop) ∧
  (∃ p ∈ b.items, p.2.stop = b.stop)

theorem group_spec (gap : Nat) : ∀ (l : List (Nat × Range)) (cur : Batch), BOk cur →
    (∀ p ∈ l, cur.start ≤ p.2.start ∧ p.2.start ≤ p.2.stop) →
    l.Pairwise (fun a b => a.2.start ≤ b.2.start) →
    (∀ b ∈ group gap cur l, BOk b) ∧ (group gap cur l).flatMap (·.items) = cur.items ++ l
  | [], cur, hc, _, _ => ⟨by simpa [group] using hc, by simp [group]⟩
  | (i, r) :: rest, cur, hc, hl, hs => by
    have hr := hl (i, r) List.mem_cons_self
    simp only at hr
    have hs2 := List.pairwise_cons.1 hs
    simp only [group]
    split_ifs with hgap
    · have hc' : BOk (extend cur i r) := by
        refine ⟨?_, ?_⟩
        · intro p hp
          simp only [extend, List.mem_append, List.mem_singleton] at hp ⊢
          rcases hp with hp | rfl
          · have := hc.1 p hp
            exact ⟨this.1, this.2.1, le_trans this.2.2 (le_max_left _ _)⟩
          · exact ⟨hr.1, hr.2, le_max_right _ _⟩
        · simp only [extend]
          rcases le_total cur.stop r.stop with h | h
          · exact ⟨(i, r), by simp, by rw [max_eq_right h]⟩
          · obtain ⟨p, hp, he⟩ := hc.2
            exact ⟨p, by simp [hp], by rw [max_eq_left h, he]⟩
      obtain ⟨a, b⟩ := group_spec gap rest (extend cur i r) hc'
        (fun p hp => ⟨(hl p (List.mem_cons_of_mem _ hp)).1, (hl p (List.mem_cons_of_mem _ hp)).2⟩) hs2.2
      refine ⟨a, ?_⟩
      rw [b]; simp [extend]
    · have hc' : BOk ⟨r.start, r.stop, [(i, r)]⟩ := by
        refine ⟨?_, ⟨(i, r), by simp, rfl⟩⟩
        intro p hp
        simp only [List.mem_singleton] at hp
        subst hp
        exact ⟨le_refl _, hr.2, le_refl _⟩
      obtain ⟨a, b⟩ := group_spec gap rest ⟨r.start, r.stop, [(i, r)]⟩ hc'
        (fun p hp => ⟨hs2.1 p hp, (hl p (List.mem_cons_of_mem _ hp)).2⟩) hs2.2
      refine ⟨?_, ?_⟩
      · intro x hx
        rcases List.mem_cons.1 hx with rfl | hx
        · exact hc
        · exact a x hx
      · rw [List.flatMap_cons, b]; simp

theorem batches_spec (gap : Nat) (l : List (Nat × Range)) (hl : ∀ p ∈ l, p.2.start ≤ p.2.stop)
    (hs : l.Pairwise (fun a b => a.2.start ≤ b.2.start)) :
    (∀ b ∈ batches gap l, BOk b) ∧ (batches gap l).flatMap (·.items) = l := by
  cases l with
  | nil => simp [batches]
  | cons p rest =>
    obtain ⟨i, r⟩ := p
    have hs2 := List.pairwise_cons.1 hs
    have hr := hl (i, r) List.mem_cons_self
    simp only [batches]
    have := group_spec gap rest ⟨r.start, r.stop, [(i, r)]⟩
      ⟨by intro p hp; simp only [List.mem_singleton] at hp; subst hp; exact ⟨le_refl _, hr, le_refl _⟩,
       ⟨(i, r), by simp, rfl⟩⟩
      (fun p hp => ⟨hs2.1 p hp, hl p (List.mem_cons_of_mem _ hp)⟩) hs2.2
    simpa using this

/-- Cutting a range out of the bytes of its batch gives the bytes of the range. -/
theorem slice_slice (file : List UInt8) (a b s t : Nat) (h1 : a ≤ s) (h2 : s ≤ t) (h3 : t ≤ b) :
    ((((file.drop a).take (b - a)).drop (s - a)).take (t - s)) = (file.drop s).take (t - s) := by
  rw [List.drop_take, List.take_take, List.drop_drop]
  congr 1
  · omega
  · congr 1; omega

/-- What the results are after some items have been filled in. -/
theorem cut_spec (file : List UInt8) (b : Batch) (hb : BOk b) (res : List (Option (List UInt8))) :
    cut b ((file.drop b.start).take (b.stop - b.start)) res =
      b.items.foldl (fun res p => res.set p.1 (some ((file.drop p.2.start).take (p.2.stop - p.2.start)))) res := by
  unfold cut
  obtain ⟨h1, _⟩ := hb
  revert h1
  generalize b.items = items
  intro h1
  induction items generalizing res with
  | nil => rfl
  | cons p r ih =>
    have hp := h1 p List.mem_cons_self
    rw [List.foldl_cons, List.foldl_cons, slice_slice file b.start b.stop _ _ hp.1 hp.2.1 hp.2.2]
    exact ih _ (fun q hq => h1 q (List.mem_cons_of_mem _ hq))

theorem readBatches_spec (file : List UInt8) : ∀ (bs : List Batch) (res : List (Option (List UInt8))), (∀ b ∈ bs, BOk b) →
    readBatches file bs res =
      if ∀ p ∈ bs.flatMap (·.items), p.2.stop ≤ file.length then
        some ((bs.flatMap (·.items)).foldl
          (fun res p => res.set p.1 (some ((file.drop p.2.start).take (p.2.stop - p.2.start)))) res)
      else none
  | [], res, _ => by simp [readBatches]
  | b :: bs, res, h => by
    have hb := h b List.mem_cons_self
    unfold readBatches getBytes
    simp only
    by_cases hlen : b.stop ≤ file.length
    · rw [if_pos hlen]
      simp only
      rw [readBatches_spec file bs _ (fun x hx => h x (List.mem_cons_of_mem _ hx)), cut_spec file b hb]
      have hall : (∀ p ∈ (b :: bs).flatMap (·.items), p.2.stop ≤ file.length) ↔
          ∀ p ∈ bs.flatMap (·.items), p.2.stop ≤ file.length := by
        rw [List.flatMap_cons]
        constructor
        · intro ha p hp; exact ha p (List.mem_append_right _ hp)
        · intro ha p hp
          rcases List.mem_append.1 hp with hp | hp
          · exact le_trans (hb.1 p hp).2.2 hlen
          · exact ha p hp
      rw [if_congr hall rfl rfl, List.flatMap_cons, List.foldl_append]
    · rw [if_neg hlen]
      simp only
      rw [if_neg]
      intro ha
      obtain ⟨p, hp, he⟩ := hb.2
      have := ha p (by rw [List.flatMap_cons]; exact List.mem_append_left _ hp)
      omega

/-- Filling in results at distinct places. -/
theorem fill_places {α : Type} (items : List (Nat × α)) (hn : (items.map (·.1)).Nodup) :
    ∀ (res : List (Option α)), (∀ p ∈ items, p.1 < res.length) → ∀ j x,
      (items.foldl (fun res p => res.set p.1 (some p.2)) res)[j]? = some (some x) ↔
        ((j, x) ∈ items ∨ (j ∉ items.map (·.1) ∧ res[j]? = some (some x))) := by
  induction items with
  | nil => intro res _ j x; simp
  | cons p r ih =>
    intro res hlt j x
    rw [List.map_cons, List.nodup_cons] at hn
    rw [List.foldl_cons, ih hn.2 _ (fun q hq => by
      rw [List.length_set]; exact hlt q (List.mem_cons_of_mem _ hq))]
    have hp := hlt p List.mem_cons_self
    simp only [List.mem_cons, List.map_cons, not_or, List.getElem?_set]
    by_cases hj : p.1 = j
    · subst hj
      simp only [hp, if_true, ne_eq, not_true_eq_false, false_and, or_false]
      constructor
      · rintro (h | ⟨_, h⟩)
        · exact .inr h
        · left; cases h; rfl
      · rintro (h | h)
        · right; exact ⟨hn.1, by rw [← h]⟩
        · exact .inl h
    · rw [if_neg hj]
      constructor
      · rintro (h | ⟨h1, h2⟩)
        · exact .inl (.inr h)
        · exact .inr ⟨⟨fun e => hj e.symm, h1⟩, h2⟩
      · rintro ((h | h) | ⟨⟨_, h1⟩, h2⟩)
        · exact absurd (congrArg Prod.fst h).symm hj
        · exact .inl h
        · exact .inr ⟨h1, h2⟩

theorem foldl_set_length {α : Type} : ∀ (items : List (Nat × α)) (res : List (Option α)),
    (items.foldl (fun res p => res.set p.1 (some p.2)) res).length = res.length
  | [], _ => rfl
  | p :: r, res => by rw [List.foldl_cons, foldl_set_length r, List.length_set]

theorem collectAll_map : ∀ (l : List (List UInt8)), collectAll (l.map some) = some l
  | [] => rfl
  | x :: r => by simp [collectAll, collectAll_map r]

/-- Batched reads answer like single reads. -/
theorem getByteRanges_spec (gap : Nat) (file : List UInt8) (ranges : List Range)
    (hr : ∀ r ∈ ranges, r.start ≤ r.stop) :
    getByteRanges gap file ranges = ranges.mapM (getBytes file) := by
  have hmap : ranges.mapM (getBytes file) =
      if ∀ r ∈ ranges, r.stop ≤ file.length then
        some (ranges.map (fun r => (file.drop r.start).take (r.stop - r.start))) else none := by
    clear hr
    induction ranges with
    | nil => simp
    | cons r rest ih =>
      rw [List.mapM_cons, ih]
      unfold getBytes
      by_cases h1 : r.stop ≤ file.length
      · rw [if_pos h1]
        by_cases h2 : ∀ r ∈ rest, r.stop ≤ file.length
        · rw [if_pos h2, if_pos (by simpa using ⟨h1, h2⟩)]; rfl
        · rw [if_neg h2, if_neg (by simp only [List.mem_cons, forall_eq_or_imp, not_and]; exact fun _ => h2)]; rfl
      · have h3 : ¬ ∀ x ∈ r :: rest, x.stop ≤ file.length := fun h => h1 (h r List.mem_cons_self)
        rw [if_neg h1, if_neg h3]; rfl
  rw [hmap]
  unfold getByteRanges
  by_cases he : ranges = []
  · subst he; simp
  rw [if_neg he]
  have hperm : ((ranges.zipIdx.map (fun p => (p.2, p.1))).insertionSort (fun a b => a.2.start ≤ b.2.start)).Perm
      (ranges.zipIdx.map (fun p => (p.2, p.1))) := List.perm_insertionSort _ _
  have hsort : ((ranges.zipIdx.map (fun p => (p.2, p.1))).insertionSort (fun a b => a.2.start ≤ b.2.start)).Pairwise
      (fun a b => a.2.start ≤ b.2.start) := by
    have : Std.Total (fun (a b : Nat × Range) => a.2.start ≤ b.2.start) := ⟨fun a b => le_total _ _⟩
    have : IsTrans (Nat × Range) (fun (a b : Nat × Range) => a.2.start ≤ b.2.start) := ⟨fun a b c h h' => le_trans h h'⟩
    exact List.pairwise_insertionSort _ _
  generalize ((ranges.zipIdx.map (fun p => (p.2, p.1))).insertionSort (fun a b => a.2.start ≤ b.2.start)) = idx at hperm hsort
  have hmem : ∀ i r, (i, r) ∈ idx ↔ ranges[i]? = some r := by
    intro i r
    rw [hperm.mem_iff, List.mem_map]
    constructor
    · rintro ⟨⟨x, j⟩, hx, e⟩
      cases e
      exact List.mem_zipIdx_iff_getElem?.1 hx
    · intro h
      exact ⟨(r, i), List.mem_zipIdx_iff_getElem?.2 h, rfl⟩
  have hall : ∀ p ∈ idx, p.2.start ≤ p.2.stop := by
    intro p hp
    exact hr _ (List.mem_of_getElem? ((hmem p.1 p.2).1 hp))
  obtain ⟨hb, hflat⟩ := batches_spec gap idx hall hsort
  rw [readBatches_spec file _ _ hb, hflat]
  have hcond : (∀ p ∈ idx, p.2.stop ≤ file.length) ↔ ∀ r ∈ ranges, r.stop ≤ file.length := by
    constructor
    · intro h r hrr
      obtain ⟨i, hi⟩ := List.mem_iff_getElem?.1 hrr
      exact h (i, r) ((hmem i r).2 hi)
    · intro h p hp
      exact h _ (List.mem_of_getElem? ((hmem p.1 p.2).1 hp))
  rw [if_congr hcond rfl rfl]
  by_cases hc : ∀ r ∈ ranges, r.stop ≤ file.length
  · rw [if_pos hc, if_pos hc]
    simp only [Option.bind_some]
    have hnd : (idx.map (·.1)).Nodup := by
      have h1 : (idx.map (·.1)).Perm ((ranges.zipIdx.map (fun p => (p.2, p.1))).map (·.1)) := hperm.map _
      rw [h1.nodup_iff, List.map_map]
      have : (Prod.fst ∘ fun (p : Range × Nat) => (p.2, p.1)) = Prod.snd := rfl
      rw [this, List.zipIdx_map_snd]
      exact List.nodup_range' 
    let g : Nat × Range → Nat × List UInt8 := fun p => (p.1, (file.drop p.2.start).take (p.2.stop - p.2.start))
    have hfold : idx.foldl (fun res p => res.set p.1 (some ((file.drop p.2.start).take (p.2.stop - p.2.start))))
        (List.replicate ranges.length none) =
        (idx.map g).foldl (fun res p => res.set p.1 (some p.2)) (List.replicate ranges.length none) := by
      rw [List.foldl_map]
    rw [hfold]
    have hplaces := fill_places (idx.map g) (by rw [List.map_map]; exact hnd) (List.replicate ranges.length none) (by
      intro p hp
      obtain ⟨q, hq, rfl⟩ := List.mem_map.1 hp
      have := (hmem q.1 q.2).1 hq
      simp only [g, List.length_replicate]
      exact (List.getElem?_eq_some_iff.1 this).1)
    have heq : (idx.map g).foldl (fun res p => res.set p.1 (some p.2)) (List.replicate ranges.length none) =
        (ranges.map (fun r => (file.drop r.start).take (r.stop - r.start))).map some := by
      apply List.ext_getElem?
      intro j
      by_cases hj : j < ranges.length
      · have hrj : ranges[j]? = some ranges[j] := List.getElem?_eq_getElem hj
        rw [List.map_map, List.getElem?_map, hrj]
        simp only [Option.map_some, Function.comp]
        rw [hplaces]
        left
        exact List.mem_map.2 ⟨(j, ranges[j]), (hmem _ _).2 hrj, rfl⟩
      · rw [List.getElem?_eq_none (by rw [foldl_set_length]; simp; omega), List.getElem?_eq_none (by simp; omega)]
    rw [heq, collectAll_map]
  · rw [if_neg hc, if_neg hc]; rfl

/-! ## Bloom filters -/

theorem split_spec (c : Cache K V) (range : K → Option Range) : ∀ (req : List K),
    (∀ k v, find (split c range req).1 k = some v ↔ (k ∈ req ∧ kget c k = some v)) ∧
    (∀ k r, (k, r) ∈ (split c range req).2 ↔ (k ∈ req ∧ kget c k = none ∧ range k = some r))
  | [] => ⟨by simp [split, find], by simp [split]⟩
  | a :: req => by
    obtain ⟨h1, h2⟩ := split_spec c range req
    cases hg : kget c a with
    | some v =>
      simp only [split, hg]
      refine ⟨fun k w => ?_, fun k r => ?_⟩
      · rw [find_put, List.mem_cons]
        by_cases hk : k = a
        · subst hk; rw [if_pos rfl, hg]; simp
        · rw [if_neg hk, h1]; simp [hk]
      · rw [h2, List.mem_cons]
        constructor
        · rintro ⟨x, y, z⟩; exact ⟨.inr x, y, z⟩
        · rintro ⟨rfl | x, y, z⟩
          · rw [hg] at y; cases y
          · exact ⟨x, y, z⟩
    | none =>
      cases hr : range a with
      | some r0 =>
        simp only [split, hg, hr]
        refine ⟨fun k w => ?_, fun k r => ?_⟩
        · rw [h1, List.mem_cons]
          constructor
          · rintro ⟨x, y⟩; exact ⟨.inr x, y⟩
          · rintro ⟨rfl | x, y⟩
            · rw [hg] at y; cases y
            · exact ⟨x, y⟩
        · rw [List.mem_cons, h2, List.mem_cons]
          constructor
          · rintro (h | ⟨x, y, z⟩)
            · cases h; exact ⟨.inl rfl, hg, hr⟩
            · exact ⟨.inr x, y, z⟩
          · rintro ⟨rfl | x, y, z⟩
            · rw [hr] at z; cases z; exact .inl rfl
            · exact .inr ⟨x, y, z⟩
      | none =>
        simp only [split, hg, hr]
        refine ⟨fun k w => ?_, fun k r => ?_⟩
        · rw [h1, List.mem_cons]
          constructor
          · rintro ⟨x, y⟩; exact ⟨.inr x, y⟩
          · rintro ⟨rfl | x, y⟩
            · rw [hg] at y; cases y
            · exact ⟨x, y⟩
        · rw [h2, List.mem_cons]
          constructor
          · rintro ⟨x, y, z⟩; exact ⟨.inr x, y, z⟩
          · rintro ⟨rfl | x, y, z⟩
            · rw [hr] at z; cases z
            · exact ⟨x, y, z⟩

/-- Taking in what was read. `f` is what the file says about the keys read. -/
theorem absorb_spec (parse : List UInt8 → Option V) (f : K → Option V) : ∀ (l : List (K × List UInt8)) (c : Cache K V)
    (res : List (K × V)), Ok c → (∀ p ∈ l, parse p.2 = f p.1) → (∀ k v, kget c k = some v → f k = some v) →
    ∃ c' res', absorb parse c res l = some (c', res') ∧ Ok c' ∧ c'.max = c.max ∧
      (∀ k v, kget c' k = some v → f k = some v) ∧
      ∀ k, find res' k = if k ∈ l.map (·.1) ∧ (f k).isSome then f k else find res k
  | [], c, res, hok, _, hc => ⟨c, res, rfl, hok, rfl, hc, by simp⟩
  | (a, b) :: l, c, res, hok, hl, hc => by
    have ha := hl (a, b) List.mem_cons_self
    simp only at ha
    have hl' : ∀ p ∈ l, parse p.2 = f p.1 := fun p hp => hl p (List.mem_cons_of_mem _ hp)
    unfold absorb
    cases hp : parse b with
    | none =>
      simp only
      obtain ⟨c', res', e, h1, h2, h3, h4⟩ := absorb_spec parse f l c res hok hl' hc
      refine ⟨c', res', e, h1, h2, h3, fun k => ?_⟩
      rw [h4 k]
      by_cases hk : k = a
      · subst hk
        rw [← ha, hp]; simp
      · simp only [List.map_cons, List.mem_cons, hk, false_or, if_false]
    | some v =>
      simp only
      obtain ⟨c1, hi, hok1, hmax1, _, hget1⟩ := insert_spec hok a v
      rw [hi]
      simp only
      have hfa : f a = some v := by rw [← ha, hp]
      obtain ⟨c', res', e, h1, h2, h3, h4⟩ := absorb_spec parse f l c1 (put res a v) hok1 hl' (by
        intro k w hk
        rw [hget1] at hk
        split_ifs at hk with g1 g2
        · cases hk; rw [g2]; exact hfa
        · exact hc k w hk)
      refine ⟨c', res', e, h1, by rw [h2, hmax1], h3, fun k => ?_⟩
      rw [h4 k, find_put]
      by_cases hk : k = a
      · subst hk
        simp [hfa]
      · simp only [List.map_cons, List.mem_cons, hk, false_or, if_false]

end Tonbo.Lemmas.Cache
