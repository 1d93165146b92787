import Verif.Lemmas.Cache

/-!
# C50: the caches; C56: batched reads
-/

namespace Tonbo.Props.C50
open Tonbo.Model.Cache Tonbo.Spec.CacheView Tonbo.Lemmas.Cache

variable {K V : Type} [DecidableEq K]

/-- **C50.** After any insertions a cache holds at most its capacity (at least one), and a lookup answers as
specified: the value inserted last for exactly that key, if the key is among those a first-in first-out
queue would still hold. An insertion always ends. -/
theorem caches_answer (n : Nat) (history : List (K × V)) :
    ∃ c, fill n history = some c ∧ c.entries.length ≤ max n 1 ∧
      ∀ k, kget c k = answer (max n 1) history k := by
  obtain ⟨c, h1, hok, hm, _, h2⟩ := fill_spec n history
  exact ⟨c, h1, by rw [len_eq hok, ← hm]; exact hok.size, h2⟩

/-- **C50.** What was inserted last is found, even in a cache made with capacity zero. -/
theorem the_newest_is_found (n : Nat) (history : List (K × V)) (k : K) (v : V) :
    ∃ c, fill n (history ++ [(k, v)]) = some c ∧ kget c k = some v := by
  obtain ⟨c, h1, _, _, _, h2⟩ := fill_spec n (history ++ [(k, v)])
  refine ⟨c, h1, ?_⟩
  rw [h2]
  unfold answer
  rw [lastValue_concat, if_pos rfl, if_pos]
  have e : held (max n 1) (history ++ [(k, v)]) = letIn (max n 1) (held (max n 1) history) k := by
    unfold held; rw [List.map_append, List.foldl_append]; rfl
  rw [e]
  unfold letIn
  split_ifs with hm
  · exact hm
  · rw [List.mem_drop_iff_getElem]
    have hl : ((held (max n 1) history ++ [k]).length - max n 1) ≤ (held (max n 1) history).length := by
      have := le_max_right n 1
      simp
    refine ⟨(held (max n 1) history).length - ((held (max n 1) history ++ [k]).length - max n 1), by simp at hl ⊢, ?_⟩
    have : (held (max n 1) history ++ [k]).length - max n 1 +
        ((held (max n 1) history).length - ((held (max n 1) history ++ [k]).length - max n 1)) =
        (held (max n 1) history).length := by omega
    simp only [this]
    simp

/-- **C50.** However tasks that look up the same or other files interleave, each gets exactly what the file
says (or the error of reading it), and the cache stays within its capacity. Files do not change: `load` is a
function. -/
theorem tasks_get_what_the_file_says (load : K → Option V) (n : Nat) (ops : List (Op K)) :
    ∃ s, run load n ops = some s ∧ s.cache.entries.length ≤ max n 1 ∧
      (∀ t k r, s.tasks t = some (.done k r) → r = load k) ∧
      (∀ k v, kget s.cache k = some v → load k = some v) := by
  obtain ⟨s, h1, hi⟩ := run_inv load n ops
  exact ⟨s, h1, by rw [len_eq hi.ok, ← hi.max]; exact hi.ok.size, hi.tasks, hi.cached⟩

/-- Three keys in a cache for two: the first one leaves, an update keeps its place in the queue. -/
example : answer 2 [(1, "a"), (2, "b"), (1, "c"), (3, "d")] 1 = none ∧
    answer 2 [(1, "a"), (2, "b"), (1, "c"), (3, "d")] 2 = some "b" ∧
    answer 2 [(1, "a"), (2, "b"), (1, "c")] 1 = some "c" := by decide

/-- Two tasks load the same file at the same time; one more finds it in the cache. -/
example : (run (fun k : Nat => if k = 5 then none else some (k + 10)) 1
    [.start 1 3, .start 2 3, .finish 2, .finish 1, .start 3 3, .start 4 5, .finish 4]).map
      (fun s => (s.cache.entries, s.cache.order,
        [1, 2, 3, 4].map (fun t => match s.tasks t with | some (.done k v) => some (k, v) | _ => none))) =
    some ([(3, 13)], [3], [some (3, some 13), some (3, some 13), some (3, some 13), some (5, none)]) := rfl

/-- **C56.** Reading byte ranges together, with neighbouring ones merged into one read, gives for every list
of ranges, every file and every gap exactly what reading them one by one gives, in the order asked for; it
fails exactly if one of the single reads fails. -/
theorem ranges_read_together (gap : Nat) (file : List UInt8) (ranges : List Range)
    (h : ∀ r ∈ ranges, r.start ≤ r.stop) :
    getByteRanges gap file ranges = ranges.mapM (getBytes file) :=
  getByteRanges_spec gap file ranges h

/-- Overlapping, unordered, empty and repeated ranges. -/
example : getByteRanges 1 [10, 11, 12, 13, 14, 15, 16, 17, 18, 19] [⟨7, 9⟩, ⟨0, 4⟩, ⟨2, 3⟩, ⟨5, 5⟩, ⟨2, 3⟩] =
    some [[17, 18], [10, 11, 12, 13], [12], [], [12]] ∧
    batches 1 [(1, ⟨0, 4⟩), (2, ⟨2, 3⟩), (3, ⟨5, 5⟩), (0, ⟨7, 9⟩)] =
      [⟨0, 5, [(1, ⟨0, 4⟩), (2, ⟨2, 3⟩), (3, ⟨5, 5⟩)]⟩, ⟨7, 9, [(0, ⟨7, 9⟩)]⟩] := by decide

/-- **C56.** The bloom filters a batch of requests returns are those in the file, never another one's; and if
the parts of the file asked for can be read, exactly the filters that exist are returned. So a row group is
never skipped because of a filter that is not its own. -/
theorem filters_are_the_files (gap : Nat) (file : List UInt8) (range : K → Option Range)
    (parse : List UInt8 → Option V) (c : Cache K V) (hok : Ok c)
    (hc : ∀ k v, kget c k = some v → readFilter file range parse k = some v)
    (hr : ∀ k r, range k = some r → r.start ≤ r.stop) (requests : List K) :
    ∃ c' res, bloomBatch gap file range parse c requests = some (c', res) ∧ Ok c' ∧ c'.max = c.max ∧
      (∀ k v, kget c' k = some v → readFilter file range parse k = some v) ∧
      (∀ k v, find res k = some v → k ∈ requests ∧ readFilter file range parse k = some v) ∧
      ((∀ k ∈ requests, ∀ r, range k = some r → r.stop ≤ file.length) →
        ∀ k ∈ requests, find res k = readFilter file range parse k) := by
  obtain ⟨s1, s2⟩ := split_spec c range requests
  unfold bloomBatch
  have hres : ∀ k v, find (split c range requests).1 k = some v → k ∈ requests ∧ readFilter file range parse k = some v :=
    fun k v h => ⟨((s1 k v).1 h).1, hc k v ((s1 k v).1 h).2⟩
  have hcached : ∀ k ∈ requests, ∀ v, kget c k = some v → find (split c range requests).1 k = readFilter file range parse k := by
    intro k hk v hv
    rw [hc k v hv]
    exact (s1 k v).2 ⟨hk, hv⟩
  have hnone : ∀ k, kget c k = none → find (split c range requests).1 k = none := by
    intro k hk
    cases hf : find (split c range requests).1 k with
    | none => rfl
    | some v => rw [((s1 k v).1 hf).2] at hk; cases hk
  by_cases he : (split c range requests).2 = []
  · rw [if_pos he]
    refine ⟨c, _, rfl, hok, rfl, hc, hres, fun _ k hk => ?_⟩
    cases hg : kget c k with
    | some v => exact hcached k hk v hg
    | none =>
      rw [hnone k hg]
      cases hra : range k with
      | none => unfold readFilter; rw [hra]
      | some r =>
        have := (s2 k r).2 ⟨hk, hg, hra⟩
        rw [he] at this; cases this
  · rw [if_neg he]
    have hstart : ∀ r ∈ (split c range requests).2.map (·.2), r.start ≤ r.stop := by
      intro r hrr
      obtain ⟨p, hp, rfl⟩ := List.mem_map.1 hrr
      exact hr _ _ ((s2 p.1 p.2).1 hp).2.2
    rw [ranges_read_together gap file _ hstart]
    cases hm : ((split c range requests).2.map (·.2)).mapM (getBytes file) with
    | none =>
      refine ⟨c, _, rfl, hok, rfl, hc, hres, fun hall k hk => ?_⟩
      exfalso
      have : ∀ (l : List Range), (∀ r ∈ l, r.stop ≤ file.length) → ∃ x, l.mapM (getBytes file) = some x := by
        intro l
        induction l with
        | nil => intro _; exact ⟨[], rfl⟩
        | cons a l ih =>
          intro ha
          obtain ⟨x, hx⟩ := ih (fun r hrr => ha r (List.mem_cons_of_mem _ hrr))
          rw [List.mapM_cons, hx]
          unfold getBytes
          rw [if_pos (ha a List.mem_cons_self)]
          exact ⟨_, rfl⟩
      obtain ⟨x, hx⟩ := this ((split c range requests).2.map (·.2)) (fun r hrr => by
        obtain ⟨p, hp, rfl⟩ := List.mem_map.1 hrr
        have := (s2 p.1 p.2).1 hp
        exact hall p.1 this.1 p.2 this.2.2)
      rw [hx] at hm; cases hm
    | some bytes =>
      simp only
      -- each blob is the one of its request
      have hzip : ∀ (l : List (K × Range)) (bs : List (List UInt8)), (l.map (·.2)).mapM (getBytes file) = some bs →
          (∀ p ∈ (l.map (·.1)).zip bs, ∃ r, (p.1, r) ∈ l ∧ getBytes file r = some p.2) ∧
          ((l.map (·.1)).zip bs).map (·.1) = l.map (·.1) := by
        intro l
        induction l with
        | nil => intro bs h; simp
        | cons a l ih =>
          intro bs h
          rw [List.map_cons, List.mapM_cons] at h
          cases h1 : getBytes file a.2 with
          | none => rw [h1] at h; cases h
          | some b =>
            rw [h1] at h
            cases h2 : (l.map (·.2)).mapM (getBytes file) with
            | none => rw [h2] at h; cases h
            | some bs' =>
              rw [h2] at h
              cases h
              obtain ⟨g1, g2⟩ := ih bs' h2
              refine ⟨?_, ?_⟩
              · intro p hp
                rw [List.map_cons, List.zip_cons_cons] at hp
                rcases List.mem_cons.1 hp with rfl | hp
                · exact ⟨a.2, List.mem_cons_self, h1⟩
                · obtain ⟨r, x, y⟩ := g1 p hp
                  exact ⟨r, List.mem_cons_of_mem _ x, y⟩
              · rw [List.map_cons, List.zip_cons_cons, List.map_cons, g2]
      obtain ⟨z1, z2⟩ := hzip _ bytes hm
      obtain ⟨c', res', e, h1, h2, h3, h4⟩ := absorb_spec parse (readFilter file range parse)
        (((split c range requests).2.map (·.1)).zip bytes) c (split c range requests).1 hok (by
          intro p hp
          obtain ⟨r, hr1, hr2⟩ := z1 p hp
          unfold readFilter
          rw [((s2 _ _).1 hr1).2.2]
          simp only
          rw [hr2]) hc
      have hmiss : ∀ k, k ∈ (((split c range requests).2.map (·.1)).zip bytes).map (·.1) → k ∈ requests := by
        intro k hk
        rw [z2] at hk
        obtain ⟨p, hp, rfl⟩ := List.mem_map.1 hk
        exact ((s2 p.1 p.2).1 hp).1
      refine ⟨c', res', e, h1, h2, h3, fun k v hv => ?_, fun _ k hk => ?_⟩
      · rw [h4] at hv
        split_ifs at hv with hcnd
        · exact ⟨hmiss k hcnd.1, hv⟩
        · exact hres k v hv
      · rw [h4]
        split_ifs with hcnd
        · rfl
        · cases hg : kget c k with
          | some v => exact hcached k hk v hg
          | none =>
            rw [hnone k hg]
            cases hrf : readFilter file range parse k with
            | none => rfl
            | some w =>
              exfalso
              apply hcnd
              refine ⟨?_, by rw [hrf]; rfl⟩
              rw [z2]
              cases hra : range k with
              | none => unfold readFilter at hrf; rw [hra] at hrf; cases hrf
              | some r => exact List.mem_map.2 ⟨(k, r), (s2 k r).2 ⟨hk, hg, hra⟩, rfl⟩

/-- A provider with one cached filter and one in the file. -/
example : ((bloomBatch 64 [1, 2, 3, 4] (fun k : Nat => if k = 0 then some ⟨0, 2⟩ else if k = 1 then some ⟨2, 4⟩ else none)
    (fun b => b.head?) ⟨2, [0], [(0, (1 : UInt8))]⟩ [0, 1, 7]).map (fun p => (p.1.order, [0, 1, 7].map (find p.2)))) =
    some ([0, 1], [some 1, some 3, none]) := by decide

end Tonbo.Props.C50
