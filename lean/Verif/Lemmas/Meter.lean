import Verif.Spec.MeterView
import Verif.Lemmas.LsmBase
import Verif.Lemmas.Conflict
import Verif.Props.C48_C49_Guards
import Mathlib.Algebra.BigOperators.Group.Finset.Basic

/-!
# The counters of the memtable
-/

namespace Tonbo.Lemmas.Meter
open Tonbo.Spec Tonbo.Model Tonbo.Model.Mem Tonbo.Model.Policy Tonbo.Model.Meter
open Tonbo.Lemmas.Mem Tonbo.Lemmas.Lsm

variable {K R : Type} [LinearOrder K]

/-- The keys of an index. -/
def keysOf (ix : List (KT K × Loc)) : Finset K := (ix.map (·.1.key)).toFinset

/-- The counters say how many keys there are and how large they are. -/
structure Met (size : K → Nat) (ix : List (KT K × Loc)) (m : Metrics) : Prop where
  entries : m.entries = (keysOf ix).card
  bytes : m.keyBytes = ∑ k ∈ keysOf ix, size k
  inserts : m.inserts = m.entries + m.replaces

theorem met_nil (size : K → Nat) : Met size [] Metrics.new :=
  ⟨by simp [keysOf, Metrics.new], by simp [keysOf, Metrics.new], by simp [Metrics.new]⟩

theorem mem_keysOf {ix : List (KT K × Loc)} {k : K} : k ∈ keysOf ix ↔ ∃ e ∈ ix, e.1.key = k := by
  simp [keysOf]

theorem hasKey_iff {ix : List (KT K × Loc)} (ht : ∀ e ∈ ix, e.1.ts ≤ tsMax) (k : K) :
    hasKey ix k = true ↔ k ∈ keysOf ix := by
  rw [mem_keysOf]
  simp only [hasKey, List.any_eq_true, window]
  exact ⟨fun ⟨e, h1, h2⟩ => ⟨e, h1, h2.1⟩, fun ⟨e, h1, h2⟩ => ⟨e, h1, h2, ht e h1⟩⟩

theorem keysOf_insert {ix : List (KT K × Loc)} (hs : SMap.Sorted ix) (k : K) (t : Nat) (l : Loc) :
    keysOf (SMap.insert ⟨k, t⟩ l ix) = insert k (keysOf ix) := by
  ext x
  simp only [Finset.mem_insert, mem_keysOf]
  constructor
  · rintro ⟨e, he, rfl⟩
    rcases (SMap.mem_insert hs).1 he with rfl | ⟨h, _⟩
    · exact .inl rfl
    · exact .inr ⟨_, h, rfl⟩
  · rintro (rfl | ⟨⟨a, b⟩, he, rfl⟩)
    · exact ⟨(⟨x, t⟩, l), (SMap.mem_insert hs).2 (.inl rfl), rfl⟩
    · by_cases h : a = ⟨k, t⟩
      · subst h
        exact ⟨(⟨k, t⟩, l), (SMap.mem_insert hs).2 (.inl rfl), rfl⟩
      · exact ⟨(a, b), (SMap.mem_insert hs).2 (.inr ⟨he, h⟩), rfl⟩

theorem tsOk_insert {ix : List (KT K × Loc)} (hs : SMap.Sorted ix) (ht : ∀ e ∈ ix, e.1.ts ≤ tsMax)
    {k : K} {t : Nat} (h : t ≤ tsMax) (l : Loc) :
    ∀ e ∈ SMap.insert ⟨k, t⟩ l ix, e.1.ts ≤ tsMax := by
  intro e he
  rcases (SMap.mem_insert hs).1 he with rfl | ⟨h', _⟩
  · exact h
  · exact ht _ h'

theorem met_record {size : K → Nat} {ix : List (KT K × Loc)} {m : Metrics} (hs : SMap.Sorted ix)
    (ht : ∀ e ∈ ix, e.1.ts ≤ tsMax) (hm : Met size ix m) (k : K) (t : Nat) (l : Loc) :
    Met size (SMap.insert ⟨k, t⟩ l ix) (m.recordWrite (hasKey ix k) (size k)) := by
  have hk := keysOf_insert hs k t l
  by_cases h : k ∈ keysOf ix
  · have e : hasKey ix k = true := (hasKey_iff ht k).2 h
    have hi : insert k (keysOf ix) = keysOf ix := Finset.insert_eq_self.2 h
    refine ⟨?_, ?_, ?_⟩
    · rw [hk, hi, ← hm.entries, e]; rfl
    · rw [hk, hi, ← hm.bytes, e]; rfl
    · have := hm.inserts
      rw [e]; simp only [Metrics.recordWrite, if_true]; omega
  · have e : hasKey ix k = false := by
      rw [Bool.eq_false_iff]; exact fun h' => h ((hasKey_iff ht k).1 h')
    refine ⟨?_, ?_, ?_⟩
    · rw [hk, Finset.card_insert_of_notMem h, ← hm.entries, e]; rfl
    · rw [hk, Finset.sum_insert h, ← hm.bytes, e]; simp [Metrics.recordWrite, Nat.add_comm]
    · have := hm.inserts
      rw [e]; simp only [Metrics.recordWrite, Bool.false_eq_true, if_false]; omega

theorem met_rows {size : K → Nat} {mk : Nat → Loc} :
    ∀ (rows : List (K × Nat)) (i : Nat) (ix : List (KT K × Loc)) (m : Metrics), SMap.Sorted ix →
      (∀ e ∈ ix, e.1.ts ≤ tsMax) → (∀ r ∈ rows, r.2 ≤ tsMax) → Met size ix m →
      Met size (indexRows mk i rows ix) (meterRows size mk i rows ix m) ∧
        (∀ e ∈ indexRows mk i rows ix, e.1.ts ≤ tsMax)
  | [], _, _, _, _, ht, _, hm => ⟨hm, ht⟩
  | (k, t) :: rest, i, ix, m, hs, ht, hr, hm => by
    simp only [indexRows, meterRows]
    exact met_rows rest (i + 1) _ _ (SMap.sorted_insert hs)
      (tsOk_insert hs ht (hr (k, t) List.mem_cons_self) _)
      (fun r h => hr r (List.mem_cons_of_mem _ h)) (met_record hs ht hm k t _)

/-- Table and counters fit. -/
structure Good (ext : R → Option K) (size : K → Nat) (s : Inner K R) (m : Metrics) : Prop where
  rep : ∃ log, Rep ext s log
  ts : ∀ e ∈ s.index, e.1.ts ≤ tsMax
  met : Met size s.index m

/-- The timestamps of a call are 64 bit numbers. -/
def OpTs : Mem.Op K R → Prop
  | .put rows => ∀ r ∈ rows, r.2 ≤ tsMax
  | .del keys => ∀ r ∈ keys, r.2 ≤ tsMax
  | .freeze => True

theorem zip_ts {α : Type} {ks : List α} {ts : List Nat} (h : ∀ t ∈ ts, t ≤ tsMax) :
    ∀ r ∈ ks.zip ts, r.2 ≤ tsMax := fun r hr => h _ (List.of_mem_zip (a := r.1) (b := r.2) hr).2

/-- The index and the counters after an attempt to insert. -/
theorem batch_met {ext : R → Option K} {size : K → Nat} {s : Inner K R} {m : Metrics} {rows : List R}
    {ts : List Nat} (hs : SMap.Sorted s.index) (hi : ∀ e ∈ s.index, e.1.ts ≤ tsMax)
    (hm : Met size s.index m) (ht : ∀ t ∈ ts, t ≤ tsMax) :
    (∀ s', (tryInsertBatch ext s rows ts = .ok s' ∨ ∃ e, tryInsertBatch ext s rows ts = .err e s') →
      Met size s'.index (meterBatch ext size s rows ts m) ∧ ∀ e ∈ s'.index, e.1.ts ≤ tsMax) ∧
    (tryInsertBatch ext s rows ts = .full → meterBatch ext size s rows ts m = m) := by
  unfold tryInsertBatch meterBatch
  by_cases hc : s.cap ≤ s.batches.length
  · rw [if_pos hc, if_pos hc]
    refine ⟨?_, fun _ => rfl⟩
    rintro s' (h | ⟨e, h⟩) <;> simp at h
  · rw [if_neg hc, if_neg hc]
    cases hk : rows.mapM ext with
    | none =>
      refine ⟨?_, by simp⟩
      rintro s' (h | ⟨e, h⟩)
      · simp at h
      · simp only [TryRes.err.injEq] at h
        rw [← h.2]; exact ⟨hm, hi⟩
    | some ks =>
      refine ⟨?_, by simp⟩
      rintro s' (h | ⟨e, h⟩)
      · simp only [TryRes.ok.injEq] at h
        rw [← h]; exact met_rows _ _ _ _ hs hi (zip_ts ht) hm
      · simp at h

omit [LinearOrder K] in
theorem mapM_some_fst (keys : List (K × Nat)) :
    (keys.map (fun p => (some p.1, some p.2))).mapM (·.1) = some (keys.map (·.1)) := by
  induction keys with
  | nil => rfl
  | cons a l ih => simp [List.mapM_cons, ih]

omit [LinearOrder K] in
theorem mapM_some_snd (keys : List (K × Nat)) :
    (keys.map (fun p => (some p.1, some p.2))).mapM (·.2) = some (keys.map (·.2)) := by
  induction keys with
  | nil => rfl
  | cons a l ih => simp [List.mapM_cons, ih]

theorem delete_met {size : K → Nat} {s : Inner K R} {m : Metrics} {keys : List (K × Nat)}
    (hs : SMap.Sorted s.index) (hi : ∀ e ∈ s.index, e.1.ts ≤ tsMax)
    (hm : Met size s.index m) (ht : ∀ r ∈ keys, r.2 ≤ tsMax) :
    (∀ s', (tryInsertDelete s (keys.map (fun p => (some p.1, some p.2))) = .ok s' ∨
        ∃ e, tryInsertDelete s (keys.map (fun p => (some p.1, some p.2))) = .err e s') →
      Met size s'.index (meterDelete size s keys m) ∧ ∀ e ∈ s'.index, e.1.ts ≤ tsMax) ∧
    (tryInsertDelete s (keys.map (fun p => (some p.1, some p.2))) = .full → meterDelete size s keys m = m) := by
  unfold tryInsertDelete meterDelete
  by_cases hk : keys = []
  · subst hk
    refine ⟨?_, by simp⟩
    rintro s' (h | ⟨e, h⟩)
    · simp at h; rw [← h]; exact ⟨hm, hi⟩
    · simp at h
  · rw [if_neg (by simpa using hk), if_neg hk, mapM_some_snd]
    simp only [mapM_some_fst]
    by_cases hc : s.cap ≤ s.dels.length
    · rw [if_pos hc, if_pos hc]
      refine ⟨?_, fun _ => rfl⟩
      rintro s' (h | ⟨e, h⟩) <;> simp at h
    · rw [if_neg hc, if_neg hc]
      refine ⟨?_, by simp⟩
      rintro s' (h | ⟨e, h⟩)
      · simp only [TryRes.ok.injEq] at h
        rw [← h]
        simp only [zip_unzip]
        exact met_rows _ _ _ _ hs hi ht hm
      · simp at h

theorem good_new {ext : R → Option K} {size : K → Nat} (cap : Nat) :
    Good ext size (Inner.new cap : Inner K R) Metrics.new :=
  ⟨⟨[], rep_new ext cap⟩, by simp [Inner.new], met_nil size⟩

/-- A freeze never fails, and leaves an empty table with counters at zero. -/
theorem freeze_good {ext : R → Option K} {size : K → Nat} {s : Inner K R} {m : Metrics}
    (h : Good ext size s m) :
    (sealInner ext s = (.ok none, s) ∧ s.index = [] ∧ meterSeal s m = m) ∨
    (∃ im, sealInner ext s = (.ok (some im), Inner.new s.cap) ∧ s.index ≠ [] ∧
      meterSeal s m = Metrics.new) := by
  obtain ⟨log, hr⟩ := h.rep
  rcases seal_rep hr with ⟨h1, _, h3⟩ | ⟨im, h1, _, h3⟩
  · exact .inl ⟨h1, h3, by simp [meterSeal, h3]⟩
  · refine .inr ⟨im, h1, h3, ?_⟩
    unfold meterSeal
    rw [if_neg h3, sealPass1_eq s.index _ hr.1.points]
    rfl

/-- Every call keeps table and counters together. -/
theorem good_memCall {ext : R → Option K} {size : K → Nat} {s : Inner K R} {m : Metrics}
    (h : Good ext size s m) {op : Mem.Op K R} (ho : OpTs op) :
    Good ext size (memCall ext s op).2 (meterCall ext size s m op) := by
  have hrep : ∃ log, Rep ext (memCall ext s op).2 log := by
    have := (memOk_call (t := (⟨[], s⟩ : Runs K R)) ⟨h.rep, by simp⟩ op).1
    unfold Runs.call at this
    cases hc : memCall ext s op with
    | mk a b => rw [hc] at this; cases a <;> exact this
  have hsort : SMap.Sorted s.index := by obtain ⟨_, hr⟩ := h.rep; exact hr.1.sorted
  suffices hh : Met size (memCall ext s op).2.index (meterCall ext size s m op) ∧
      ∀ e ∈ (memCall ext s op).2.index, e.1.ts ≤ tsMax from ⟨hrep, hh.2, hh.1⟩
  clear hrep
  cases op with
  | freeze =>
    simp only [memCall, meterCall]
    rcases freeze_good h with ⟨h1, h2, h3⟩ | ⟨im, h1, h2, h3⟩
    · rw [h1, h3]; exact ⟨h.met, h.ts⟩
    · rw [h1, h3]; exact ⟨met_nil size, by simp [Inner.new]⟩
  | put rows =>
    have ht : ∀ t ∈ rows.map (·.2), t ≤ tsMax := by
      intro t ht
      obtain ⟨r, hr, rfl⟩ := List.mem_map.1 ht
      exact ho r hr
    have hlen : ¬ (rows.map (fun p => some p.2)).length ≠ (rows.map (·.1)).length := by simp
    simp only [memCall, meterCall, insertBatchMvcc, if_neg hlen, mapM_id_some]
    cases ht1 : tryInsertBatch ext s (rows.map (·.1)) (rows.map (·.2)) with
    | ok s' => exact (batch_met hsort h.ts h.met ht).1 s' (.inl ht1)
    | err e s' => exact (batch_met hsort h.ts h.met ht).1 s' (.inr ⟨e, ht1⟩)
    | full =>
      simp only
      rcases freeze_good h with ⟨h1, h2, h3⟩ | ⟨im, h1, h2, h3⟩
      · rw [h1, h3]
        simp only [ht1]
        rw [(batch_met hsort h.ts h.met ht).2 ht1]
        exact ⟨h.met, h.ts⟩
      · rw [h1, h3]
        simp only
        have hg := good_new (ext := ext) (size := size) (R := R) s.cap
        have hb := batch_met (ext := ext) (rows := rows.map (·.1))
          (by obtain ⟨_, hr⟩ := hg.rep; exact hr.1.sorted) hg.ts hg.met ht
        cases ht2 : tryInsertBatch ext (Inner.new s.cap) (rows.map (·.1)) (rows.map (·.2)) with
        | ok s' => exact hb.1 s' (.inl ht2)
        | err e s' => exact hb.1 s' (.inr ⟨e, ht2⟩)
        | full => rw [hb.2 ht2]; exact ⟨hg.met, hg.ts⟩
  | del keys =>
    simp only [memCall, meterCall, insertDeleteBatch]
    cases ht1 : tryInsertDelete s (keys.map (fun p => (some p.1, some p.2))) with
    | ok s' => exact (delete_met hsort h.ts h.met ho).1 s' (.inl ht1)
    | err e s' => exact (delete_met hsort h.ts h.met ho).1 s' (.inr ⟨e, ht1⟩)
    | full =>
      simp only
      rcases freeze_good h with ⟨h1, h2, h3⟩ | ⟨im, h1, h2, h3⟩
      · rw [h1, h3]
        simp only [ht1]
        rw [(delete_met hsort h.ts h.met ho).2 ht1]
        exact ⟨h.met, h.ts⟩
      · rw [h1, h3]
        simp only
        have hg := good_new (ext := ext) (size := size) (R := R) s.cap
        have hb := delete_met (keys := keys) (by obtain ⟨_, hr⟩ := hg.rep; exact hr.1.sorted) hg.ts hg.met ho
        cases ht2 : tryInsertDelete (Inner.new s.cap : Inner K R) (keys.map (fun p => (some p.1, some p.2))) with
        | ok s' => exact hb.1 s' (.inl ht2)
        | err e s' => exact hb.1 s' (.inr ⟨e, ht2⟩)
        | full => rw [hb.2 ht2]; exact ⟨hg.met, hg.ts⟩

/-! ## Calls of the database -/

theorem opTs_put {rows : List R} {ts : Nat} (h : ts ≤ tsMax) : OpTs (.put (stamp rows ts) : Mem.Op K R) := by
  intro r hr
  obtain ⟨_, _, rfl⟩ := List.mem_map.1 hr
  exact h

theorem opTs_del {keys : List K} {ts : Nat} (h : ts ≤ tsMax) : OpTs (.del (stamp keys ts) : Mem.Op K R) := by
  intro r hr
  obtain ⟨_, _, rfl⟩ := List.mem_map.1 hr
  exact h

theorem call_good {ext : R → Option K} {size : K → Nat} {s : Table K R} (h : Good ext size s.t.mem s.met)
    (note : Bool) (now : Nat) {op : Mem.Op K R} (ho : OpTs op) :
    Good ext size (call ext size note now s op).2.t.mem (call ext size note now s op).2.met := by
  have := good_memCall h ho
  unfold call
  cases hc : memCall ext s.t.mem op with
  | mk a b => rw [hc] at this; cases a <;> exact this

theorem call_runs (ext : R → Option K) (size : K → Nat) (s : Table K R) (note : Bool) (now : Nat)
    (op : Mem.Op K R) : s.t.runs <+: (call ext size note now s op).2.t.runs := by
  unfold call
  cases hc : memCall ext s.t.mem op with
  | mk a b =>
    cases a with
    | error e => exact List.prefix_rfl
    | ok o => cases o with
      | none => exact List.prefix_rfl
      | some im => exact List.prefix_append _ _

theorem parts_good {ext : R → Option K} {size : K → Nat} {s : Table K R} (h : Good ext size s.t.mem s.met)
    (note : Bool) (now : Nat) (ups : Option (List R)) (dels : Option (List K)) {ts : Nat} (ht : ts ≤ tsMax) :
    Good ext size (parts ext size note now s ups dels ts).2.t.mem (parts ext size note now s ups dels ts).2.met := by
  have h1 : Good ext size (upPart ext size now s ups ts).2.t.mem (upPart ext size now s ups ts).2.met := by
    cases ups with
    | none => exact h
    | some rows => exact call_good h _ _ (opTs_put ht)
  unfold parts
  revert h1
  generalize upPart ext size now s ups ts = r
  intro h1
  obtain ⟨b, s'⟩ := r
  cases b with
  | false => exact h1
  | true =>
    cases dels with
    | none => exact h1
    | some keys => exact call_good h1 _ _ (opTs_del ht)

theorem parts_runs (ext : R → Option K) (size : K → Nat) (s : Table K R) (note : Bool) (now : Nat)
    (ups : Option (List R)) (dels : Option (List K)) (ts : Nat) :
    s.t.runs <+: (parts ext size note now s ups dels ts).2.t.runs := by
  have h1 : s.t.runs <+: (upPart ext size now s ups ts).2.t.runs := by
    cases ups with
    | none => exact List.prefix_rfl
    | some rows => exact call_runs _ _ _ _ _ _
  unfold parts
  revert h1
  generalize upPart ext size now s ups ts = r
  intro h1
  obtain ⟨b, s'⟩ := r
  cases b with
  | false => exact h1
  | true =>
    cases dels with
    | none => exact h1
    | some keys => exact h1.trans (call_runs _ _ _ _ _ _)

theorem freeze_call {ext : R → Option K} {size : K → Nat} {s : Table K R} (h : Good ext size s.t.mem s.met)
    (now : Nat) :
    (call ext size true now s .freeze).1 = true ∧ (call ext size true now s .freeze).2.t.mem.index = [] := by
  unfold call
  simp only [memCall]
  rcases freeze_good h with ⟨h1, h2, _⟩ | ⟨im, h1, _, _⟩
  · rw [h1]; exact ⟨rfl, h2⟩
  · rw [h1]; exact ⟨rfl, rfl⟩

theorem maybeSeal_good {ext : R → Option K} {size : K → Nat} {s : Table K R} (h : Good ext size s.t.mem s.met)
    (p : SealPolicy) (now : Nat) :
    Good ext size (maybeSeal ext size p now s).2.t.mem (maybeSeal ext size p now s).2.met := by
  unfold maybeSeal
  cases evaluate p (buildStats s now) with
  | none => exact h
  | some _ => exact call_good h _ _ trivial

/-- After the policy was asked: nothing is left, or no threshold was reached. -/
theorem maybeSeal_cases {ext : R → Option K} {size : K → Nat} {s : Table K R} (h : Good ext size s.t.mem s.met)
    (p : SealPolicy) (now : Nat) :
    (maybeSeal ext size p now s).1 = true ∧
    ((maybeSeal ext size p now s).2.t.mem.index = [] ∨
      (¬ ThresholdMet (buildStats s now) p ∧ (maybeSeal ext size p now s).2 = s)) := by
  unfold maybeSeal
  cases he : evaluate p (buildStats s now) with
  | none =>
    refine ⟨rfl, .inr ⟨fun ht => ?_, rfl⟩⟩
    have := (Tonbo.Props.C48.seals_iff_reached p _).2 ht
    rw [he] at this; simp at this
  | some r => exact ⟨(freeze_call h now).1, .inl (freeze_call h now).2⟩

theorem maybeFlush_mem (th : Option Nat) (f : Flush) (now : Nat) (s : Table K R) :
    (maybeFlush th f now s).2.t.mem = s.t.mem ∧ (maybeFlush th f now s).2.met = s.met ∧
    ((maybeFlush th f now s).2.lastSeal = s.lastSeal ∨ (maybeFlush th f now s).2.lastSeal = some now) := by
  unfold maybeFlush
  cases th with
  | none => exact ⟨rfl, rfl, .inl rfl⟩
  | some n =>
    simp only
    split_ifs
    · exact ⟨rfl, rfl, .inl rfl⟩
    · exact ⟨rfl, rfl, .inl rfl⟩
    · exact ⟨rfl, rfl, .inl rfl⟩
    · exact ⟨rfl, rfl, .inr rfl⟩

theorem maybeFlush_done (n : Nat) {f : Flush} (hf : f ≠ .stalled) (now : Nat) {s s' : Table K R}
    (h : maybeFlush (some n) f now s = (true, s')) : s'.t.runs.length < max n 1 := by
  unfold maybeFlush at h
  simp only [if_neg hf] at h
  split_ifs at h with h1 h2
  · cases h; exact h1
  · cases h
  · cases h; simp

theorem settle_good {ext : R → Option K} {size : K → Nat} (cfg : Cfg) (now : Nat) (f : Flush)
    {r : Bool × Table K R} (h : Good ext size r.2.t.mem r.2.met) :
    Good ext size (settle ext size cfg now f r).2.t.mem (settle ext size cfg now f r).2.met := by
  obtain ⟨b, s⟩ := r
  cases b with
  | false => exact h
  | true =>
    simp only [settle]
    have h1 := maybeSeal_good h cfg.policy now
    cases hm : maybeSeal ext size cfg.policy now s with
    | mk b s' =>
      simp only [hm] at h1
      cases b with
      | false => exact h1
      | true =>
        obtain ⟨e1, e2, _⟩ := maybeFlush_mem cfg.threshold f now s'
        simp only
        rw [e1, e2]; exact h1

/-- What holds after a direct write that succeeded. -/
theorem settle_ok {ext : R → Option K} {size : K → Nat} {cfg : Cfg} {now : Nat} {f : Flush}
    {r : Bool × Table K R} (h : Good ext size r.2.t.mem r.2.met) {s' : Table K R}
    (hs : settle ext size cfg now f r = (true, s')) :
    (s'.t.mem.index = [] ∨ ∃ s1 : Table K R, ¬ ThresholdMet (buildStats s1 now) cfg.policy ∧
      s'.t.mem = s1.t.mem ∧ s'.met = s1.met ∧ (s'.lastSeal = s1.lastSeal ∨ s'.lastSeal = some now)) ∧
    (∀ n, cfg.threshold = some n → f ≠ .stalled → s'.t.runs.length < max n 1) := by
  obtain ⟨b, s⟩ := r
  cases b with
  | false => simp [settle] at hs
  | true =>
    simp only [settle] at hs
    have h1 := maybeSeal_cases h cfg.policy now
    cases hm : maybeSeal ext size cfg.policy now s with
    | mk b s1 =>
      rw [hm] at h1 hs
      obtain ⟨hb, hc⟩ := h1
      simp only at hb
      subst hb
      simp only at hs
      obtain ⟨e1, e2, e3⟩ := maybeFlush_mem cfg.threshold f now s1
      rw [hs] at e1 e2 e3
      refine ⟨?_, ?_⟩
      · rcases hc with hc | ⟨hc, rfl⟩
        · exact .inl (by simp only at e1; rw [e1]; exact hc)
        · exact .inr ⟨s1, hc, e1, e2, e3⟩
      · intro n hn hf
        rw [hn] at hs
        exact maybeFlush_done n hf now hs

theorem step_good {ext : R → Option K} {size : K → Nat} {s : Table K R} (h : Good ext size s.t.mem s.met)
    (cfg : Cfg) (now : Nat) (f : Flush) {op : Meter.Op K R} (ht : opTs op ≤ tsMax) :
    Good ext size (step ext size cfg s now f op).2.t.mem (step ext size cfg s now f op).2.met := by
  cases op with
  | ingest rows ts => exact settle_good _ _ _ (call_good h _ _ (opTs_put ht))
  | ingestTomb ups dels ts =>
    cases ups with
    | none =>
      cases dels with
      | none => exact h
      | some d => exact settle_good _ _ _ (parts_good h _ _ _ _ ht)
    | some u => exact settle_good _ _ _ (parts_good h _ _ _ _ ht)
  | commit ups dels ts => exact parts_good h _ _ _ _ ht

theorem run_good {ext : R → Option K} {size : K → Nat} (cfg : Cfg) :
    ∀ (ops : List (Meter.Op K R × Nat × Flush)) {s : Table K R}, Good ext size s.t.mem s.met →
      (∀ o ∈ ops, opTs o.1 ≤ tsMax) →
      Good ext size (run ext size cfg s ops).t.mem (run ext size cfg s ops).met
  | [], _, h, _ => h
  | (op, now, f) :: ops, s, h, ht => by
    simp only [run]
    exact run_good cfg ops (step_good h cfg now f (ht (op, now, f) List.mem_cons_self))
      (fun o ho => ht o (List.mem_cons_of_mem _ ho))

theorem payload_ts {x : Payload K R} (h : payloadTs x ≤ tsMax) : OpTs x.call := by
  cases x with
  | up rows ts => exact opTs_put h
  | del keys ts => exact opTs_del h

theorem replayOne_good {ext : R → Option K} {size : K → Nat} {s : Table K R} (h : Good ext size s.t.mem s.met)
    (p : SealPolicy) (now : Nat) {x : Payload K R} (ht : payloadTs x ≤ tsMax) :
    Good ext size (replayOne ext size p now s x).2.t.mem (replayOne ext size p now s x).2.met := by
  have h1 := call_good h false now (payload_ts ht)
  unfold replayOne
  cases hc : Meter.call ext size false now s x.call with
  | mk b s' =>
    rw [hc] at h1
    cases b with
    | false => exact h1
    | true => exact maybeSeal_good h1 p now

theorem replay_good {ext : R → Option K} {size : K → Nat} (p : SealPolicy) :
    ∀ (xs : List (Payload K R × Nat)) {s : Table K R}, Good ext size s.t.mem s.met →
      (∀ x ∈ xs, payloadTs x.1 ≤ tsMax) →
      Good ext size (replay ext size p s xs).2.t.mem (replay ext size p s xs).2.met
  | [], _, h, _ => h
  | (x, now) :: xs, s, h, ht => by
    have h1 := replayOne_good h p now (ht (x, now) List.mem_cons_self)
    simp only [replay]
    cases hc : replayOne ext size p now s x with
    | mk b s' =>
      rw [hc] at h1
      cases b with
      | false => exact h1
      | true => exact replay_good p xs h1 (fun o ho => ht o (List.mem_cons_of_mem _ ho))

theorem opened_good {ext : R → Option K} {size : K → Nat} (p : SealPolicy) (cap : Nat) {xs : List (Payload K R × Nat)}
    (hx : ∀ x ∈ xs, payloadTs x.1 ≤ tsMax) :
    Good ext size (opened ext size p cap xs).2.t.mem (opened ext size p cap xs).2.met :=
  replay_good p xs (s := Table.new cap) (good_new cap) hx

/-- The last payload was followed by the policy. -/
theorem replay_last {ext : R → Option K} {size : K → Nat} (p : SealPolicy) :
    ∀ (xs : List (Payload K R × Nat)) {s s' : Table K R}, Good ext size s.t.mem s.met →
      (∀ x ∈ xs, payloadTs x.1 ≤ tsMax) → replay ext size p s xs = (true, s') → ∀ y ∈ xs.getLast?,
      s'.t.mem.index = [] ∨ ¬ ThresholdMet (buildStats s' y.2) p
  | [], _, _, _, _, _, y, hy => by simp at hy
  | (x, now) :: xs, s, s', h, ht, hr, y, hy => by
    have h1 := replayOne_good h p now (ht (x, now) List.mem_cons_self)
    simp only [replay] at hr
    cases hc : replayOne ext size p now s x with
    | mk b s1 =>
      rw [hc] at h1 hr
      cases b with
      | false => cases hr
      | true =>
        simp only at hr
        cases xs with
        | nil =>
          simp only [replay, Prod.mk.injEq, true_and] at hr
          subst hr
          simp only [List.getLast?_singleton, Option.mem_def, Option.some.injEq] at hy
          subst hy
          have h2 := call_good h false now (payload_ts (ht (x, now) List.mem_cons_self))
          unfold replayOne at hc
          cases hd : Meter.call ext size false now s x.call with
          | mk b s2 =>
            rw [hd] at hc h2
            cases b with
            | false => cases hc
            | true =>
              simp only at hc
              rcases (maybeSeal_cases h2 p now).2 with e | ⟨e1, e2⟩
              · rw [hc] at e
                exact .inl e
              · rw [hc] at e2
                simp only at e2
                rw [e2]
                exact .inr e1
        | cons z zs =>
          refine replay_last p (z :: zs) h1 (fun o ho => ht o (List.mem_cons_of_mem _ ho)) hr y ?_
          rwa [List.getLast?_cons_cons] at hy

theorem step_ok {ext : R → Option K} {size : K → Nat} {s s' : Table K R} (h : Good ext size s.t.mem s.met)
    {cfg : Cfg} {now : Nat} {f : Flush} {op : Meter.Op K R} (ht : opTs op ≤ tsMax) (hw : DirectWrite op)
    (hs : step ext size cfg s now f op = (true, s')) :
    (s'.t.mem.index = [] ∨ ∃ s1 : Table K R, ¬ ThresholdMet (buildStats s1 now) cfg.policy ∧
      s'.t.mem = s1.t.mem ∧ s'.met = s1.met ∧ (s'.lastSeal = s1.lastSeal ∨ s'.lastSeal = some now)) ∧
    (∀ n, cfg.threshold = some n → f ≠ .stalled → s'.t.runs.length < max n 1) := by
  cases op with
  | ingest rows ts => exact settle_ok (call_good h _ _ (opTs_put ht)) hs
  | ingestTomb ups dels ts =>
    cases ups with
    | none =>
      cases dels with
      | none => simp [DirectWrite] at hw
      | some d => exact settle_ok (parts_good h _ _ _ _ ht) hs
    | some u => exact settle_ok (parts_good h _ _ _ _ ht) hs
  | commit ups dels ts => exact absurd hw (by simp [DirectWrite])

/-- Every key of the index shows up in a full scan. -/
theorem scan_has {ext : R → Option K} {s : Inner K R} {log : List (Ver K R)} (hr : Rep ext s log)
    (ht : ∀ e ∈ s.index, e.1.ts ≤ tsMax) {out : List (Entry K R)}
    (h3 : ∀ w, w ∈ out.map toVer ↔ (True ∧ Newest (LastWrite log) tsMax w))
    (hkey : ∀ e : Entry K R, (toVer e).key = e.kt.key) :
    ∀ (n : Nat) (e : KT K × Loc), e ∈ s.index → tsMax - e.1.ts ≤ n → e.1.key ∈ out.map (·.kt.key)
  | n, e, he, hn => by
    have hw : ∃ op, LastWrite log ⟨e.1.key, e.1.ts, op⟩ := by
      have hp := hr.1.points e he
      obtain ⟨kt, loc⟩ := e
      cases loc with
      | up b r =>
        obtain ⟨row, h1, _⟩ := hp
        exact ⟨.put row, (hr.2 _).1 ⟨.up b r, he, by simp [res, h1]⟩⟩
      | dl b r => exact ⟨.del, (hr.2 _).1 ⟨.dl b r, he, rfl⟩⟩
    obtain ⟨op, hw⟩ := hw
    by_cases hnew : Newest (LastWrite log) tsMax ⟨e.1.key, e.1.ts, op⟩
    · obtain ⟨x, hx, hxe⟩ := List.mem_map.1 ((h3 _).2 ⟨trivial, hnew⟩)
      refine List.mem_map.2 ⟨x, hx, ?_⟩
      rw [← hkey, hxe]
    · have : ∃ u, LastWrite log u ∧ u.key = e.1.key ∧ u.ts ≤ tsMax ∧ e.1.ts < u.ts := by
        by_contra hno
        refine hnew ⟨hw, ht e he, fun u h1 h2 h4 => ?_⟩
        by_contra hlt
        exact hno ⟨u, h1, h2, h4, not_le.1 hlt⟩
      obtain ⟨u, h1, h2, h4, h5⟩ := this
      obtain ⟨loc, h6, _⟩ := (hr.2 u).2 h1
      cases n with
      | zero => exact absurd h5 (by omega)
      | succ n =>
        have := scan_has hr ht h3 hkey n _ h6 (by simp only; omega)
        rw [← h2]; exact this

/-- What a reader finds in the table is as long and as large as the counters say. -/
theorem scan_met {ext : R → Option K} {size : K → Nat} {s : Inner K R} {m : Metrics}
    (h : Good ext size s m) :
    ∃ out, scan s none tsMax = some out ∧ (out.map (·.kt.key)).Pairwise (· < ·) ∧
      (∀ k, k ∈ out.map (·.kt.key) ↔ k ∈ keysOf s.index) ∧
      out.length = m.entries ∧ (out.map (fun e => size e.kt.key)).sum = m.keyBytes := by
  obtain ⟨log, hr⟩ := h.rep
  obtain ⟨out, h1, h2, h3⟩ := rep_scan_all hr tsMax
  have hkey : ∀ e : Entry K R, (toVer e).key = e.kt.key := fun e => by cases e <;> rfl
  have hp : (out.map (·.kt.key)).Pairwise (· < ·) := by
    rw [List.pairwise_map] at h2 ⊢
    exact h2.imp (fun {a b} hab => by rw [hkey, hkey] at hab; exact hab)
  have hm : ∀ k, k ∈ out.map (·.kt.key) ↔ k ∈ keysOf s.index := by
    intro k
    constructor
    · intro hk
      obtain ⟨e, he, rfl⟩ := List.mem_map.1 hk
      have h5 := ((h3 (toVer e)).1 (List.mem_map_of_mem he)).2.1
      obtain ⟨loc, h6, _⟩ := (hr.2 _).2 h5
      rw [← hkey]
      exact mem_keysOf.2 ⟨_, h6, rfl⟩
    · intro hk
      obtain ⟨e, he, rfl⟩ := mem_keysOf.1 hk
      exact scan_has hr h.ts h3 hkey _ e he le_rfl
  have hnd : (out.map (·.kt.key)).Nodup := hp.imp (fun h => ne_of_lt h)
  have hf : keysOf s.index = (out.map (·.kt.key)).toFinset := by
    ext k; rw [List.mem_toFinset]; exact (hm k).symm
  refine ⟨out, h1, hp, hm, ?_, ?_⟩
  · rw [h.met.entries, hf, List.toFinset_card_of_nodup hnd, List.length_map]
  · rw [h.met.bytes, hf, List.sum_toFinset _ hnd, List.map_map]; rfl

end Tonbo.Lemmas.Meter
