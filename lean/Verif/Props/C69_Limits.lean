import Verif.Lemmas.Meter

/-!
# C69: the limits on memory
-/

namespace Tonbo.Props.C69
open Tonbo.Spec Tonbo.Model Tonbo.Model.Mem Tonbo.Model.Policy Tonbo.Model.Meter
open Tonbo.Lemmas.Mem Tonbo.Lemmas.Meter

variable {K R : Type} [LinearOrder K]

theorem threshold_of_limit {s : MemStats} {p l : SealPolicy} (h : HasLimit p l) (hl : ThresholdMet s l) :
    ThresholdMet s p := by
  induction h with
  | self => exact hl
  | anyOf hp _ ih => exact .anyOf hp (ih hl)

/-- **The counters are true.** After opening a log and any history of calls, successful or not, the statistics shown to the
policy count the keys that a reader at the last timestamp finds in the memory table, deleted ones included:
their number, their sizes, the inserts minus the overwritten ones. -/
theorem the_counters_are_true (ext : R → Option K) (size : K → Nat) (cfg : Cfg) (cap : Nat)
    (xs : List (Payload K R × Nat)) (hx : ∀ x ∈ xs, payloadTs x.1 ≤ tsMax)
    (ops : List (Meter.Op K R × Nat × Flush)) (ht : ∀ o ∈ ops, opTs o.1 ≤ tsMax) (now : Nat) :
    ∃ out, scan (run ext size cfg (opened ext size cfg.policy cap xs).2 ops).t.mem none tsMax = some out ∧
      (out.map (·.kt.key)).Pairwise (· < ·) ∧
      (buildStats (run ext size cfg (opened ext size cfg.policy cap xs).2 ops) now).entries = out.length ∧
      (buildStats (run ext size cfg (opened ext size cfg.policy cap xs).2 ops) now).keyBytes = (out.map (fun e => size e.kt.key)).sum ∧
      (run ext size cfg (opened ext size cfg.policy cap xs).2 ops).met.inserts =
        out.length + (run ext size cfg (opened ext size cfg.policy cap xs).2 ops).met.replaces := by
  have hg := run_good (ext := ext) (size := size) cfg ops (opened_good cfg.policy cap hx) ht
  obtain ⟨out, h1, h2, _, h4, h5⟩ := scan_met hg
  refine ⟨out, h1, h2, h4.symm, h5.symm, ?_⟩
  rw [h4]; exact hg.met.inserts

theorem sum_const32 (size : K → Nat) (out : List (Entry K R)) :
    footprint size out = (out.map (fun e => size e.kt.key)).sum + out.length * 32 := by
  induction out with
  | nil => rfl
  | cons e l ih =>
    simp only [footprint, List.map_cons, List.sum_cons, List.length_cons] at ih ⊢
    rw [ih]; omega

theorem scan_nil {ext : R → Option K} {s : Inner K R} (h : s.index = []) : scan s none tsMax = some [] := by
  simp [scan, h, scanLoop]

/-- **Direct writes respect the limits.** After opening a log, any history and one more direct write that succeeds, the
memory table is empty, or it is below every limit of the policy: the bytes of its keys with their overhead
below a byte limit, its batches fewer than a batch limit, and the last freeze not as long ago as an
interval. Missing: commits of transactions, for which this is false (`transactions_pile_up`,
`commits_ignore_the_policy`). -/
theorem writes_respect_the_limits_partial (ext : R → Option K) (size : K → Nat) (cfg : Cfg) (cap : Nat)
    (xs : List (Payload K R × Nat)) (hx : ∀ x ∈ xs, payloadTs x.1 ≤ tsMax)
    (ops : List (Meter.Op K R × Nat × Flush)) (ht : ∀ o ∈ ops, opTs o.1 ≤ tsMax)
    (op : Meter.Op K R) (hop : opTs op ≤ tsMax) (hw : DirectWrite op) (now : Nat) (f : Flush) (s' : Table K R)
    (hs : step ext size cfg (run ext size cfg (opened ext size cfg.policy cap xs).2 ops) now f op = (true, s')) :
    ∃ out, scan s'.t.mem none tsMax = some out ∧
      (out = [] ∨
        (∀ limit, HasLimit cfg.policy (.bytes limit) → footprint size out < limit) ∧
        (∀ n, HasLimit cfg.policy (.batches n) → s'.t.mem.batches.length + s'.t.mem.dels.length < n) ∧
        (∀ i t, 0 < i → HasLimit cfg.policy (.elapsed i) → s'.lastSeal = some t → now - t < i)) := by
  have hg := run_good (ext := ext) (size := size) cfg ops (opened_good cfg.policy cap hx) ht
  have hg' := step_good hg cfg now f hop
  rw [hs] at hg'
  obtain ⟨out, h1, _, _, h4, h5⟩ := scan_met hg'
  refine ⟨out, h1, ?_⟩
  rcases (step_ok hg hop hw hs).1 with h | ⟨s1, hn, e1, e2, e3⟩
  · left
    rw [scan_nil (ext := ext) h] at h1
    exact (Option.some.inj h1).symm
  · right
    refine ⟨fun limit hl => ?_, fun n hl => ?_, fun i t hi hl hlast => ?_⟩
    · by_contra hc
      refine hn (threshold_of_limit hl (.bytes ?_))
      simp only [buildStats]
      rw [sum_const32, h4, h5, e2] at hc
      exact not_lt.1 hc
    · by_contra hc
      refine hn (threshold_of_limit hl (.batches rfl ?_))
      rw [e1] at hc
      exact not_lt.1 hc
    · rcases e3 with e3 | e3
      · by_contra hc
        refine hn (threshold_of_limit hl (.elapsed (e := now - t) ?_ (not_lt.1 hc)))
        simp only [buildStats]
        rw [← e3, hlast]; rfl
      · rw [e3] at hlast
        rw [← Option.some.inj hlast]
        omega

/-- **The policy never makes a write fail**: asked in any state a history leads to, freezing succeeds. -/
theorem the_policy_never_fails (ext : R → Option K) (size : K → Nat) (cfg : Cfg) (cap : Nat)
    (xs : List (Payload K R × Nat)) (hx : ∀ x ∈ xs, payloadTs x.1 ≤ tsMax)
    (ops : List (Meter.Op K R × Nat × Flush)) (ht : ∀ o ∈ ops, opTs o.1 ≤ tsMax) (p : SealPolicy) (now : Nat) :
    (maybeSeal ext size p now (run ext size cfg (opened ext size cfg.policy cap xs).2 ops)).1 = true :=
  (maybeSeal_cases (run_good (ext := ext) (size := size) cfg ops (opened_good cfg.policy cap hx) ht) p now).1

/-- **Frozen tables do not pile up** behind direct writes: when flushing is configured and not held back, a write
that reports success leaves fewer frozen tables than the threshold (none for a threshold of 0 or 1). Missing:
commits of transactions, for which this is false. -/
theorem frozen_tables_stay_below_the_threshold_partial (ext : R → Option K) (size : K → Nat) (cfg : Cfg) (cap n : Nat)
    (hc : cfg.threshold = some n)
    (xs : List (Payload K R × Nat)) (hx : ∀ x ∈ xs, payloadTs x.1 ≤ tsMax)
    (ops : List (Meter.Op K R × Nat × Flush)) (ht : ∀ o ∈ ops, opTs o.1 ≤ tsMax)
    (op : Meter.Op K R) (hop : opTs op ≤ tsMax) (hw : DirectWrite op) (now : Nat) (f : Flush) (hf : f ≠ .stalled)
    (s' : Table K R) (hs : step ext size cfg (run ext size cfg (opened ext size cfg.policy cap xs).2 ops) now f op = (true, s')) :
    s'.t.runs.length < max n 1 :=
  (step_ok (run_good (ext := ext) (size := size) cfg ops (opened_good cfg.policy cap hx) ht) hop hw hs).2
    n hc hf

/-- **Opening a log respects the limits**: when the payloads of a log have been replayed, the memory table is empty, or
it is below every limit of the policy at the time of the last payload. -/
theorem opening_respects_the_limits (ext : R → Option K) (size : K → Nat) (p : SealPolicy) (cap : Nat)
    (xs : List (Payload K R × Nat)) (hx : ∀ x ∈ xs, payloadTs x.1 ≤ tsMax) (s : Table K R)
    (hs : opened ext size p cap xs = (true, s)) (y : Payload K R × Nat) (hy : xs.getLast? = some y) :
    ∃ out, scan s.t.mem none tsMax = some out ∧
      (out = [] ∨
        (∀ limit, HasLimit p (.bytes limit) → footprint size out < limit) ∧
        (∀ n, HasLimit p (.batches n) → s.t.mem.batches.length + s.t.mem.dels.length < n) ∧
        (∀ i t, HasLimit p (.elapsed i) → s.lastSeal = some t → y.2 - t < i)) := by
  have hg := opened_good (ext := ext) (size := size) p cap hx
  rw [hs] at hg
  obtain ⟨out, h1, _, _, h4, h5⟩ := scan_met hg
  refine ⟨out, h1, ?_⟩
  rcases replay_last p xs (s := Table.new cap) (good_new cap) hx hs y hy with h | hn
  · left
    rw [scan_nil (ext := ext) h] at h1
    exact (Option.some.inj h1).symm
  · right
    refine ⟨fun limit hl => ?_, fun n hl => ?_, fun i t hl hlast => ?_⟩
    · by_contra hc
      refine hn (threshold_of_limit hl (.bytes ?_))
      simp only [buildStats]
      rw [sum_const32, h4, h5] at hc
      exact not_lt.1 hc
    · by_contra hc
      refine hn (threshold_of_limit hl (.batches rfl ?_))
      exact not_lt.1 hc
    · by_contra hc
      refine hn (threshold_of_limit hl (.elapsed (e := y.2 - t) ?_ (not_lt.1 hc)))
      simp only [buildStats]
      rw [hlast]; rfl

/-! ## Where the limits do not reach -/

/-- Commits are the same under every policy and every threshold. -/
theorem commits_ignore_the_policy (ext : R → Option K) (size : K → Nat) (cfg cfg' : Cfg) :
    ∀ (ops : List (Meter.Op K R × Nat × Flush)), (∀ o ∈ ops, IsCommit o.1) → ∀ s : Table K R,
      run ext size cfg s ops = run ext size cfg' s ops
  | [], _, _ => rfl
  | (op, now, f) :: ops, h, s => by
    simp only [run]
    have h1 := h (op, now, f) List.mem_cons_self
    cases op with
    | ingest => exact absurd h1 (by simp [IsCommit])
    | ingestTomb => exact absurd h1 (by simp [IsCommit])
    | commit ups dels ts =>
      exact commits_ignore_the_policy ext size cfg cfg' ops (fun o ho => h o (List.mem_cons_of_mem _ ho)) _

/-- Commits never flush a frozen table. -/
theorem commits_never_flush (ext : R → Option K) (size : K → Nat) (cfg : Cfg) :
    ∀ (ops : List (Meter.Op K R × Nat × Flush)), (∀ o ∈ ops, IsCommit o.1) → ∀ s : Table K R,
      s.t.runs <+: (run ext size cfg s ops).t.runs
  | [], _, _ => List.prefix_rfl
  | (op, now, f) :: ops, h, s => by
    simp only [run]
    have h1 := h (op, now, f) List.mem_cons_self
    cases op with
    | ingest => exact absurd h1 (by simp [IsCommit])
    | ingestTomb => exact absurd h1 (by simp [IsCommit])
    | commit ups dels ts =>
      exact (parts_runs ext size s true now ups dels ts).trans
        (commits_never_flush ext size cfg ops (fun o ho => h o (List.mem_cons_of_mem _ ho)) _)

/-- A commit of the row `i` at time `i + 1`. -/
def oneRow (i : Nat) : Meter.Op Nat Nat × Nat × Flush := (.commit (some [i]) none (i + 1), i, .done)

/-- `n` commits of one row each, from `start`. -/
def manyCommits : Nat → Nat → List (Meter.Op Nat Nat × Nat × Flush)
  | 0, _ => []
  | n + 1, start => oneRow start :: manyCommits n (start + 1)

theorem manyCommits_commit : ∀ n start, ∀ o ∈ manyCommits n start, IsCommit o.1
  | 0, _, o, h => by simp [manyCommits] at h
  | n + 1, start, o, h => by
    simp only [manyCommits, List.mem_cons] at h
    rcases h with rfl | h
    · trivial
    · exact manyCommits_commit n _ o h

/-- One more commit on a full table: one more frozen table. -/
theorem commit_full {size : Nat → Nat} {cfg : Cfg} {s : Table Nat Nat} (hg : Good some size s.t.mem s.met)
    (hcap : s.t.mem.cap = 1) (hb : s.t.mem.batches.length = 1) (hi : s.t.mem.index ≠ []) (i now : Nat) (f : Flush) :
    let s' := (step some size cfg s now f (oneRow i).1).2
    s'.t.runs.length = s.t.runs.length + 1 ∧ s'.t.mem.cap = 1 ∧ s'.t.mem.batches.length = 1 ∧ s'.t.mem.index ≠ [] := by
  rcases freeze_good hg with ⟨_, h2, _⟩ | ⟨im, h1, _, _⟩
  · exact absurd h2 hi
  · have hm : memCall some s.t.mem (.put (stamp [i] (i + 1))) =
        (.ok (some im), ⟨[(⟨i, i + 1⟩, .up 0 0)], [⟨[i], [i + 1]⟩], [], 1⟩) := by
      simp [memCall, stamp, insertBatchMvcc, tryInsertBatch, hcap, hb, h1, Inner.new, indexRows, SMap.insert]
    simp only [oneRow, step, parts, upPart, delPart, call, hm, addRun]
    simp

theorem many_runs {size : Nat → Nat} {cfg : Cfg} :
    ∀ (n start : Nat) (s : Table Nat Nat), Good some size s.t.mem s.met → s.t.mem.cap = 1 →
      s.t.mem.batches.length = 1 → s.t.mem.index ≠ [] → start + n ≤ tsMax →
      (run some size cfg s (manyCommits n start)).t.runs.length = s.t.runs.length + n
  | 0, _, _, _, _, _, _, _ => rfl
  | n + 1, start, s, hg, h1, h2, h3, ht => by
    obtain ⟨e1, e2, e3, e4⟩ := commit_full (cfg := cfg) hg h1 h2 h3 start start .done
    have hg' := step_good hg cfg start .done (op := (oneRow start).1) (by simp only [oneRow, opTs]; omega)
    have := many_runs (size := size) (cfg := cfg) n (start + 1) _ hg' e2 e3 e4 (by omega)
    simp only [manyCommits, run, oneRow] at this e1 ⊢
    rw [this, e1]; omega

/-- **The threshold does not bound what transactions leave in memory**: whatever the policy and the
threshold, `n + 1` commits can leave `n` frozen tables. -/
theorem transactions_pile_up (size : Nat → Nat) (cfg : Cfg) (n : Nat) (hn : n < tsMax) :
    (∀ o ∈ manyCommits (n + 1) 0, IsCommit o.1) ∧
    (run some size cfg (Table.new 1) (manyCommits (n + 1) 0)).t.runs.length = n := by
  refine ⟨manyCommits_commit _ _, ?_⟩
  have hg := step_good (ext := some) (size := size) (s := (Table.new 1 : Table Nat Nat)) (good_new 1) cfg 0 .done
    (op := (oneRow 0).1) (by simp [oneRow, opTs, tsMax])
  have := many_runs (size := size) (cfg := cfg) n 1 _ hg rfl rfl (by
    simp [oneRow, step, parts, upPart, delPart, call, memCall, stamp, insertBatchMvcc, tryInsertBatch, Table.new,
      Runs.new, Inner.new, indexRows, SMap.insert]) (by omega)
  simp only [manyCommits, run, oneRow] at this ⊢
  rw [this]
  simp [step, parts, upPart, delPart, call, memCall, stamp, insertBatchMvcc, tryInsertBatch, Table.new,
      Runs.new, Inner.new, indexRows, SMap.insert, addRun]

/-- A log of one row in each transaction. -/
def rowLog : Nat → Nat → List (Payload Nat Nat × Nat)
  | 0, _ => []
  | n + 1, start => (.up [start] (start + 1), start) :: rowLog n (start + 1)

theorem replayOne_full {size : Nat → Nat} {s : Table Nat Nat} (hg : Good some size s.t.mem s.met)
    (hcap : s.t.mem.cap = 1) (hb : s.t.mem.batches.length = 1) (hi : s.t.mem.index ≠ []) (i now : Nat) :
    (replayOne some size .never now s (.up [i] (i + 1))).1 = true ∧
    (replayOne some size .never now s (.up [i] (i + 1))).2.t.runs.length = s.t.runs.length + 1 ∧
    (replayOne some size .never now s (.up [i] (i + 1))).2.t.mem.cap = 1 ∧
    (replayOne some size .never now s (.up [i] (i + 1))).2.t.mem.batches.length = 1 ∧
    (replayOne some size .never now s (.up [i] (i + 1))).2.t.mem.index ≠ [] := by
  rcases freeze_good hg with ⟨_, h2, _⟩ | ⟨im, h1, _, _⟩
  · exact absurd h2 hi
  · have hm : memCall some s.t.mem (.put (stamp [i] (i + 1))) =
        (.ok (some im), ⟨[(⟨i, i + 1⟩, .up 0 0)], [⟨[i], [i + 1]⟩], [], 1⟩) := by
      simp [memCall, stamp, insertBatchMvcc, tryInsertBatch, hcap, hb, h1, Inner.new, indexRows, SMap.insert]
    simp only [replayOne, Payload.call, Meter.call, hm, addRun, maybeSeal, evaluate]
    simp

theorem replay_runs {size : Nat → Nat} :
    ∀ (n start : Nat) (s : Table Nat Nat), Good some size s.t.mem s.met → s.t.mem.cap = 1 →
      s.t.mem.batches.length = 1 → s.t.mem.index ≠ [] → start + n ≤ tsMax →
      (replay some size .never s (rowLog n start)).1 = true ∧
      (replay some size .never s (rowLog n start)).2.t.runs.length = s.t.runs.length + n
  | 0, _, _, _, _, _, _, _ => ⟨rfl, rfl⟩
  | n + 1, start, s, hg, h1, h2, h3, ht => by
    obtain ⟨e0, e1, e2, e3, e4⟩ := replayOne_full hg h1 h2 h3 start start
    have hg' := replayOne_good hg .never start (x := .up [start] (start + 1)) (by simp only [payloadTs]; omega)
    simp only [rowLog, replay]
    generalize replayOne some size .never start s (.up [start] (start + 1)) = r at *
    obtain ⟨b, s'⟩ := r
    simp only at e0 e1 e2 e3 e4 hg'
    subst e0
    have := replay_runs (size := size) n (start + 1) s' hg' e2 e3 e4 (by omega)
    exact ⟨this.1, by rw [this.2, e1]; omega⟩

/-- **The threshold does not bound what is left after opening**: frozen tables are not flushed while the log is
replayed, so that a log of `n + 1` batches can leave `n` of them, whatever the threshold. -/
theorem opening_piles_up (size : Nat → Nat) (n : Nat) (hn : n < tsMax) :
    (opened some size .never 1 (rowLog (n + 1) 0)).1 = true ∧
    (opened some size .never 1 (rowLog (n + 1) 0)).2.t.runs.length = n := by
  have hg := replayOne_good (ext := some) (size := size) (s := (Table.new 1 : Table Nat Nat)) (good_new 1) .never 0
    (x := .up [0] 1) (by simp [payloadTs, tsMax])
  have e : replayOne some size .never 0 (Table.new 1 : Table Nat Nat) (.up [0] 1) =
      (true, (replayOne some size .never 0 (Table.new 1 : Table Nat Nat) (.up [0] 1)).2) := rfl
  have := replay_runs (size := size) n 1 _ hg rfl rfl (by
    simp [replayOne, Payload.call, Meter.call, memCall, stamp, insertBatchMvcc, tryInsertBatch, Table.new, Runs.new,
      Inner.new, indexRows, SMap.insert, maybeSeal, evaluate]) (by omega)
  simp only [opened, rowLog, replay, Nat.zero_add] at this ⊢
  rw [e]
  refine ⟨this.1, ?_⟩
  simp only
  rw [this.2]
  simp [replayOne, Payload.call, Meter.call, memCall, stamp, insertBatchMvcc, tryInsertBatch, Table.new, Runs.new,
      Inner.new, indexRows, SMap.insert, addRun, maybeSeal, evaluate]

/-- `n` writes of the key `k`, at `ts`, `ts + 1`, ... -/
def overwrites (k : Nat) : Nat → Nat → List (Meter.Op Nat Nat × Nat × Flush)
  | 0, _ => []
  | n + 1, ts => (.ingest [k] ts, ts, .done) :: overwrites k n (ts + 1)

theorem insert_newest {k t : Nat} {l : Loc} {ix : List (KT Nat × Loc)} (h : ∀ e ∈ ix, e.1.key = k ∧ e.1.ts < t) :
    SMap.insert ⟨k, t⟩ l ix = (⟨k, t⟩, l) :: ix := by
  cases ix with
  | nil => rfl
  | cons e rest =>
    obtain ⟨a, b⟩ := e
    have := h (a, b) List.mem_cons_self
    simp only [SMap.insert]
    rw [if_pos]
    rw [KT.lt_def]
    right
    exact ⟨this.1.symm, this.2⟩

theorem overwrite_step {size : Nat → Nat} {limit : Nat} {th : Option Nat} {k : Nat} {s : Table Nat Nat}
    (hl : size k + 32 < limit) (hg : Good some size s.t.mem s.met) (hroom : s.t.mem.batches.length < s.t.mem.cap)
    (hruns : s.t.runs = []) {ts : Nat} (hts : ts ≤ tsMax) (hix : ∀ e ∈ s.t.mem.index, e.1.key = k ∧ e.1.ts < ts)
    (now : Nat) :
    let r := step some size ⟨.bytes limit, th⟩ s now .done (.ingest [k] ts)
    r.1 = true ∧ r.2.t.runs = [] ∧ r.2.t.mem.cap = s.t.mem.cap ∧
      r.2.t.mem.batches.length = s.t.mem.batches.length + 1 ∧
      r.2.t.mem.index.length = s.t.mem.index.length + 1 ∧
      (∀ e ∈ r.2.t.mem.index, e.1.key = k ∧ e.1.ts < ts + 1) := by
  have hm : memCall some s.t.mem (.put (stamp [k] ts)) =
      (.ok none, { s.t.mem with batches := s.t.mem.batches ++ [⟨[k], [ts]⟩],
                                index := (⟨k, ts⟩, .up s.t.mem.batches.length 0) :: s.t.mem.index }) := by
    simp [memCall, stamp, insertBatchMvcc, tryInsertBatch, not_le.2 hroom, indexRows, insert_newest hix]
  have hg1 := call_good hg true now (op := .put (stamp [k] ts)) (opTs_put hts)
  have hc : call some size true now s (.put (stamp [k] ts)) =
      (true, ⟨⟨[], { s.t.mem with batches := s.t.mem.batches ++ [⟨[k], [ts]⟩],
                                  index := (⟨k, ts⟩, .up s.t.mem.batches.length 0) :: s.t.mem.index }⟩,
        meterCall some size s.t.mem s.met (.put (stamp [k] ts)), s.lastSeal⟩) := by
    simp only [call, hm, addRun, hruns]; simp
  rw [hc] at hg1
  have hk : keysOf ((⟨k, ts⟩, Loc.up s.t.mem.batches.length 0) :: s.t.mem.index) = {k} := by
    ext x
    rw [mem_keysOf, Finset.mem_singleton]
    constructor
    · rintro ⟨e, he, rfl⟩
      rcases List.mem_cons.1 he with rfl | he
      · rfl
      · exact (hix e he).1
    · rintro rfl; exact ⟨_, List.mem_cons_self, rfl⟩
  have he := hg1.met.entries
  have hb := hg1.met.bytes
  simp only [hk, Finset.card_singleton, Finset.sum_singleton] at he hb
  have hev : ¬ limit ≤ size k + 1 * 32 := by omega
  simp only [step, hc, settle, maybeSeal, evaluate, buildStats, he, hb, if_neg hev]
  have hfl : ∀ x : Table Nat Nat, x.t.runs = [] → maybeFlush th .done now x = (true, x) := by
    intro x hx
    unfold maybeFlush
    cases th with
    | none => rfl
    | some n => simp [hx]
  rw [hfl _ rfl]
  refine ⟨rfl, rfl, rfl, by simp, by simp, ?_⟩
  intro e he
  rcases List.mem_cons.1 he with rfl | he
  · exact ⟨rfl, Nat.lt_succ_self _⟩
  · exact ⟨(hix e he).1, Nat.lt_succ_of_lt (hix e he).2⟩

theorem overwrites_run {size : Nat → Nat} {limit : Nat} {th : Option Nat} {k : Nat} (hl : size k + 32 < limit) :
    ∀ (n : Nat) (s : Table Nat Nat) (ts : Nat), Good some size s.t.mem s.met →
      s.t.mem.batches.length + n ≤ s.t.mem.cap → s.t.runs = [] → ts + n ≤ tsMax →
      (∀ e ∈ s.t.mem.index, e.1.key = k ∧ e.1.ts < ts) →
      (run some size ⟨.bytes limit, th⟩ s (overwrites k n ts)).t.runs = [] ∧
      (run some size ⟨.bytes limit, th⟩ s (overwrites k n ts)).t.mem.index.length = s.t.mem.index.length + n
  | 0, s, _, _, _, h, _, _ => ⟨h, rfl⟩
  | n + 1, s, ts, hg, hroom, hruns, hts, hix => by
    obtain ⟨_, e2, e3, e4, e5, e6⟩ := overwrite_step (th := th) hl hg (by omega) hruns (ts := ts) (by omega) hix ts
    have hg' := step_good hg ⟨.bytes limit, th⟩ ts .done (op := (.ingest [k] ts : Meter.Op Nat Nat))
      (by simp only [opTs]; omega)
    have := overwrites_run (th := th) hl n _ (ts + 1) hg' (by rw [e3, e4]; omega) e2 (by omega) e6
    simp only [overwrites, run]
    exact ⟨this.1, by rw [this.2, e5]; omega⟩

/-- **Versions are not counted**: an overwrite of a key adds nothing to what a byte limit looks at, so under
a byte limit alone one key may be written as often as there are slots, all versions staying in memory. -/
theorem versions_are_not_counted (size : Nat → Nat) (limit : Nat) (th : Option Nat) (k n : Nat)
    (hl : size k + 32 < limit) (hn : n < tsMax) :
    (run some size ⟨.bytes limit, th⟩ (Table.new n) (overwrites k n 1)).t.runs = [] ∧
    (run some size ⟨.bytes limit, th⟩ (Table.new n) (overwrites k n 1)).t.mem.index.length = n := by
  have := overwrites_run (th := th) hl n (Table.new n) 1 (good_new n)
    (by simp [Table.new, Runs.new, Inner.new]) rfl (by omega) (by simp [Table.new, Runs.new, Inner.new])
  refine ⟨this.1, ?_⟩
  rw [this.2]; simp [Table.new, Runs.new, Inner.new]

/-- A limit on open rows has no effect: the table never says how many there are. -/
theorem a_limit_on_open_rows_has_no_effect (ext : R → Option K) (size : K → Nat) (n : Nat) (th : Option Nat) :
    ∀ (ops : List (Meter.Op K R × Nat × Flush)) (s : Table K R),
      run ext size ⟨.openRows n, th⟩ s ops = run ext size ⟨.never, th⟩ s ops
  | [], _ => rfl
  | (op, now, f) :: ops, s => by
    have hset : ∀ r : Bool × Table K R,
        settle ext size ⟨.openRows n, th⟩ now f r = settle ext size ⟨.never, th⟩ now f r := by
      rintro ⟨b, s⟩
      cases b <;> simp [settle, maybeSeal, evaluate, buildStats]
    have hst : step ext size ⟨.openRows n, th⟩ s now f op = step ext size ⟨.never, th⟩ s now f op := by
      cases op with
      | ingest => exact hset _
      | ingestTomb ups dels ts =>
        cases ups <;> cases dels <;> first | rfl | exact hset _
      | commit => rfl
    simp only [run, hst]
    exact a_limit_on_open_rows_has_no_effect ext size n th ops _

/-- Slots that a call takes at most. -/
def upSlots : Mem.Op K R → Nat
  | .put _ => 1
  | _ => 0

/-- Slots that a call takes at most. -/
def delSlots : Mem.Op K R → Nat
  | .del _ => 1
  | _ => 0

theorem room_call {ext : R → Option K} {size : K → Nat} {s : Table K R} {note : Bool} {now : Nat} {op : Mem.Op K R}
    (hop : op ≠ .freeze) (h1 : s.t.mem.batches.length < s.t.mem.cap) (h2 : s.t.mem.dels.length < s.t.mem.cap) :
    (call ext size note now s op).2.t.runs = s.t.runs ∧ (call ext size note now s op).2.lastSeal = s.lastSeal ∧
    (call ext size note now s op).2.t.mem.cap = s.t.mem.cap ∧
    (call ext size note now s op).2.t.mem.batches.length ≤ s.t.mem.batches.length +
      upSlots op ∧
    (call ext size note now s op).2.t.mem.dels.length ≤ s.t.mem.dels.length +
      delSlots op := by
  cases op with
  | freeze => exact absurd rfl hop
  | put rows =>
    have hlen : ¬ (rows.map (fun p => some p.2)).length ≠ (rows.map (·.1)).length := by simp
    simp only [call, memCall, insertBatchMvcc, if_neg hlen, mapM_id_some, tryInsertBatch, if_neg (not_le.2 h1)]
    cases (rows.map (·.1)).mapM ext with
    | none => simp [upSlots]
    | some ks => simp [addRun, upSlots]
  | del keys =>
    simp only [call, memCall, insertDeleteBatch, tryInsertDelete]
    by_cases hk : keys = []
    · subst hk; simp [addRun]
    · rw [if_neg (by simpa using hk), mapM_some_snd]
      simp only [mapM_some_fst, if_neg (not_le.2 h2), addRun]
      simp [delSlots]

/-- Nothing was frozen yet and `n` slots of each kind are taken at most. -/
structure Fresh (n : Nat) (s : Table K R) : Prop where
  runs : s.t.runs = []
  last : s.lastSeal = none
  batches : s.t.mem.batches.length ≤ n
  dels : s.t.mem.dels.length ≤ n

theorem fresh_settle {ext : R → Option K} {size : K → Nat} {i now n : Nat} {th : Option Nat} {f : Flush}
    {r : Bool × Table K R} (h : Fresh n r.2) : (settle ext size ⟨.elapsed i, th⟩ now f r).2 = r.2 := by
  obtain ⟨b, s⟩ := r
  cases b with
  | false => rfl
  | true =>
    have hl : s.lastSeal = none := h.last
    have hr : s.t.runs = [] := h.runs
    simp only [settle, maybeSeal, evaluate, buildStats, hl, Option.map_none, maybeFlush]
    cases th with
    | none => rfl
    | some m => simp [hr]

theorem fresh_parts {ext : R → Option K} {size : K → Nat} {s : Table K R} {n : Nat} (h : Fresh n s)
    (hc : n < s.t.mem.cap) (note : Bool) (now : Nat) (ups : Option (List R)) (dels : Option (List K)) (ts : Nat) :
    Fresh (n + 1) (parts ext size note now s ups dels ts).2 ∧
      (parts ext size note now s ups dels ts).2.t.mem.cap = s.t.mem.cap := by
  have h1 : (upPart ext size now s ups ts).2.t.runs = [] ∧ (upPart ext size now s ups ts).2.lastSeal = none ∧
      (upPart ext size now s ups ts).2.t.mem.cap = s.t.mem.cap ∧
      (upPart ext size now s ups ts).2.t.mem.batches.length ≤ n + 1 ∧
      (upPart ext size now s ups ts).2.t.mem.dels.length ≤ n := by
    have hb := h.batches
    have hd := h.dels
    cases ups with
    | none => exact ⟨h.runs, h.last, rfl, by simp only [upPart]; omega, h.dels⟩
    | some rows =>
      have := room_call (ext := ext) (size := size) (note := false) (now := now) (op := .put (stamp rows ts))
        (by simp) (lt_of_le_of_lt h.batches hc) (lt_of_le_of_lt h.dels hc)
      simp only [upPart]
      simp only [upSlots, delSlots] at this
      exact ⟨this.1.trans h.runs, this.2.1.trans h.last, this.2.2.1, by omega, by omega⟩
  unfold parts
  revert h1
  generalize upPart ext size now s ups ts = r
  rintro ⟨h1, h2, h3, h4, h5⟩
  obtain ⟨b, s'⟩ := r
  simp only at h1 h2 h3 h4 h5
  cases b with
  | false => exact ⟨⟨h1, h2, h4, by simp only [delPart]; omega⟩, h3⟩
  | true =>
    cases dels with
    | none => exact ⟨⟨h1, h2, h4, by simp only [delPart]; omega⟩, h3⟩
    | some keys =>
      simp only [delPart, call, memCall, insertDeleteBatch, tryInsertDelete]
      by_cases hk : keys = []
      · subst hk
        simp only [stamp, List.map_nil, if_true, addRun]
        exact ⟨⟨h1, by simp [h2], h4, by simp only; omega⟩, h3⟩
      · have hd : s'.t.mem.dels.length < s'.t.mem.cap := by omega
        rw [if_neg (by simpa [stamp] using hk), mapM_some_snd]
        simp only [mapM_some_fst, if_neg (not_le.2 hd), addRun]
        exact ⟨⟨h1, by simp [h2], h4, by simp; omega⟩, h3⟩

/-- **An interval does nothing before the first freeze**: under an interval alone, a new database freezes
nothing while there are slots, however much time passes. -/
theorem an_interval_does_nothing_before_the_first_freeze (ext : R → Option K) (size : K → Nat) (i cap : Nat)
    (th : Option Nat) (ops : List (Meter.Op K R × Nat × Flush)) (hn : ops.length ≤ cap) :
    (run ext size ⟨.elapsed i, th⟩ (Table.new cap) ops).t.runs = [] := by
  suffices H : ∀ (ops : List (Meter.Op K R × Nat × Flush)) (n : Nat) (s : Table K R), Fresh n s →
      n + ops.length ≤ s.t.mem.cap → (run ext size ⟨.elapsed i, th⟩ s ops).t.runs = [] by
    exact H ops 0 (Table.new cap) ⟨rfl, rfl, by simp [Table.new, Runs.new, Inner.new],
      by simp [Table.new, Runs.new, Inner.new]⟩ (by simpa [Table.new, Runs.new, Inner.new] using hn)
  intro ops
  induction ops with
  | nil => intro n s h _; exact h.runs
  | cons o ops ih =>
    intro n s h hc
    obtain ⟨op, now, f⟩ := o
    simp only [List.length_cons] at hc
    have hstep : Fresh (n + 1) (step ext size ⟨.elapsed i, th⟩ s now f op).2 ∧
        (step ext size ⟨.elapsed i, th⟩ s now f op).2.t.mem.cap = s.t.mem.cap := by
      have hb := h.batches
      have hd := h.dels
      cases op with
      | ingest rows ts =>
        have hr := room_call (ext := ext) (size := size) (note := true) (now := now) (op := .put (stamp rows ts))
          (s := s) (by simp) (by omega) (by omega)
        simp only [upSlots, delSlots] at hr
        have hf : Fresh (n + 1) (call ext size true now s (.put (stamp rows ts))).2 :=
          ⟨hr.1.trans h.runs, hr.2.1.trans h.last, by omega, by omega⟩
        simp only [step]
        rw [fresh_settle hf]
        exact ⟨hf, hr.2.2.1⟩
      | ingestTomb ups dels ts =>
        have hp := fresh_parts (ext := ext) (size := size) h (by omega) false now ups dels ts
        cases ups with
        | none =>
          cases dels with
          | none => exact ⟨⟨h.runs, h.last, by simp only [step]; omega, by simp only [step]; omega⟩, rfl⟩
          | some d => simp only [step]; rw [fresh_settle hp.1]; exact hp
        | some u => simp only [step]; rw [fresh_settle hp.1]; exact hp
      | commit ups dels ts => exact fresh_parts (ext := ext) (size := size) h (by omega) true now ups dels ts
    exact ih (n + 1) _ hstep.1 (by rw [hstep.2]; omega)

/-! ## A run -/

/-- Rows are keys; the size of a key is the key. -/
def demo (p : SealPolicy) (th : Option Nat) (ops : List (Meter.Op Nat Nat × Nat × Flush)) : Table Nat Nat :=
  run some id ⟨p, th⟩ (Table.new 8) ops

/-- Three keys of sizes 1, 2, 3 and a deletion: counted once each; 32 + 32 + 32 + 6 = 102 bytes reach a
limit of 102 but not of 103. -/
example :
    let ops : List (Meter.Op Nat Nat × Nat × Flush) :=
      [(.ingest [1, 2] 1, 10, .done), (.ingestTomb (some [3]) (some [2]) 2, 11, .done)]
    (demo (.bytes 103) none ops).met = ⟨3, 4, 1, 6⟩ ∧ (demo (.bytes 103) none ops).t.runs = [] ∧
    (demo (.bytes 102) none ops).met = ⟨0, 0, 0, 0⟩ ∧ (demo (.bytes 102) none ops).t.runs.length = 1 ∧
    (demo (.bytes 102) (some 1) ops).t.runs = [] := by
  decide +kernel

/-- The hypotheses of the theorem on limits are met, with a table that is not empty afterwards. -/
example :
    (step some id ⟨.anyOf [.bytes 103, .batches 4, .elapsed 100], some 2⟩
      (run some id ⟨.anyOf [.bytes 103, .batches 4, .elapsed 100], some 2⟩ (Table.new 8 : Table Nat Nat)
        [(.ingest [1, 2] 1, 10, .done)]) 11 .done (.ingestTomb (some [3]) (some [2]) 2)).1 = true ∧
    HasLimit (.anyOf [.bytes 103, .batches 4, .elapsed 100]) (.batches 4) :=
  ⟨by decide +kernel, .anyOf (List.mem_cons_of_mem _ List.mem_cons_self) .self⟩

/-- An interval does nothing before the first freeze: 1000 time units after the first write the limit of 5
has not been noticed. -/
example : (demo (.elapsed 5) none [(.ingest [1] 1, 10, .done), (.ingest [2] 2, 1010, .done)]).t.runs = [] := by
  decide +kernel

/-- A log of three transactions is opened under a limit of two batches: the first two are frozen together, the deletion
stays in memory. -/
example :
    let r := opened some id (.batches 2) 8 [((.up [1, 2] 1 : Payload Nat Nat), 5), (.up [3] 2, 5), (.del [1] 3, 6)]
    r.1 = true ∧ r.2.t.runs.length = 1 ∧ r.2.t.mem.dels.length = 1 ∧ r.2.met = ⟨1, 1, 0, 1⟩ ∧ r.2.lastSeal = some 5 := by
  decide +kernel

end Tonbo.Props.C69
