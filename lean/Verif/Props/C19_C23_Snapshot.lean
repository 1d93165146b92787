import Verif.Lemmas.SnapRead
import Verif.Lemmas.TxnHide
import Verif.Props.C21_C24_Txn

/-!
# C19, C20, C23: what a snapshot and a transaction read

A snapshot is opened in two steps: after the history `a` a thread reads the manifest, after a further
history `m` it reads the clock (`Db::begin_snapshot`). Then anything happens: `b`. The snapshot is read
after that.
-/

set_option linter.unusedSectionVars false
set_option synthInstance.maxSize 1000
set_option synthInstance.maxHeartbeats 200000

namespace Tonbo.Props.C19
open Tonbo.Model Tonbo.Model.Txn Tonbo.Model.Lsm Tonbo.Model.Manifest Tonbo.Model.Planner Tonbo.Model.Merge
open Tonbo.Spec Tonbo.Lemmas.Txn
open Tonbo.Lemmas.Lsm (Fitting everListed_iff isReopen)
open Tonbo.Props.C54 (Reports)
open Tonbo.Lemmas.Plan (ready_some)
open Tonbo.Lemmas.Sst (toVer_key)

variable {K R : Type} [LinearOrder K]

/-- The state in which the thread reads the manifest. -/
def atRead (e : Env K R) (cap sv : Nat) (a : List (Txn.Op K R)) : Sys K R := Txn.run e (Sys.new e cap sv) a

/-- The state in which it reads the clock. -/
def atOpen (e : Env K R) (cap sv : Nat) (a m : List (Txn.Op K R)) (p : Nat) : Sys K R :=
  Txn.run e (Sys.new e cap sv) (a ++ .readVersion p :: m)

/-- A later state. -/
def later (e : Env K R) (cap sv : Nat) (a m b : List (Txn.Op K R)) (p : Nat) : Sys K R :=
  Txn.run e (Sys.new e cap sv) (a ++ .readVersion p :: m ++ .openTxn p :: b)

/-- What this file assumes of a history: thread `p` is idle and then only waits for its manifest;
when it reads the clock, no write is between taking its timestamp and returning, and a timestamp has been
given out; from reading the manifest on no flush takes runs out of memory; no call on the memtable fails;
the tables that a merge has read when the manifest is read are such
that it reads them in step (`Fits`, C15). -/
structure Setting (e : Env K R) (cap sv : Nat) (a m b : List (Txn.Op K R)) (p : Nat) : Prop where
  rows : 0 < e.x.readRows
  idle : (atRead e cap sv a).procs p = .idle
  others : ∀ o ∈ m, ofThread p o = false
  quiet : Quiet (atOpen e cap sv a m p)
  clock : 0 < (atOpen e cap sv a m p).clock
  keep : ∀ o ∈ m ++ b, KeepsMemory o
  ok : (later e cap sv a m b p).ok = true
  fits : ∀ l en, EverListed (atRead e cap sv a).db e.table l en →
    ∀ f, (atRead e cap sv a).db.files ⟨l, en.id⟩ = some f → Fits e.x.readRows f

theorem run_other (e : Env K R) (p : Nat) : ∀ (ops : List (Txn.Op K R)) (s : Sys K R), (∀ o ∈ ops, ofThread p o = false) →
    (Txn.run e s ops).procs p = s.procs p
  | [], _, _ => rfl
  | o :: ops, s, h => by
    have := run_other e p ops (Txn.step e s o) (fun o' ho' => h o' (List.mem_cons_of_mem _ ho'))
    rw [step_other e s o p (h o List.mem_cons_self)] at this
    exact this

/-- The snapshot the thread gets. -/
theorem snapshot_opens {e : Env K R} {cap sv : Nat} {a m b : List (Txn.Op K R)} {p : Nat} (h : Setting e cap sv a m b p) :
    ∃ hd v, snapshotLatest (atRead e cap sv a).db.kv e.table = .ok (hd, v) ∧
      (later e cap sv a m [] p).procs p =
        .opened ⟨⟨(atOpen e cap sv a m p).clock - 1, v⟩, [], (atOpen e cap sv a m p).done.length⟩ := by
  have htr : TraceInv e (fun _ _ => True) cap sv (atRead e cap sv a) :=
    run_induct (fun _ _ h ht => traceInv_tr h ht) a _ (fun _ _ _ _ => trivial) (traceInv_new e _ cap sv)
  obtain ⟨n, _, hi⟩ := Lemmas.Lsm.inv_run h.rows (atRead e cap sv a).trace (Lemmas.Lsm.inv_new e.ext e.x cap e.table sv)
  rw [htr.run] at hi
  obtain ⟨hd0, hreg⟩ := hi.reg
  obtain ⟨hd, v, hv⟩ : ∃ hd v, snapshotLatest (atRead e cap sv a).db.kv e.table = .ok (hd, v) := by
    rcases Lemmas.Manifest.snapshotLatest_spec hreg with ⟨_, he⟩ | ⟨_, v, _, _, he⟩
    · exact ⟨_, _, he⟩
    · exact ⟨_, _, he⟩
  refine ⟨hd, v, hv, ?_⟩
  have h1 : (Txn.step e (atRead e cap sv a) (.readVersion p)).procs p = .opening v := by
    simp only [Txn.step, h.idle, hv, setProc_same]
  have h2 : (atOpen e cap sv a m p).procs p = .opening v := by
    unfold atOpen
    rw [run_append]
    exact (run_other e p m _ h.others).trans h1
  have h3 : later e cap sv a m [] p = Txn.step e (atOpen e cap sv a m p) (.openTxn p) := by
    unfold later atOpen
    rw [run_append]; rfl
  rw [h3]
  simp only [Txn.step, h2, setProc_same]

/-- The streams of a read of the snapshot, against the writes that had returned when it was opened. -/
theorem snapshot_streams {e : Env K R} {cap sv : Nat} {a m b : List (Txn.Op K R)} {p : Nat} (h : Setting e cap sv a m b p)
    {hd : Head} {v : Option (Version (Info K))}
    (hv : snapshotLatest (atRead e cap sv a).db.kv e.table = .ok (hd, v)) :
    let rts := (atOpen e cap sv a m p).clock - 1
    let db := (later e cap sv a m b p).db
    ∃ ss Hs, (∀ o, openStreams db (planScan db ⟨rts, v⟩) o =
        some ((match o with | some st => [txnStream st rts] | none => []) ++ ss)) ∧
      List.Forall₂ (Reports rts) ss Hs ∧ Functional (fun w => ∃ H ∈ Hs, H w) ∧
      ∀ k r, Visible (fun w => ∃ H ∈ Hs, H w) rts k r ↔ Visible (Finished e.ext (atOpen e cap sv a m p)) rts k r := by
  intro rts db
  -- invariants
  let Q : Sys K R → Txn.Op K R → Prop := fun _ _ => True
  let I : List R → Prop := fun _ => True
  have hI : ∀ (s : Sys K R) p rows, Q s (.ingest p rows) → I rows := fun _ _ _ h => h
  have inv : ∀ ops, LockInv e (Txn.run e (Sys.new e cap sv) ops) ∧
      StampInv e I (Txn.run e (Sys.new e cap sv) ops) ∧ TraceInv e Q cap sv (Txn.run e (Sys.new e cap sv) ops) := by
    intro ops
    refine run_induct (Q := Q) (P := fun s => LockInv e s ∧ StampInv e I s ∧ TraceInv e Q cap sv s) ?_ ops _
      (fun x o y hxy => trivial) ⟨lockInv_new e cap sv, stampInv_new e I cap sv, traceInv_new e Q cap sv⟩
    rintro s s' ⟨h1, h2, h3⟩ ht
    exact ⟨lockInv_tr h1 ht, stampInv_tr hI h1 h2 ht, traceInv_tr h3 ht⟩
  obtain ⟨_, st2, tr2⟩ := inv (a ++ .readVersion p :: m)
  obtain ⟨_, st3, tr3⟩ := inv (a ++ .readVersion p :: m ++ .openTxn p :: b)
  obtain ⟨_, _, tr0⟩ := inv a
  change StampInv e I (atOpen e cap sv a m p) at st2
  change TraceInv e Q cap sv (atOpen e cap sv a m p) at tr2
  change StampInv e I (later e cap sv a m b p) at st3
  change TraceInv e Q cap sv (later e cap sv a m b p) at tr3
  change TraceInv e Q cap sv (atRead e cap sv a) at tr0
  have e2 : atOpen e cap sv a m p = Txn.run e (atRead e cap sv a) (.readVersion p :: m) := run_append e _ _ _
  have e3 : later e cap sv a m b p = Txn.run e (atOpen e cap sv a m p) (.openTxn p :: b) := run_append e _ _ _
  have e03 : later e cap sv a m b p = Txn.run e (atRead e cap sv a) (.readVersion p :: m ++ .openTxn p :: b) := by
    rw [e3, e2, ← run_append]
  have hkeep : Along e (fun _ o => KeepsMemory o) (atRead e cap sv a) (.readVersion p :: m ++ .openTxn p :: b) := by
    intro x o y hxy
    have ho : o ∈ (.readVersion p :: m ++ .openTxn p :: b : List (Txn.Op K R)) := by rw [hxy]; simp
    simp only [List.cons_append, List.mem_cons, List.mem_append] at ho
    rcases ho with rfl | ho | rfl | ho
    · trivial
    · exact h.keep o (by simp [ho])
    · trivial
    · exact h.keep o (by simp [ho])
  have hok3 := h.ok
  have hok2 : (atOpen e cap sv a m p).ok = true :=
    ok_grows (Q := fun _ _ => True) _ (.openTxn p :: b) (fun _ _ _ _ => trivial) (by rw [← e3]; exact hok3)
  have hok0 : (atRead e cap sv a).ok = true := ok_grows _ _ hkeep (by rw [← e03]; exact hok3)
  obtain ⟨T1, ht1, hT1⟩ := trace_grows _ _ hkeep
  rw [← e03] at ht1
  -- what the streams hold
  have hfun := functional_log (I := I) st3 tr3 hok3
  rw [ht1] at hfun
  obtain ⟨ss, Hs, s1, s2, s3, s4, s5⟩ := snap_union (e := e) h.rows (cap := cap) (sv := sv) (T0 := (atRead e cap sv a).trace)
    (T1 := T1) (db0 := (atRead e cap sv a).db) (db3 := db) (by rw [tr0.run, hok0]) (by rw [← ht1, tr3.run, hok3])
    (fun o ho => by
      rcases tr0.ops o ho with ⟨hb, _⟩ | ⟨op, rfl⟩
      · cases o <;> first | rfl | cases hb
      · rfl)
    (fun o ho => by
      rcases hT1 o ho with ⟨hb, s', hq⟩ | ⟨op, rfl⟩
      · exact C21.keepsMemory_keepsMem hq hb
      · rfl)
    hfun (fun l en he => h.fits l en (everListed_iff.2 he)) hv rts
  refine ⟨ss, Hs, s1, s2, fun x y hx hy => hfun x y (s3 x hx) (s3 y hy), ?_⟩
  -- comparison with the finished writes
  have hrts : rts = (atOpen e cap sv a m p).clock - 1 := rfl
  have hclk := h.clock
  have hb2 : Beyond (later e cap sv a m b p) rts (atOpen e cap sv a m p).done.length := by
    rw [e3]
    exact beyond_run (Q := fun _ _ => True) _ (fun _ _ _ _ => trivial) (beyond_open h.quiet h.clock)
  obtain ⟨l, hl⟩ := done_grows (e := e) (Q := fun _ _ => True) (atOpen e cap sv a m p) (.openTxn p :: b) (fun _ _ _ _ => trivial)
  rw [← e3] at hl
  have old : ∀ w, (∃ H ∈ Hs, H w) → w.ts ≤ rts → Finished e.ext (atOpen e cap sv a m p) w := by
    intro w hw hle
    have hw' := s3 w hw
    rw [← ht1] at hw'
    rcases tr3.sound hok3 w hw' with ⟨d, hd, hwd⟩ | ⟨q, d, hq, hwd⟩
    · obtain ⟨i, hi⟩ := List.mem_iff_getElem?.1 hd
      by_cases hlt : i < (atOpen e cap sv a m p).done.length
      · rw [hl, List.getElem?_append_left hlt] at hi
        exact ⟨d, List.mem_of_getElem? hi, hwd⟩
      · have := hb2.done i d (by omega) hi
        rw [writesOf_ts hwd] at hle
        omega
    · have := hb2.fly q d (by rw [hq]; rfl)
      rw [writesOf_ts (List.mem_append_left _ hwd : w ∈ writesOf e.ext d)] at hle
      omega
  have fin_ts : ∀ w, Finished e.ext (atOpen e cap sv a m p) w → w.ts ≤ rts := by
    rintro w ⟨d, hd, hw⟩
    have := (st2.done d hd).1
    rw [writesOf_ts hw]
    omega
  have fin_log : ∀ w, Finished e.ext (atOpen e cap sv a m p) w → w ∈ logOf e.ext (later e cap sv a m b p).trace := by
    rintro w ⟨d, hd, hw⟩
    exact tr3.done d (by rw [hl]; exact List.mem_append_left _ hd) w hw
  have log2 : ∀ w ∈ logOf e.ext (atRead e cap sv a).trace, Finished e.ext (atOpen e cap sv a m p) w := by
    intro w hw
    obtain ⟨T, hT, _⟩ := trace_grows (e := e) (Q := fun _ _ => True) (atRead e cap sv a) (.readVersion p :: m) (fun _ _ _ _ => trivial)
    rw [← e2] at hT
    have hw2 : w ∈ logOf e.ext (atOpen e cap sv a m p).trace := by
      rw [hT, logOf_append]; exact List.mem_append_left _ hw
    rcases tr2.sound hok2 w hw2 with ⟨d, hd, hwd⟩ | ⟨q, d, hq, _⟩
    · exact ⟨d, hd, hwd⟩
    · have := h.quiet q
      rw [hq] at this
      cases this
  have cover : ∀ w, Finished e.ext (atOpen e cap sv a m p) w →
      ∃ u, (∃ H ∈ Hs, H u) ∧ Finished e.ext (atOpen e cap sv a m p) u ∧ u.key = w.key ∧ w.ts ≤ u.ts := by
    intro w hw
    have hwl := fin_log w hw
    rw [ht1, logOf_append] at hwl
    rcases List.mem_append.1 hwl with h0 | h1
    · obtain ⟨u, hu, hU, k1, k2⟩ := s5 w h0
      exact ⟨u, hU, log2 u hu, k1, k2⟩
    · exact ⟨w, s4 w h1, hw, rfl, le_refl _⟩
  have hfun' : Functional (fun w => w ∈ logOf e.ext ((atRead e cap sv a).trace ++ T1)) := hfun
  intro k r
  constructor
  · rintro ⟨ts, hw, hle, hmax⟩
    refine ⟨ts, old _ hw hle, hle, fun u hu hk hut => ?_⟩
    obtain ⟨u', hU, hF, k1, k2⟩ := cover u hu
    exact le_trans k2 (hmax u' hU (k1.trans hk) (fin_ts u' hF))
  · rintro ⟨ts, hw, hle, hmax⟩
    obtain ⟨u, hU, hF, k1, k2⟩ := cover _ hw
    have h1 := hmax u hF k1 (fin_ts u hF)
    have hts : u.ts = ts := le_antisymm h1 k2
    have hop : u.op = .put r := hfun' u ⟨k, ts, .put r⟩ (s3 u hU) (by rw [← ht1]; exact fin_log _ hw) k1 hts
    obtain ⟨uk, ut, uo⟩ := u
    simp only at k1 hts hop
    subst k1 hts hop
    exact ⟨ut, hU, hle, fun u' hu' hk' hle' => hmax u' (old u' hu' hle') hk' hle'⟩

/-- **C19 and C20, partial.** A scan of the snapshot, at any time after it was opened, succeeds and returns
exactly the rows visible in the writes whose calls had returned when the snapshot was opened: all the rows
of each of them, and nothing of any other. Missing: the conditions in `Setting`; without the ones on open
calls, on the clock and on flushes the claim is false (theorems below). -/
theorem a_snapshot_shows_what_was_committed_partial {e : Env K R} {cap sv : Nat} {a m b : List (Txn.Op K R)} {p : Nat}
    (h : Setting e cap sv a m b p) :
    ∃ t, (later e cap sv a m [] p).procs p = .opened t ∧
      ∃ out, scanSnap (later e cap sv a m b p).db t.snap = some out ∧
        IsScan (Finished e.ext (atOpen e cap sv a m p)) t.snap.rts (rowsOf out) := by
  obtain ⟨hd, v, hv, hp⟩ := snapshot_opens h
  refine ⟨_, hp, ?_⟩
  obtain ⟨ss, Hs, s1, s2, s3, s4⟩ := snapshot_streams h hv
  obtain ⟨tr, m1, m2⟩ := C54.merged s2 s3
  refine ⟨C05.ready tr, ?_, m2.1, fun k r => (m2.2 k r).trans (s4 k r)⟩
  unfold scanSnap runScan
  rw [s1 none]
  simp only [List.nil_append, m1, Option.map_some]

theorem isScan_unique {H : Ver K R → Prop} {rts : Nat} {l l' : List (K × R)} (h : IsScan H rts l) (h' : IsScan H rts l') :
    l = l' :=
  SMap.sorted_ext h.1 h'.1 (fun q => (h.2 q.1 q.2).trans (h'.2 q.1 q.2).symm)

/-- **C19, partial.** Scanning the same snapshot object at two times returns the same rows. -/
theorem a_held_snapshot_is_stable_partial {e : Env K R} {cap sv : Nat} {a m b c : List (Txn.Op K R)} {p : Nat}
    (h : Setting e cap sv a m b p) (h' : Setting e cap sv a m (b ++ c) p) :
    ∃ t, (later e cap sv a m [] p).procs p = .opened t ∧
      ∃ out out', scanSnap (later e cap sv a m b p).db t.snap = some out ∧
        scanSnap (later e cap sv a m (b ++ c) p).db t.snap = some out' ∧ rowsOf out = rowsOf out' := by
  obtain ⟨t, h1, out, h2, h3⟩ := a_snapshot_shows_what_was_committed_partial h
  obtain ⟨t', h1', out', h2', h3'⟩ := a_snapshot_shows_what_was_committed_partial h'
  rw [h1] at h1'
  cases h1'
  exact ⟨t, h1, out, out', h2, h2', isScan_unique h3 h3'⟩

/-! ## C23 -/

/-- Merging staged mutations with the sources of a snapshot. -/
theorem overlay_merge {rts : Nat} {ss : List (Prio × List (Option (Mem.Entry K R)))} {Hs : List (Ver K R → Prop)}
    (h : List.Forall₂ (Reports rts) ss Hs) (hf : Functional (fun w => ∃ H ∈ Hs, H w)) {st : List (K × Stage R)}
    (hst : SMap.Sorted st) :
    ∃ tr, mergeAll (txnStream st rts :: ss) none = some tr ∧
      (rowsOf (C05.ready tr)).Pairwise (fun x y => x.1 < y.1) ∧
      ∀ k r, (k, r) ∈ rowsOf (C05.ready tr) ↔ (k, Stage.up r) ∈ st ∨
        ((∀ s, (k, s) ∉ st) ∧ Visible (fun w => ∃ H ∈ Hs, H w) rts k r) := by
  have hlen : ss.length = Hs.length := h.length_eq
  have htx : C05.ready (txnStream st rts).2 =
      st.map (fun p => (match p.2 with | .up r => Mem.Entry.row ⟨p.1, rts⟩ r | .del => .tomb ⟨p.1, rts⟩)) := by
    unfold txnStream
    have := ready_some (st.map (fun p => (match p.2 with | .up r => Mem.Entry.row ⟨p.1, rts⟩ r | .del => .tomb ⟨p.1, rts⟩)))
    rw [List.map_map] at this
    exact this
  have hkt : ∀ en ∈ C05.ready (txnStream st rts).2, ∃ s, (en.kt.key, s) ∈ st ∧ en.kt.ts = rts ∧
      (en = match s with | .up r => Mem.Entry.row ⟨en.kt.key, rts⟩ r | .del => .tomb ⟨en.kt.key, rts⟩) := by
    intro en hen
    rw [htx] at hen
    obtain ⟨⟨k, s⟩, hm, rfl⟩ := List.mem_map.1 hen
    cases s <;> exact ⟨_, hm, rfl, rfl⟩
  have hin : ∀ k s, (k, s) ∈ st → (match s with | .up r => Mem.Entry.row ⟨k, rts⟩ r | .del => .tomb ⟨k, rts⟩) ∈
      C05.ready (txnStream st rts).2 := by
    intro k s hm
    rw [htx]
    exact List.mem_map.2 ⟨(k, s), hm, rfl⟩
  have hasc0 : ((C05.ready (txnStream st rts).2)).Pairwise (fun x y => x.kt.key < y.kt.key) := by
    rw [htx, List.pairwise_map]
    refine hst.imp ?_
    rintro ⟨k, s⟩ ⟨k', s'⟩ hlt
    cases s <;> cases s' <;> exact hlt
  have hasc : ∀ ps ∈ txnStream st rts :: ss, (C05.ready ps.2).Pairwise (fun x y => x.kt.key < y.kt.key) := by
    intro ps hps
    rcases List.mem_cons.1 hps with rfl | hps
    · exact hasc0
    · obtain ⟨i, hi⟩ := List.mem_iff_getElem?.1 hps
      obtain ⟨H, _, hr⟩ := Lemmas.Plan.forall₂_getElem? h hi
      have := hr.1
      rw [List.pairwise_map] at this
      exact this.imp (fun hlt => by simpa [toVer_key] using hlt)
  obtain ⟨tr, m1, m2, m3⟩ := C05.merged_entries _ hasc
  obtain ⟨tr', n1, n2, n3, _⟩ := C05.merged_scan_on (txnStream st rts :: ss)
    (fun i w => 0 < i ∧ ∃ H, Hs[i - 1]? = some H ∧ H w) rts (fun k => ∀ s, (k, s) ∉ st)
    (fun ps hps => by
      rw [List.pairwise_map]
      exact (hasc ps hps).imp (fun hlt => by simpa [toVer_key] using hlt))
    (by
      intro i q s hi w hw
      cases i with
      | zero =>
        simp only [List.getElem?_cons_zero, Option.some.injEq] at hi
        constructor
        · intro hm
          obtain ⟨en, hen, rfl⟩ := List.mem_map.1 hm
          have : s = (txnStream st rts).2 := by rw [hi]
          rw [this] at hen
          obtain ⟨s', h1, _⟩ := hkt en hen
          rw [toVer_key] at hw
          exact absurd h1 (hw s')
        · rintro ⟨⟨h0, _⟩, _⟩; omega
      | succ i =>
        simp only [List.getElem?_cons_succ] at hi
        obtain ⟨H, hH, hr⟩ := Lemmas.Plan.forall₂_getElem? h hi
        have : (fun w => 0 < i + 1 ∧ ∃ H, Hs[i + 1 - 1]? = some H ∧ H w) = H := by
          funext w; simp [hH]
        rw [this, hr.2 w]
        simp)
    (by
      intro k _ x y hx hy
      obtain ⟨_, i, _, _, H, hH, hx⟩ := hx
      obtain ⟨_, j, _, _, H', hH', hy⟩ := hy
      exact hf x y ⟨H, List.mem_of_getElem? hH, hx⟩ ⟨H', List.mem_of_getElem? hH', hy⟩)
  rw [m1] at n1
  cases n1
  have hu : (fun w => ∃ i < (txnStream st rts :: ss).length, 0 < i ∧ ∃ H, Hs[i - 1]? = some H ∧ H w) = fun w => ∃ H ∈ Hs, H w := by
    funext w
    apply propext
    constructor
    · rintro ⟨i, _, _, H, hH, hw⟩
      exact ⟨H, List.mem_of_getElem? hH, hw⟩
    · rintro ⟨H, hH, hw⟩
      obtain ⟨i, hi⟩ := List.mem_iff_getElem?.1 hH
      refine ⟨i + 1, ?_, by omega, H, by simpa using hi, hw⟩
      have := (List.getElem?_eq_some_iff.1 hi).1
      simp only [List.length_cons]
      omega
  rw [hu] at n3
  refine ⟨tr, m1, n2, fun k r => ?_⟩
  by_cases hk : ∀ s, (k, s) ∉ st
  · rw [n3 k r hk]
    constructor
    · exact fun hv => .inr ⟨hk, hv⟩
    · rintro (hm | ⟨_, hv⟩)
      · exact absurd hm (hk _)
      · exact hv
  · have hk' : ∃ s, (k, s) ∈ st := by
      by_contra hc
      exact hk (fun s hs => hc ⟨s, hs⟩)
    obtain ⟨s, hs⟩ := hk'
    constructor
    · intro hm
      obtain ⟨ts, hm⟩ := C05.mem_rowsOf.1 hm
      obtain ⟨_, i, q, l, hi, hl, hmax⟩ := (m3 _).1 hm
      have := hmax 0 Prio.txn (txnStream st rts).2 _ rfl (hin k s hs) (by cases s <;> rfl)
      have hle : ts ≤ rts := by
        cases i with
        | zero =>
          simp only [List.getElem?_cons_zero, Option.some.injEq] at hi
          have e1 : l = (txnStream st rts).2 := by rw [hi]
          rw [e1] at hl
          obtain ⟨_, _, h2, _⟩ := hkt _ hl
          exact le_of_eq h2
        | succ i =>
          simp only [List.getElem?_cons_succ] at hi
          obtain ⟨H, _, hr⟩ := Lemmas.Plan.forall₂_getElem? h hi
          exact ((hr.2 _).1 (List.mem_map.2 ⟨_, hl, rfl⟩)).2.2.1
      have hts : (match s with | .up r => Mem.Entry.row (⟨k, rts⟩ : KT K) r | .del => .tomb ⟨k, rts⟩).kt.ts = rts := by
        cases s <;> rfl
      rw [hts] at this
      have hrow : (Mem.Entry.row (⟨k, ts⟩ : KT K) r).kt.ts = ts := rfl
      rw [hrow] at this
      rcases this with hlt | ⟨_, hrank⟩
      · omega
      · have hq : q = Prio.txn := by
          rcases hrank with hlt | ⟨heq, _⟩
          · cases q <;> simp [Prio.rank] at hlt
          · cases q <;> simp [Prio.rank] at heq
            rfl
        -- the entry is a staged one: only the first source has this priority or the first wins
        have hi0 : i = 0 := by
          rcases hrank with hlt | ⟨_, hle⟩
          · rw [hq] at hlt; simp at hlt
          · omega
        subst hi0
        simp only [List.getElem?_cons_zero, Option.some.injEq] at hi
        have e1 : l = (txnStream st rts).2 := by rw [hi]
        rw [e1] at hl
        obtain ⟨s', h1, _, h3⟩ := hkt _ hl
        have : s' = .up r := by
          cases s' with
          | del => cases h3
          | up r' => cases h3; rfl
        rw [this] at h1
        exact .inl h1
    · rintro (hm | ⟨hno, _⟩)
      · refine C05.mem_rowsOf.2 ⟨rts, (m3 _).2 ⟨rfl, 0, Prio.txn, (txnStream st rts).2, rfl, hin k (.up r) hm, ?_⟩⟩
        intro j q l en hj hen hkey
        cases j with
        | zero =>
          simp only [List.getElem?_cons_zero, Option.some.injEq] at hj
          have e1 : l = (txnStream st rts).2 := by rw [hj]
          have e2 : q = Prio.txn := by
            have := congrArg Prod.fst hj
            exact this.symm
          rw [e1] at hen
          obtain ⟨_, _, h2, _⟩ := hkt _ hen
          exact .inr ⟨h2, .inr ⟨by rw [e2], le_refl _⟩⟩
        | succ j =>
          simp only [List.getElem?_cons_succ] at hj
          obtain ⟨H, _, hr⟩ := Lemmas.Plan.forall₂_getElem? h hj
          have hle : en.kt.ts ≤ rts := by
            have := ((hr.2 _).1 (List.mem_map.2 ⟨_, hen, rfl⟩)).2.2.1
            cases en <;> exact this
          rcases Nat.lt_or_eq_of_le hle with hlt | heq
          · exact .inl hlt
          · refine .inr ⟨heq, ?_⟩
            cases q
            · exact .inr ⟨rfl, by omega⟩
            all_goals exact .inl (by decide)
      · exact absurd hs (hno s)

/-- Thread `p` neither ends nor commits its transaction. -/
def staysOpen (p : Nat) : Txn.Op K R → Bool
  | .abort q | .commit q => q != p
  | _ => true

/-- The staged entries after a list of mutations. -/
def stagedBy (l : List (K × Stage R)) (st : List (K × Stage R)) : List (K × Stage R) :=
  l.foldl (fun st p => SMap.insert p.1 p.2 st) st

theorem staging_run (e : Env K R) (p : Nat) : ∀ (ops : List (Txn.Op K R)) (s : Sys K R) (t : Txn K R),
    s.procs p = .opened t → (∀ o ∈ ops, staysOpen p o = true) →
    (Txn.run e s ops).procs p = .opened { t with staged := stagedBy (staging e.ext p ops) t.staged }
  | [], s, t, h, _ => h
  | o :: ops, s, t, h, ho => by
    have ih := fun s' t' h' => staging_run e p ops s' t' h' (fun o' ho' => ho o' (List.mem_cons_of_mem _ ho'))
    have ho0 := ho o List.mem_cons_self
    cases hof : ofThread p o with
    | false =>
      have h' : (Txn.step e s o).procs p = .opened t := by rw [step_other e s o p hof]; exact h
      have hst : staging e.ext p (o :: ops) = staging e.ext p ops := by
        cases o <;> simp only [ofThread, beq_eq_false_iff_ne, ne_eq] at hof <;> simp [staging, hof]
      rw [hst]
      exact ih _ t h'
    | true =>
      cases o with
      | lsm o => cases hof
      | readVersion q =>
        obtain rfl : q = p := by simpa [ofThread] using hof
        exact ih _ t (by simp only [Txn.step, h])
      | openTxn q =>
        obtain rfl : q = p := by simpa [ofThread] using hof
        exact ih _ t (by simp only [Txn.step, h])
      | ingest q rows =>
        obtain rfl : q = p := by simpa [ofThread] using hof
        exact ih _ t (by simp only [Txn.step, h])
      | advance q =>
        obtain rfl : q = p := by simpa [ofThread] using hof
        exact ih _ t (by simp only [Txn.step, advance, h])
      | abort q =>
        obtain rfl : q = p := by simpa [ofThread] using hof
        simp [staysOpen] at ho0
      | commit q =>
        obtain rfl : q = p := by simpa [ofThread] using hof
        simp [staysOpen] at ho0
      | upsert q r =>
        obtain rfl : q = p := by simpa [ofThread] using hof
        cases hk : e.ext r with
        | none =>
          have hst : staging e.ext q (.upsert q r :: ops) = staging e.ext q ops := by simp [staging, hk]
          rw [hst]
          exact ih _ t (by simp only [Txn.step, h, hk])
        | some k =>
          have hst : staging e.ext q (.upsert q r :: ops) = (k, .up r) :: staging e.ext q ops := by simp [staging, hk]
          rw [hst]
          exact ih _ { t with staged := SMap.insert k (.up r) t.staged } (by simp only [Txn.step, h, hk, setProc_same])
      | delete q k =>
        obtain rfl : q = p := by simpa [ofThread] using hof
        have hst : staging e.ext q (.delete q k :: ops) = (k, .del) :: staging e.ext q ops := by simp [staging]
        rw [hst]
        exact ih _ { t with staged := SMap.insert k .del t.staged } (by simp only [Txn.step, h, setProc_same])

theorem stagedBy_spec (l : List (K × Stage R)) : ∀ st : List (K × Stage R), SMap.Sorted st →
    SMap.Sorted (stagedBy l st) ∧ ∀ k, SMap.get? k (stagedBy l st) = (lastFor l k).or (SMap.get? k st) := by
  induction l with
  | nil => intro st h; exact ⟨h, fun k => by simp [lastFor, stagedBy]⟩
  | cons q l ih =>
    intro st h
    obtain ⟨h1, h2⟩ := ih (SMap.insert q.1 q.2 st) (SMap.sorted_insert h)
    refine ⟨h1, fun k => ?_⟩
    have := h2 k
    unfold stagedBy at this ⊢
    rw [List.foldl_cons, this, SMap.get?_insert h]
    unfold lastFor
    rw [List.reverse_cons, List.find?_append]
    cases hf : l.reverse.find? (fun p => decide (p.1 = k)) with
    | some z => simp
    | none =>
      by_cases hq : q.1 = k
      · simp [hq]
      · have hq' : ¬ k = q.1 := fun hc => hq hc.symm
        simp [hq, hq']

/-- **C23, partial.** A scan inside a transaction returns for each key the last value staged for it, nothing
for a key whose last staged mutation is a delete, and the value of the snapshot for all other keys, where
that is the value in the writes that had returned when the transaction was opened. -/
theorem a_transaction_reads_its_own_writes_partial {e : Env K R} {cap sv : Nat} {a m b : List (Txn.Op K R)} {p : Nat}
    (h : Setting e cap sv a m b p) (hopen : ∀ o ∈ b, staysOpen p o = true) :
    ∃ t, (later e cap sv a m b p).procs p = .opened t ∧
      ∃ out, scanTxn (later e cap sv a m b p).db t = some out ∧
        (rowsOf out).Pairwise (fun x y => x.1 < y.1) ∧
        ∀ k r, (k, r) ∈ rowsOf out ↔
          match lastFor (staging e.ext p b) k with
          | some (.up r') => r = r'
          | some .del => False
          | none => Visible (Finished e.ext (atOpen e cap sv a m p)) t.snap.rts k r := by
  obtain ⟨hd, v, hv, hp⟩ := snapshot_opens h
  have hl : later e cap sv a m b p = Txn.run e (later e cap sv a m [] p) b := by
    unfold later
    rw [← run_append, List.append_assoc, List.append_assoc, List.append_assoc]; rfl
  have hp' := staging_run e p b _ _ hp hopen
  rw [← hl] at hp'
  refine ⟨_, hp', ?_⟩
  obtain ⟨ss, Hs, s1, s2, s3, s4⟩ := snapshot_streams h hv
  obtain ⟨hsort, hget⟩ := stagedBy_spec (staging e.ext p b) [] (by simp [SMap.Sorted])
  obtain ⟨tr, m1, m2, m3⟩ := overlay_merge s2 s3 hsort
  refine ⟨C05.ready tr, ?_, m2, fun k r => ?_⟩
  · unfold scanTxn runScan
    simp only
    rw [s1 (some _)]
    simp only [List.cons_append, List.nil_append, m1, Option.map_some]
  · rw [m3 k r]
    have hget := hget k
    simp only [SMap.get?, Option.or_none] at hget
    rw [← hget]
    cases hg : SMap.get? k (stagedBy (staging e.ext p b) []) with
    | none =>
      have hno := SMap.get?_none_iff.1 hg
      simp only
      rw [← s4 k r]
      constructor
      · rintro (hm | ⟨_, hvis⟩)
        · exact absurd rfl (hno _ hm)
        · exact hvis
      · exact fun hvis => .inr ⟨fun s hs => hno _ hs rfl, hvis⟩
    | some s =>
      have hm := (SMap.get?_eq_some hsort).1 hg
      cases s with
      | up r' =>
        simp only
        constructor
        · rintro (hm' | ⟨hno, _⟩)
          · have := sorted_unique hsort hm' hm
            cases this; rfl
          · exact absurd hm (hno _)
        · rintro rfl; exact .inl hm
      | del =>
        simp only [iff_false]
        rintro (hm' | ⟨hno, _⟩)
        · have := sorted_unique hsort hm' hm
          cases this
        · exact hno _ hm

/-- **C23, partial.** `get` of a key that the transaction has staged returns the last staged value, or nothing
for a delete, in every state of the database. -/
theorem get_of_a_staged_key_partial (e : Env K R) (s : Sys K R) (p : Nat) (snap : Snap K) (began : Nat)
    (ops : List (Txn.Op K R)) (hp : s.procs p = .opened ⟨snap, [], began⟩) (hopen : ∀ o ∈ ops, staysOpen p o = true)
    (k : K) (st : Stage R) (hk : lastFor (staging e.ext p ops) k = some st) (db : Db K R) :
    ∃ t, (Txn.run e s ops).procs p = .opened t ∧
      getTxn db t k = some (match st with | .up r => some r | .del => none) := by
  refine ⟨_, staging_run e p ops s _ hp hopen, ?_⟩
  obtain ⟨hsort, hget⟩ := stagedBy_spec (staging e.ext p ops) [] (by simp [SMap.Sorted])
  have hg := hget k
  rw [hk] at hg
  simp only [SMap.get?, Option.or_none] at hg
  have hm := (SMap.get?_eq_some hsort).1 hg
  unfold getTxn
  simp only
  cases hf : (stagedBy (staging e.ext p ops) []).find? (fun q => decide (q.1 = k)) with
  | none =>
    have := List.find?_eq_none.1 hf _ hm
    simp at this
  | some z =>
    obtain ⟨zk, zs⟩ := z
    have h1 := List.mem_of_find?_eq_some hf
    have h2 := List.find?_some hf
    simp only [decide_eq_true_eq] at h2
    subst h2
    have := sorted_unique hsort h1 hm
    subst this
    cases zs <;> rfl

/-- The rows of a source that reports a history. -/
theorem reports_rows {rts : Nat} {q : Prio} {es : List (Mem.Entry K R)} {H : Ver K R → Prop} (h : Reports rts (q, es.map some) H) :
    (rowsOf es).Pairwise (fun x y => x.1 < y.1) ∧ ∀ k r, (k, r) ∈ rowsOf es ↔ Visible H rts k r := by
  have hr : C05.ready (es.map some) = es := ready_some es
  unfold Reports at h
  simp only [hr] at h
  constructor
  · have h1 := h.1
    rw [List.pairwise_map] at h1
    unfold rowsOf
    rw [List.pairwise_filterMap]
    refine h1.imp ?_
    intro x y hxy b hb c hc
    cases x <;> cases y <;> simp at hb hc
    subst hb hc
    exact hxy
  · intro k r
    rw [C05.mem_rowsOf]
    constructor
    · rintro ⟨t, ht⟩
      have := (h.2 ⟨k, t, .put r⟩).1 (List.mem_map.2 ⟨_, ht, rfl⟩)
      exact ⟨t, this.2.1, this.2.2.1, this.2.2.2⟩
    · rintro ⟨t, h1, h2, h3⟩
      have := (h.2 ⟨k, t, .put r⟩).2 ⟨trivial, h1, h2, h3⟩
      obtain ⟨en, hen, he⟩ := List.mem_map.1 this
      cases en with
      | tomb kt => cases he
      | row kt r' => cases he; exact ⟨_, hen⟩

/-- **C23, partial.** `get` of a key that the transaction has not staged returns the value in the writes that had
returned when the transaction was opened, if nothing has been frozen or flushed so far. Missing: frozen runs and
tables, for which the claim is false (theorems below). -/
theorem get_of_another_key_partial {e : Env K R} {cap sv : Nat} {a m b : List (Txn.Op K R)} {p : Nat}
    (h : Setting e cap sv a m b p) (hopen : ∀ o ∈ b, staysOpen p o = true) (hruns : (later e cap sv a m b p).db.runs.runs = []) :
    ∃ t, (later e cap sv a m b p).procs p = .opened t ∧ (t.snap.version = none → ∀ k, lastFor (staging e.ext p b) k = none →
      ∃ o, getTxn (later e cap sv a m b p).db t k = some o ∧
        ∀ r, o = some r ↔ Visible (Finished e.ext (atOpen e cap sv a m p)) t.snap.rts k r) := by
  obtain ⟨hd, v, hv, hp⟩ := snapshot_opens h
  have hl : later e cap sv a m b p = Txn.run e (later e cap sv a m [] p) b := by
    unfold later
    rw [← run_append, List.append_assoc, List.append_assoc, List.append_assoc]; rfl
  have hp' := staging_run e p b _ _ hp hopen
  rw [← hl] at hp'
  refine ⟨_, hp', ?_⟩
  simp only
  rintro rfl k hk
  obtain ⟨ss, Hs, s1, s2, s3, s4⟩ := snapshot_streams h hv
  obtain ⟨hsort, hget⟩ := stagedBy_spec (staging e.ext p b) [] (by simp [SMap.Sorted])
  have hg := hget k
  rw [hk] at hg
  simp only [SMap.get?, Option.or_none] at hg
  have hno := SMap.get?_none_iff.1 hg
  have hfind : (stagedBy (staging e.ext p b) []).find? (fun q => decide (q.1 = k)) = none :=
    List.find?_eq_none.2 (fun q hq => by simpa using hno q hq)
  set db := (later e cap sv a m b p).db
  set rts := (atOpen e cap sv a m p).clock - 1
  -- the only source is the mutable table
  obtain ⟨es, hes, hvis⟩ : ∃ es, Mem.scan db.runs.mem none rts = some es ∧ (rowsOf es).Pairwise (fun x y => x.1 < y.1) ∧
      ∀ k r, (k, r) ∈ rowsOf es ↔ Visible (fun w => ∃ H ∈ Hs, H w) rts k r := by
    have h1 := s1 none
    unfold openStreams planScan at h1
    simp only [snapFiles, hruns, List.length_nil, List.range_zero, List.filterMap_nil, immStreams, sstStreams, List.mapM_nil] at h1
    cases hi : db.runs.mem.index.isEmpty with
    | true =>
      rw [hi] at h1
      have hss : ss = [] := by simpa using h1.symm
      subst hss
      cases s2
      refine ⟨[], ?_, by simp [rowsOf], fun k r => ?_⟩
      · unfold Mem.scan
        rw [List.isEmpty_iff.1 hi]
        rfl
      · constructor
        · intro hm; simp [rowsOf] at hm
        · rintro ⟨_, ⟨H, hH, _⟩, _⟩; cases hH
    | false =>
      rw [hi] at h1
      cases hsc : Mem.scan db.runs.mem none rts with
      | none => simp [memStream, hsc] at h1
      | some es =>
        have hss : ss = [(Prio.mutable, es.map some)] := by
          simp [memStream, hsc] at h1
          exact h1.symm
        subst hss
        cases s2 with
        | cons hr ht =>
          cases ht
          obtain ⟨r1, r2⟩ := reports_rows hr
          refine ⟨es, rfl, r1, fun k r => ?_⟩
          rw [r2 k r]
          simp
  have hmem : memRows db rts = some (rowsOf es, []) := by
    unfold memRows
    rw [hes, hruns]
    simp only [List.mapM_nil]
    rfl
  refine ⟨((rowsOf es).find? (fun q => q.1 = k)).map (·.2), ?_, fun r => ?_⟩
  · unfold getTxn
    simp only [hfind, hmem, List.flatten_nil, List.append_nil]
  · rw [← s4 k r, ← hvis.2 k r, Option.map_eq_some_iff]
    constructor
    · rintro ⟨⟨k', r'⟩, hf, rfl⟩
      have h1 := List.mem_of_find?_eq_some hf
      have h2 := List.find?_some hf
      simp only [decide_eq_true_eq] at h2
      subst h2
      exact h1
    · intro hm
      cases hf : (rowsOf es).find? (fun q => decide (q.1 = k)) with
      | none => simpa using List.find?_eq_none.1 hf _ hm
      | some z =>
        obtain ⟨zk, zr⟩ := z
        have h1 := List.mem_of_find?_eq_some hf
        have h2 := List.find?_some hf
        simp only [decide_eq_true_eq] at h2
        subst h2
        exact ⟨_, rfl, sorted_unique hvis.1 h1 hm⟩

/-! ## A concrete history -/
section Example
open C21 C38

theorem finite_run {e : Env K R} {n : Nat} : ∀ (l : List (Txn.Op K R)) (s : Sys K R), Finite s n →
    (∀ o ∈ l, below n o = true) → Finite (Txn.run e s l) n
  | [], _, hs, _ => hs
  | o :: l, _, hs, hl =>
    finite_run l _ (finite_step hs (hl o List.mem_cons_self)) (fun o' ho' => hl o' (List.mem_cons_of_mem _ ho'))

theorem quiet_of {s : Sys K R} {n : Nat} (hf : Finite s n)
    (h : (List.range n).all (fun q => (inFlight (s.procs q)).isNone) = true) : Quiet s := by
  intro q
  by_cases hq : q < n
  · exact Option.isNone_iff_eq_none.1 (List.all_eq_true.1 h q (List.mem_range.2 hq))
  · rw [hf q (by omega)]; rfl

def exKeeps : Txn.Op Nat Nat → Bool
  | .lsm .flushDrain => false
  | _ => true

theorem exKeeps_iff {o : Txn.Op Nat Nat} (h : exKeeps o = true) : KeepsMemory o := by
  cases o with
  | lsm o => cases o <;> first | trivial | cases h
  | _ => trivial

/-- Two ingests with a flush between. -/
def exA : List (Txn.Op Nat Nat) := ingest' 0 [11, 21] ++ flush' ++ ingest' 0 [14, 31, 12]
/-- A freeze, while the snapshot is being opened. -/
def exM : List (Txn.Op Nat Nat) := [.lsm (.write .freeze)]
/-- Another transaction commits; the first one stages two mutations; tables are written and published. -/
def exB : List (Txn.Op Nat Nat) :=
  begin' 2 ++ [.upsert 2 13, .delete 2 2] ++ commit' 2 ++ [.upsert 1 32, .delete 1 1, .upsert 1 41] ++
  [.lsm (.write .freeze), .lsm (.flushWrite (some [seg 2])), .lsm .flushPublish] ++ ingest' 0 [51]

theorem ex_setting : Setting exE 4 0 exA exM exB 1 where
  rows := by decide
  idle := isIdle_iff.1 (by decide +kernel)
  others := by decide
  quiet := quiet_of (n := 3) (finite_run _ _ (fun _ _ => rfl) (by decide)) (by decide +kernel)
  clock := by decide +kernel
  keep := fun o ho => exKeeps_iff ((by decide : ∀ o ∈ exM ++ exB, exKeeps o = true) o ho)
  ok := by decide +kernel
  fits := by
    have hfiles : (atRead exE 4 0 exA).db.files = setFile (fun _ => none) ⟨0, 1⟩
      (some ⟨[(⟨1, 0⟩, 11), (⟨2, 0⟩, 21)], []⟩) := rfl
    intro l e _ f hf
    refine .inr (.inr (.inl ?_))
    rw [hfiles] at hf
    unfold setFile at hf
    split_ifs at hf <;> cases hf <;> decide

/-- What it reads: the other commit and the later ingest do not show. -/
example : ∃ t, (later exE 4 0 exA exM [] 1).procs 1 = .opened t ∧
    (scanSnap (later exE 4 0 exA exM exB 1).db t.snap).map rowsOf = some [(1, 12), (2, 21), (3, 31)] ∧
    staging exExt 1 exB = [(3, .up 32), (1, .del), (4, .up 41)] ∧ (∀ o ∈ exB, staysOpen 1 o = true) := by
  refine ⟨_, rfl, by decide +kernel, by decide, by decide⟩

/-- A scan in the transaction of a thread. -/
def exScan (s : Sys Nat Nat) (p : Nat) : Option (List (Nat × Nat)) :=
  match s.procs p with
  | .opened t => (scanTxn s.db t).map rowsOf
  | _ => none

example : exScan (later exE 4 0 exA exM exB 1) 1 = some [(2, 21), (3, 32), (4, 41)] := by decide +kernel

/-- Nothing frozen yet: `get` finds the rows of the snapshot. -/
example : ∃ t, (later exE 4 0 (ingest' 0 [11, 21]) [] (ingest' 0 [12] ++ [.upsert 1 31]) 1).procs 1 = .opened t ∧
    t.snap.version = none ∧ (later exE 4 0 (ingest' 0 [11, 21]) [] (ingest' 0 [12] ++ [.upsert 1 31]) 1).db.runs.runs = [] ∧
    getTxn (later exE 4 0 (ingest' 0 [11, 21]) [] (ingest' 0 [12] ++ [.upsert 1 31]) 1).db t 1 = some (some 11) ∧
    getTxn (later exE 4 0 (ingest' 0 [11, 21]) [] (ingest' 0 [12] ++ [.upsert 1 31]) 1).db t 3 = some (some 31) :=
  ⟨_, rfl, rfl, by decide +kernel, by decide +kernel, by decide +kernel⟩

/-! ## Where the claims are false

In each case every call returns `Ok`. -/

/-- A scan of the snapshot that a thread holds. -/
def exSnap (s s' : Sys Nat Nat) (p : Nat) : Option (List (Nat × Nat)) :=
  match s.procs p with
  | .opened t => (scanSnap s'.db t.snap).map rowsOf
  | _ => none

/-- **C19 is false** when a flush ends while the snapshot is held: the rows leave memory, and the tables they
are in are not in the version the snapshot holds (db/scan.rs:212-280, db/mod.rs:1094-1204). The scan
succeeds and returns nothing. -/
theorem a_flush_empties_a_held_snapshot : ∃ a b : List (Txn.Op Nat Nat),
    (later exE 4 0 a [] b 1).ok = true ∧ Quiet (atOpen exE 4 0 a [] 1) ∧
    exSnap (later exE 4 0 a [] [] 1) (later exE 4 0 a [] [] 1) 1 = some [(1, 11), (2, 21)] ∧
    exSnap (later exE 4 0 a [] [] 1) (later exE 4 0 a [] b 1) 1 = some [] :=
  ⟨ingest' 0 [11, 21], flush', by decide +kernel,
    quiet_of (n := 3) (finite_run _ _ (fun _ _ => rfl) (by decide)) (by decide +kernel), by decide +kernel, by decide +kernel⟩

/-- **C20 is false** when a flush ends between the two steps of opening a snapshot (db/mod.rs:822-826): what
it moved to the new version is in no place the snapshot looks at, though it was committed before. -/
theorem a_flush_during_opening_hides_rows : ∃ a m : List (Txn.Op Nat Nat),
    (later exE 4 0 a m [] 1).ok = true ∧ Quiet (atOpen exE 4 0 a m 1) ∧
    (atRead exE 4 0 a).done.map (fun w => (w.ts, w.ups)) = [(0, some [11, 21])] ∧
    exSnap (later exE 4 0 a m [] 1) (later exE 4 0 a m [] 1) 1 = some [] :=
  ⟨ingest' 0 [11, 21], flush', by decide +kernel,
    quiet_of (n := 3) (finite_run _ _ (fun _ _ => rfl) (by decide)) (by decide +kernel), by decide +kernel, by decide +kernel⟩

/-- **C19 and C20 are false** when a snapshot is opened while a transaction commits: the snapshot covers the
commit timestamp (transaction/mod.rs:596, db/mod.rs:826), and the rows appear in it when the commit
goes on. -/
theorem a_commit_appears_in_an_older_snapshot : ∃ a b : List (Txn.Op Nat Nat),
    (later exE 4 0 a [] b 1).ok = true ∧ (∀ o ∈ a ++ b, KeepsMemory o) ∧
    exSnap (later exE 4 0 a [] [] 1) (later exE 4 0 a [] [] 1) 1 = some [(1, 11), (2, 21)] ∧
    exSnap (later exE 4 0 a [] [] 1) (later exE 4 0 a [] b 1) 1 = some [(1, 12)] :=
  ⟨ingest' 0 [11, 21] ++ begin' 2 ++ [.upsert 2 12, .delete 2 2, .commit 2] ++ go 2 6, go 2 20, by decide +kernel,
    fun o ho => exKeeps_iff ((by decide : ∀ o ∈ ingest' 0 [11, 21] ++ begin' 2 ++ [.upsert 2 12, .delete 2 2, .commit 2] ++ go 2 6 ++ go 2 20, exKeeps o = true) o ho),
    by decide +kernel, by decide +kernel⟩

/-- **C20 is false** when a snapshot is opened and read between the upserts and the deletes of a commit
(transaction/mod.rs:727-745): it shows the new row of key 1 and still the row of key 2 that the same
transaction deletes. -/
theorem a_snapshot_sees_half_a_commit : ∃ a b : List (Txn.Op Nat Nat),
    (later exE 4 0 a [] b 1).ok = true ∧ (∀ o ∈ a ++ b, KeepsMemory o) ∧
    (later exE 4 0 a [] b 1).done.map (fun w => (w.ts, w.ups, w.dels)) = [(0, some [11, 21], none), (1, some [12], some [2])] ∧
    exSnap (later exE 4 0 a [] [] 1) (later exE 4 0 a [] [] 1) 1 = some [(1, 12), (2, 21)] :=
  ⟨ingest' 0 [11, 21] ++ begin' 2 ++ [.upsert 2 12, .delete 2 2, .commit 2] ++ go 2 13, go 2 20, by decide +kernel,
    fun o ho => exKeeps_iff ((by decide : ∀ o ∈ ingest' 0 [11, 21] ++ begin' 2 ++ [.upsert 2 12, .delete 2 2, .commit 2] ++ go 2 13 ++ go 2 20, exKeeps o = true) o ho),
    by decide +kernel, by decide +kernel⟩

/-- **C19 and C20 are false** for a snapshot of a new database: its read timestamp is 0 (the clock less one, but
not below 0, db/mod.rs:826), and 0 is also the timestamp of the first write. -/
theorem the_first_write_appears_in_an_older_snapshot : ∃ b : List (Txn.Op Nat Nat),
    (later exE 4 0 [] [] b 1).ok = true ∧ Quiet (atOpen exE 4 0 [] [] 1) ∧ (∀ o ∈ b, KeepsMemory o) ∧
    exSnap (later exE 4 0 [] [] [] 1) (later exE 4 0 [] [] [] 1) 1 = some [] ∧
    exSnap (later exE 4 0 [] [] [] 1) (later exE 4 0 [] [] b 1) 1 = some [(1, 11)] :=
  ⟨ingest' 0 [11], by decide +kernel, quiet_of (n := 3) (finite_run _ _ (fun _ _ => rfl) (by decide)) (by decide +kernel),
    fun o ho => exKeeps_iff ((by decide : ∀ o ∈ ingest' 0 [11], exKeeps o = true) o ho), by decide +kernel, by decide +kernel⟩

/-- `get` in the transaction of a thread. -/
def exGet (s : Sys Nat Nat) (p k : Nat) : Option (Option Nat) :=
  match s.procs p with
  | .opened t => getTxn s.db t k
  | _ => none

/-- **C23 is false** of `get` once rows are in tables: it does not look at them (transaction/mod.rs:532-555).
The scan of the same transaction returns the row. -/
theorem get_does_not_see_tables : ∃ a : List (Txn.Op Nat Nat), (later exE 4 0 a [] [] 1).ok = true ∧
    Quiet (atOpen exE 4 0 a [] 1) ∧ exScan (later exE 4 0 a [] [] 1) 1 = some [(1, 11)] ∧
    exGet (later exE 4 0 a [] [] 1) 1 1 = some none :=
  ⟨ingest' 0 [11] ++ flush', by decide +kernel,
    quiet_of (n := 3) (finite_run _ _ (fun _ _ => rfl) (by decide)) (by decide +kernel), by decide +kernel, by decide +kernel⟩

/-- **C23 is false** of `get` when a key was deleted after its row was frozen: the rows of the mutable table
are collected without its tombstones (db/scan.rs:838-861), so `get` falls through to the old row. -/
theorem get_returns_a_deleted_row : ∃ a : List (Txn.Op Nat Nat), (later exE 4 0 a [] [] 1).ok = true ∧
    Quiet (atOpen exE 4 0 a [] 1) ∧ exScan (later exE 4 0 a [] [] 1) 1 = some [] ∧
    exGet (later exE 4 0 a [] [] 1) 1 1 = some (some 11) :=
  ⟨ingest' 0 [11] ++ [.lsm (.write .freeze)] ++ begin' 2 ++ [.delete 2 1] ++ commit' 2, by decide +kernel,
    quiet_of (n := 3) (finite_run _ _ (fun _ _ => rfl) (by decide)) (by decide +kernel), by decide +kernel, by decide +kernel⟩

/-- **C23 is false** of `get` with two frozen runs: the older one comes first
(transaction/mod.rs:532-555, db/scan.rs:811-836). -/
theorem get_returns_an_old_row : ∃ a : List (Txn.Op Nat Nat), (later exE 4 0 a [] [] 1).ok = true ∧
    Quiet (atOpen exE 4 0 a [] 1) ∧ exScan (later exE 4 0 a [] [] 1) 1 = some [(1, 12)] ∧
    exGet (later exE 4 0 a [] [] 1) 1 1 = some (some 11) :=
  ⟨ingest' 0 [11] ++ [.lsm (.write .freeze)] ++ ingest' 0 [12] ++ [.lsm (.write .freeze)], by decide +kernel,
    quiet_of (n := 3) (finite_run _ _ (fun _ _ => rfl) (by decide)) (by decide +kernel), by decide +kernel, by decide +kernel⟩

end Example

end Tonbo.Props.C19
