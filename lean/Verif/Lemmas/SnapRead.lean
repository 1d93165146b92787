import Verif.Lemmas.TxnMem
import Verif.Props.C54_EndToEnd

/-!
# Reading a snapshot later than it was opened
-/

set_option linter.unusedSectionVars false

namespace Tonbo.Lemmas.Txn
open Tonbo.Model Tonbo.Model.Txn Tonbo.Model.Lsm Tonbo.Model.Manifest Tonbo.Model.Planner Tonbo.Model.Merge Tonbo.Spec
open Tonbo.Lemmas.Lsm (Inv inv_new Cont cont_run cont_new keeps_run Keeps OnDisk Fitting Lst At at_unique at_le isReopen isFinish everListed_iff)
open Tonbo.Lemmas.Manifest (snapshotLatest_spec)
open Tonbo.Lemmas.Mem (Rep Imm.Rep rep_scan_all lastWrite_mem)
open Tonbo.Lemmas.Plan (ready_some forall₂_getElem? forall₂_mem_right mem_lastWrite)
open Tonbo.Props.C54 (Reports immStreams_ok sstStreams_ok tableFiles_ok withLevels withLevels_mem withLevels_snd merged)
open Tonbo.Model.Sst (File)

variable {K R : Type} [LinearOrder K]

theorem filterMap_range {α : Type} (l : List α) : (List.range l.length).filterMap (fun i => l[i]?) = l := by
  induction l using List.reverseRecOn with
  | nil => rfl
  | append_singleton l a ih =>
    rw [List.length_append, List.length_singleton, List.range_succ, List.filterMap_append]
    have h1 : (List.range l.length).filterMap (fun i => (l ++ [a])[i]?) = (List.range l.length).filterMap (fun i => l[i]?) := by
      apply List.filterMap_congr
      intro i hi
      rw [List.getElem?_append_left (List.mem_range.1 hi)]
    rw [h1, ih]
    simp

/-- The files of a version that was latest once. -/
theorem snapFiles_ok {ext : R → Option K} {x : Exec K R} {t n k : Nat} {s : Db K R} (h : Inv ext x t n s)
    {v : Version (Info K)} (hv : At s.kv t k v) :
    ∃ fs, snapFiles s (some v) = some fs ∧ (∀ f ∈ fs, FileSorted f) ∧
      ∀ f, f ∈ fs ↔ ∃ l e, e ∈ v.ssts.getD l [] ∧ s.files ⟨l, e.id⟩ = some f := by
  have hent : ∀ p ∈ withLevels 0 v.ssts, Lemmas.Lsm.EntryOk s.files s.next p.1 p.2 := by
    intro p hp
    obtain ⟨l, h1, h2⟩ := (withLevels_mem _ _ _).1 hp
    have : p.1 = l := by omega
    rw [this]
    exact h.ent _ _ ⟨k, v, hv, h2⟩
  obtain ⟨fs, g1, g2⟩ := tableFiles_ok _ hent
  rw [withLevels_snd] at g1
  refine ⟨fs, g1, ?_, fun f => ⟨fun hf => ?_, ?_⟩⟩
  · intro f hf
    obtain ⟨p, _, _, hs⟩ := forall₂_mem_right g2 hf
    exact hs
  · obtain ⟨p, hp, hpf, _⟩ := forall₂_mem_right g2 hf
    obtain ⟨l, h1, h2⟩ := (withLevels_mem _ _ _).1 hp
    have : p.1 = l := by omega
    rw [this] at hpf
    exact ⟨l, p.2, h2, hpf⟩
  · rintro ⟨l, en, he, hf⟩
    have hp : ((l, en) : Nat × Entry (Info K)) ∈ withLevels 0 v.ssts := (withLevels_mem _ _ _).2 ⟨l, by simp, he⟩
    obtain ⟨i, hi⟩ := List.mem_iff_getElem?.1 hp
    obtain ⟨g, hg, hgf, _⟩ := forall₂_getElem? g2 hi
    rw [hf] at hgf
    cases hgf
    exact List.mem_of_getElem? hg

/-- The streams of a scan report memory and the files of the snapshot. -/
theorem snap_streams {ext : R → Option K} {s : Db K R} {logs : List (List (Ver K R))} {cur : List (Ver K R)}
    (hm : MemLog ext s logs cur) {sn : Snap K} {fs : List (File K R)} (hfs : snapFiles s sn.version = some fs)
    (hs : ∀ f ∈ fs, FileSorted f) :
    ∃ ss Hs, (∀ o, openStreams s (planScan s sn) o =
        some ((match o with | some st => [txnStream st sn.rts] | none => []) ++ ss)) ∧
      List.Forall₂ (Reports sn.rts) ss Hs ∧
      ∀ w, (∃ H ∈ Hs, H w) ↔ (∃ l ∈ logs, LastWrite l w) ∨ LastWrite cur w ∨ ∃ f ∈ fs, FileVersions f w := by
  obtain ⟨out, o1, o2⟩ := rep_scan_all hm.2 sn.rts
  obtain ⟨is, i1, i2⟩ := immStreams_ok sn.rts hm.1
  obtain ⟨ds, d1, d2⟩ := sstStreams_ok sn.rts fs hs
  by_cases he : s.runs.mem.index = []
  · refine ⟨is ++ ds, logs.map LastWrite ++ fs.map FileVersions, ?_, List.rel_append i2 d2, ?_⟩
    · intro o
      unfold openStreams planScan
      simp only [hfs, he, List.isEmpty_nil, Bool.not_true, Bool.false_eq_true, if_false, filterMap_range, i1, d1]
      cases o <;> simp
    · intro w
      have hno : ¬ LastWrite cur w := by
        intro hw
        obtain ⟨loc, hl, _⟩ := (hm.2.2 w).2 hw
        rw [he] at hl
        cases hl
      simp only [List.mem_append, List.mem_map]
      constructor
      · rintro ⟨H, ⟨l, hl, rfl⟩ | ⟨f, hf, rfl⟩, hw⟩
        · exact .inl ⟨l, hl, hw⟩
        · exact .inr (.inr ⟨f, hf, hw⟩)
      · rintro (⟨l, hl, hw⟩ | hw | ⟨f, hf, hw⟩)
        · exact ⟨_, .inl ⟨l, hl, rfl⟩, hw⟩
        · exact absurd hw hno
        · exact ⟨_, .inr ⟨f, hf, rfl⟩, hw⟩
  · refine ⟨[(Prio.mutable, out.map some)] ++ is ++ ds, [LastWrite cur] ++ logs.map LastWrite ++ fs.map FileVersions,
      ?_, ?_, ?_⟩
    · intro o
      unfold openStreams planScan
      have hm' : s.runs.mem.index.isEmpty = false := by
        cases hx : s.runs.mem.index with
        | nil => exact absurd hx he
        | cons => rfl
      simp only [hfs, hm', Bool.not_false, if_true, filterMap_range, i1, d1, memStream, o1, Option.map_some]
      cases o <;> simp
    · refine List.rel_append (List.rel_append (.cons ?_ .nil) i2) d2
      unfold Reports
      rw [ready_some]
      exact o2
    · intro w
      simp only [List.mem_append, List.mem_map, List.mem_singleton]
      constructor
      · rintro ⟨H, (rfl | ⟨l, hl, rfl⟩) | ⟨f, hf, rfl⟩, hw⟩
        · exact .inr (.inl hw)
        · exact .inl ⟨l, hl, hw⟩
        · exact .inr (.inr ⟨f, hf, hw⟩)
      · rintro (⟨l, hl, hw⟩ | hw | ⟨f, hf, hw⟩)
        · exact ⟨_, .inl (.inr ⟨l, hl, rfl⟩), hw⟩
        · exact ⟨_, .inl (.inl rfl), hw⟩
        · exact ⟨_, .inr ⟨f, hf, rfl⟩, hw⟩

/-! ## What grows -/

theorem done_grows {e : Env K R} {Q : Sys K R → Txn.Op K R → Prop} (s : Sys K R) (ops : List (Txn.Op K R))
    (h : Along e Q s ops) : ∃ l, (Txn.run e s ops).done = s.done ++ l := by
  refine run_induct (P := fun s' => ∃ l, s'.done = s.done ++ l) ?_ ops s h ⟨[], by simp⟩
  rintro a b ⟨l, hl⟩ ht
  cases tr_eff ht with
  | same hc hd hf => exact ⟨l, by rw [hd, hl]⟩
  | stamp p w hc hd hw h0 h1 hf hk => exact ⟨l, by rw [hd, hl]⟩
  | lost p w hc hd h0 h1 hf hok => exact ⟨l, by rw [hd, hl]⟩
  | finish p w hc hd h0 h1 hf hp => exact ⟨l ++ [w], by rw [hd, hl, List.append_assoc]⟩

theorem trace_grows {e : Env K R} {Q : Sys K R → Txn.Op K R → Prop} (s : Sys K R) (ops : List (Txn.Op K R))
    (h : Along e Q s ops) : ∃ l, (Txn.run e s ops).trace = s.trace ++ l ∧
      ∀ o ∈ l, (background o = true ∧ ∃ s', Q s' (.lsm o)) ∨ ∃ op, o = .write op := by
  refine run_induct (P := fun s' => ∃ l, s'.trace = s.trace ++ l ∧
      ∀ o ∈ l, (background o = true ∧ ∃ s', Q s' (.lsm o)) ∨ ∃ op, o = .write op) ?_ ops s h ⟨[], by simp⟩
  rintro a b ⟨l, hl, ho⟩ ht
  have snoc : ∀ o, ((background o = true ∧ ∃ s', Q s' (.lsm o)) ∨ ∃ op, o = .write op) → a.trace ++ [o] = b.trace →
      ∃ l, b.trace = s.trace ++ l ∧ ∀ o ∈ l, (background o = true ∧ ∃ s', Q s' (.lsm o)) ∨ ∃ op, o = .write op := by
    intro o h1 h2
    refine ⟨l ++ [o], by rw [← h2, hl, List.append_assoc], fun o' ho' => ?_⟩
    rcases List.mem_append.1 ho' with ho' | ho'
    · exact ho o' ho'
    · rw [List.mem_singleton.1 ho']; exact h1
  cases ht with
  | bg o hb hq => exact snoc o (.inl ⟨hb, a, hq⟩) rfl
  | up p w rows hp hu hok => exact snoc _ (.inr ⟨_, rfl⟩) rfl
  | fail p w op hp hok => exact snoc _ (.inr ⟨_, rfl⟩) rfl
  | del p w keys hp hd hok => exact snoc _ (.inr ⟨_, rfl⟩) rfl
  | _ => exact ⟨l, hl, ho⟩

theorem ok_grows {e : Env K R} {Q : Sys K R → Txn.Op K R → Prop} (s : Sys K R) (ops : List (Txn.Op K R))
    (h : Along e Q s ops) (hok : (Txn.run e s ops).ok = true) : s.ok = true := by
  refine run_induct (P := fun s' => s'.ok = true → s.ok = true) ?_ ops s h id hok
  intro a b ih ht hb
  refine ih ?_
  cases ht <;> first | exact hb | exact (Bool.and_eq_true_iff.1 hb).1 | cases hb

theorem beyond_run {e : Env K R} {Q : Sys K R → Txn.Op K R → Prop} {s : Sys K R} {r b : Nat} (ops : List (Txn.Op K R))
    (h : Along e Q s ops) (hb : Beyond s r b) : Beyond (Txn.run e s ops) r b :=
  run_induct (P := fun s' => Beyond s' r b) (fun _ _ h ht => beyond_tr h ht) ops s h hb

theorem lsm_run_append (ext : R → Option K) (x : Exec K R) (t : Nat) : ∀ (a b : List (Lsm.Op K R)) (s : Db K R),
    Lsm.run ext x t s (a ++ b) = ((Lsm.run ext x t s a).1 && (Lsm.run ext x t (Lsm.run ext x t s a).2 b).1,
      (Lsm.run ext x t (Lsm.run ext x t s a).2 b).2)
  | [], b, s => by simp [Lsm.run]
  | o :: a, b, s => by simp only [List.cons_append, Lsm.run, lsm_run_append ext x t a b, Bool.and_assoc]

theorem logOf_append (ext : R → Option K) (a b : List (Lsm.Op K R)) : logOf ext (a ++ b) = logOf ext a ++ logOf ext b := by
  induction a with
  | nil => simp [logOf]
  | cons o a ih => rw [List.cons_append, Lemmas.Lsm.logOf_cons, Lemmas.Lsm.logOf_cons, ih, List.append_assoc]

/-! ## What a snapshot read at any later time is made of -/

/-- `s0` is the state in which the version was read, `s3` a later one. What the streams report together is
`U`: every version of the log that is in memory or in the files of the version. -/
theorem snap_union {e : Env K R} (hn : 0 < e.x.readRows) {cap sv : Nat} {T0 T1 : List (Lsm.Op K R)} {db0 db3 : Db K R}
    (h0 : Lsm.run e.ext e.x e.table (Db.new cap e.table sv) T0 = (true, db0))
    (h3 : Lsm.run e.ext e.x e.table (Db.new cap e.table sv) (T0 ++ T1) = (true, db3))
    (hre : ∀ o ∈ T0, isReopen o = false) (hk : ∀ o ∈ T1, keepsMem o = true)
    (hfun : Functional (· ∈ logOf e.ext (T0 ++ T1))) (hfit : Fitting e.x.readRows e.table db0)
    {hd : Head} {v : Option (Version (Info K))} (hv : snapshotLatest db0.kv e.table = .ok (hd, v)) (rts : Nat) :
    ∃ ss Hs, (∀ o, openStreams db3 (planScan db3 ⟨rts, v⟩) o =
        some ((match o with | some st => [txnStream st rts] | none => []) ++ ss)) ∧
      List.Forall₂ (Reports rts) ss Hs ∧ (∀ w, (∃ H ∈ Hs, H w) → w ∈ logOf e.ext (T0 ++ T1)) ∧
      (∀ w ∈ logOf e.ext T1, ∃ H ∈ Hs, H w) ∧
      ∀ w ∈ logOf e.ext T0, ∃ u ∈ logOf e.ext T0, (∃ H ∈ Hs, H u) ∧ u.key = w.key ∧ w.ts ≤ u.ts := by
  have hlog := logOf_append e.ext T0 T1
  have hfun0 : Functional (· ∈ logOf e.ext T0) := fun a b ha hb =>
    hfun a b (by rw [hlog]; exact List.mem_append_left _ ha) (by rw [hlog]; exact List.mem_append_left _ hb)
  obtain ⟨n, logs0, cur0, hi, hc⟩ := cont_run (exact := False) hn T0 (cont_new e.ext cap e.table sv False)
    (inv_new e.ext e.x cap e.table sv) (by simpa using hfun0) (fun _ => by rw [h0]; exact hfit) hre (fun h => h.elim) (by rw [h0])
  rw [List.nil_append] at hc
  rw [h0] at hi hc
  simp only at hi hc
  have hrun : Lsm.run e.ext e.x e.table db0 T1 = (true, db3) := by
    rw [lsm_run_append, h0] at h3
    simp only [Bool.true_and] at h3
    exact h3
  obtain ⟨logs3, cur3, hm3, hcat⟩ := memLog_run (x := e.x) (table := e.table) T1 ⟨hc.runs, hc.mem⟩ hk (by rw [hrun])
  obtain ⟨n3, hi3, hkeep⟩ := keeps_run hn T1 hi
  rw [hrun] at hm3 hi3 hkeep
  simp only at hm3 hi3 hkeep
  -- the files
  have hfiles : ∃ fs, snapFiles db3 v = some fs ∧ (∀ f ∈ fs, FileSorted f) ∧
      ∀ f, f ∈ fs ↔ ∃ v' l en, At db0.kv e.table n v' ∧ en ∈ v'.ssts.getD l [] ∧ db0.files ⟨l, en.id⟩ = some f := by
    obtain ⟨hd', hreg⟩ := hi.reg
    rcases snapshotLatest_spec hreg with ⟨hz, he⟩ | ⟨hz, v', hv', _, he⟩
    · rw [he] at hv
      cases hv
      refine ⟨[], rfl, by simp, fun f => ⟨by simp, ?_⟩⟩
      rintro ⟨v', l, en, hat, _⟩
      have := (at_le hreg hat).1
      omega
    · rw [he] at hv
      cases hv
      have hat : At db0.kv e.table n v' := hv'
      obtain ⟨fs, g1, g2, g3⟩ := snapFiles_ok hi3 (hkeep.versions n v' hat)
      refine ⟨fs, g1, g2, fun f => (g3 f).trans ⟨?_, ?_⟩⟩
      · rintro ⟨l, en, he, hf⟩
        rw [hkeep.files l en ⟨n, v', hat, he⟩] at hf
        exact ⟨v', l, en, hat, he, hf⟩
      · rintro ⟨v'', l, en, hat', he, hf⟩
        rw [at_unique hat' hat] at he
        exact ⟨l, en, he, by rw [hkeep.files l en ⟨n, v', hat, he⟩]; exact hf⟩
  obtain ⟨fs, f1, f2, f3⟩ := hfiles
  obtain ⟨ss, Hs, s1, s2, s3⟩ := snap_streams hm3 (sn := ⟨rts, v⟩) f1 f2
  -- members of the log
  have hmem3 : ∀ w, w ∈ logs3.flatten ∨ w ∈ cur3 ↔ w ∈ logs0.flatten ∨ w ∈ cur0 ∨ w ∈ logOf e.ext T1 := by
    intro w
    rw [← List.mem_append, hcat, List.mem_append, List.mem_append, or_assoc]
  have hsub0 : ∀ w, (w ∈ logs0.flatten ∨ w ∈ cur0) → w ∈ logOf e.ext T0 := fun w hw => hc.sub w (List.mem_append.2 hw)
  have hsub3 : ∀ w, (w ∈ logs3.flatten ∨ w ∈ cur3) → w ∈ logOf e.ext (T0 ++ T1) := by
    intro w hw
    rw [hlog]
    rcases (hmem3 w).1 hw with h | h | h
    · exact List.mem_append_left _ (hsub0 w (.inl h))
    · exact List.mem_append_left _ (hsub0 w (.inr h))
    · exact List.mem_append_right _ h
  have hfile : ∀ f ∈ fs, (∀ w, FileVersions f w ↔ Holds f w) ∧ ∀ w, Holds f w → w ∈ logOf e.ext T0 := by
    intro f hff
    obtain ⟨v', l, en, a1, a2, a3⟩ := (f3 f).1 hff
    have hin : ∀ w, Holds f w → w ∈ logOf e.ext T0 := fun w hw => hc.listed l en ⟨n, v', a1, a2⟩ f a3 w hw
    exact ⟨Lemmas.Flush.fileVersions_iff (H := Holds f) (fun a b ha hb => hfun0 a b (hin a ha) (hin b hb))
      (fun _ _ => Iff.rfl) (fun _ => Iff.rfl), hin⟩
  have last3 : ∀ w, (w ∈ logs3.flatten ∨ w ∈ cur3) → (∃ l ∈ logs3, LastWrite l w) ∨ LastWrite cur3 w := by
    rintro w (hw | hw)
    · obtain ⟨l, hl, hw⟩ := List.mem_flatten.1 hw
      refine .inl ⟨l, hl, mem_lastWrite l ?_ w hw⟩
      exact fun a b ha hb => hfun a b (hsub3 a (.inl (List.mem_flatten.2 ⟨l, hl, ha⟩)))
        (hsub3 b (.inl (List.mem_flatten.2 ⟨l, hl, hb⟩)))
    · exact .inr (mem_lastWrite cur3 (fun a b ha hb => hfun a b (hsub3 a (.inr ha)) (hsub3 b (.inr hb))) w hw)
  have inU : ∀ w, (w ∈ logs3.flatten ∨ w ∈ cur3) → ∃ H ∈ Hs, H w := by
    intro w hw
    rw [s3]
    rcases last3 w hw with h | h
    · exact .inl h
    · exact .inr (.inl h)
  refine ⟨ss, Hs, s1, s2, ?_, ?_, ?_⟩
  · intro w hw
    rcases (s3 w).1 hw with ⟨l, hl, hw⟩ | hw | ⟨f, hf, hw⟩
    · exact hsub3 w (.inl (List.mem_flatten.2 ⟨l, hl, lastWrite_mem hw⟩))
    · exact hsub3 w (.inr (lastWrite_mem hw))
    · rw [hlog]
      exact List.mem_append_left _ ((hfile f hf).2 w (((hfile f hf).1 w).1 hw))
  · intro w hw
    exact inU w ((hmem3 w).2 (.inr (.inr hw)))
  · intro w hw
    obtain ⟨u, hu, k1, k2, _⟩ := hc.cover w hw
    rcases hu with hu | hu | ⟨v', l, en, f, a1, a2, a3, a4⟩
    · have hu : u ∈ logs0.flatten := by
        obtain ⟨l, hl, hu⟩ := List.mem_flatten.1 hu
        exact List.mem_flatten.2 ⟨l, List.mem_of_mem_drop hl, hu⟩
      exact ⟨u, hsub0 u (.inl hu), inU u ((hmem3 u).2 (.inl hu)), k1, k2⟩
    · exact ⟨u, hsub0 u (.inr hu), inU u ((hmem3 u).2 (.inr (.inl hu))), k1, k2⟩
    · have hf := (f3 f).2 ⟨v', l, en, a1, a2, a3⟩
      exact ⟨u, (hfile f hf).2 u a4, (s3 u).2 (.inr (.inr ⟨f, hf, ((hfile f hf).1 u).2 a4⟩)), k1, k2⟩

end Tonbo.Lemmas.Txn
