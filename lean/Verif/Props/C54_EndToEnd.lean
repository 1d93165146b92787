import Verif.Lemmas.LsmContent
import Verif.Model.LsmScan
import Verif.Props.C13_Sst
import Verif.Props.C14_C18_Flush
import Verif.Props.C38_C43_Lsm

/-!
# C54: reads see what was written, whatever was flushed and compacted

`ops` is any history of a table: calls on the memory, flushes and compactions step by step in any
interleaving.
-/

set_option linter.unusedSectionVars false

namespace Tonbo.Props.C54
open Tonbo.Model Tonbo.Model.Manifest Tonbo.Model.Planner Tonbo.Model.Outcome Tonbo.Model.Lsm Tonbo.Model.Merge
open Tonbo.Spec Tonbo.Lemmas.Lsm Tonbo.Lemmas.Manifest
open Tonbo.Lemmas.Mem (Rep Imm.Rep lastWrite_mem rep_scan_all imm_rep_scan_all)
open Tonbo.Lemmas.Plan (ready_some forall₂_getElem? forall₂_mem_right mem_lastWrite)
open Tonbo.Model.Sst (File)

variable {K R : Type} [LinearOrder K]

/-- A stream that reports the newest visible versions of the history `H`. -/
def Reports (rts : Nat) (s : Prio × List (Option (Mem.Entry K R))) (H : Ver K R → Prop) : Prop :=
  IsVersionScan H rts (fun _ => True) ((C05.ready s.2).map toVer)

theorem immStreams_ok {ext : R → Option K} (rts : Nat) : ∀ {ms : List (Mem.Imm K R)}
    {logs : List (List (Ver K R))}, List.Forall₂ (Imm.Rep ext) ms logs →
    ∃ ss, immStreams ms rts = some ss ∧ List.Forall₂ (Reports rts) ss (logs.map LastWrite)
  | _, _, .nil => ⟨[], rfl, .nil⟩
  | m :: ms, l :: logs, .cons h t => by
    obtain ⟨ss, h1, h2⟩ := immStreams_ok rts t
    obtain ⟨out, o1, o2⟩ := imm_rep_scan_all h rts
    refine ⟨(Prio.immutable, out.map some) :: ss, ?_, .cons ?_ h2⟩
    · unfold immStreams at h1 ⊢
      simp [List.mapM_cons, o1, h1]
    · unfold Reports
      rw [ready_some]
      exact o2

theorem sstStreams_ok (rts : Nat) : ∀ (fs : List (File K R)), (∀ f ∈ fs, FileSorted f) →
    ∃ ss, sstStreams fs rts = some ss ∧ List.Forall₂ (Reports rts) ss (fs.map FileVersions)
  | [], _ => ⟨[], rfl, .nil⟩
  | f :: fs, h => by
    obtain ⟨ss, h1, h2⟩ := sstStreams_ok rts fs (fun g hg => h g (List.mem_cons_of_mem _ hg))
    obtain ⟨out, o1, o2⟩ := C13.sst_scan f (h f List.mem_cons_self) rts
    refine ⟨(Prio.sstable, out.map some) :: ss, ?_, .cons ?_ h2⟩
    · unfold sstStreams at h1 ⊢
      simp [List.mapM_cons, o1, h1]
    · unfold Reports
      rw [ready_some]
      exact o2

theorem tableFiles_ok {files : Path → Option (File K R)} {next : Nat} : ∀ (es : List (Nat × Entry (Info K))),
    (∀ p ∈ es, EntryOk files next p.1 p.2) →
    ∃ fs, (es.map Prod.snd).mapM (fun e => readFile files (some e.info.data) e.info.del) = some fs ∧
      List.Forall₂ (fun (p : Nat × Entry (Info K)) f => files ⟨p.1, p.2.id⟩ = some f ∧ FileSorted f) es fs
  | [], _ => ⟨[], rfl, .nil⟩
  | p :: es, h => by
    obtain ⟨fs, h1, h2⟩ := tableFiles_ok es (fun q hq => h q (List.mem_cons_of_mem _ hq))
    obtain ⟨f, g1, g2, g3⟩ := readFile_entry (h p List.mem_cons_self)
    refine ⟨f :: fs, ?_, .cons ⟨g1, g3.sorted⟩ h2⟩
    simp [List.mapM_cons, g2, h1]

/-- The entries of a version with their levels. -/
def withLevels {P : Type} (k : Nat) : List (List (Entry P)) → List (Nat × Entry P)
  | [] => []
  | es :: ls => es.map (fun e => (k, e)) ++ withLevels (k + 1) ls

theorem withLevels_snd {P : Type} : ∀ (ls : List (List (Entry P))) (k : Nat),
    (withLevels k ls).map Prod.snd = ls.flatten
  | [], _ => rfl
  | es :: ls, k => by
    unfold withLevels
    rw [List.map_append, List.map_map, withLevels_snd ls (k + 1), List.flatten_cons]
    congr 1
    simp [Function.comp_def]

theorem withLevels_mem {P : Type} : ∀ (ls : List (List (Entry P))) (k : Nat) (p : Nat × Entry P),
    p ∈ withLevels k ls ↔ ∃ l, p.1 = k + l ∧ p.2 ∈ ls.getD l []
  | [], k, p => by simp [withLevels]
  | es :: ls, k, p => by
    unfold withLevels
    rw [List.mem_append, withLevels_mem ls (k + 1) p, List.mem_map]
    constructor
    · rintro (⟨e, he, rfl⟩ | ⟨l, h1, h2⟩)
      · exact ⟨0, rfl, by simpa using he⟩
      · exact ⟨l + 1, by omega, by simpa using h2⟩
    · rintro ⟨l, h1, h2⟩
      cases l with
      | zero => exact .inl ⟨p.2, by simpa using h2, by ext <;> simp [h1]⟩
      | succ l => exact .inr ⟨l, by omega, by simpa using h2⟩

/-- A reader of the latest version opens its files, and they are sorted. -/
theorem latestFiles_ok {ext : R → Option K} {x : Exec K R} {t n : Nat} {s : Db K R} (h : Inv ext x t n s) :
    ∃ fs, latestFiles t s = some fs ∧ (∀ f ∈ fs, FileSorted f) ∧
      ∀ f, f ∈ fs ↔ ∃ v l e, At s.kv t n v ∧ e ∈ v.ssts.getD l [] ∧ s.files ⟨l, e.id⟩ = some f := by
  obtain ⟨hd, hreg⟩ := h.reg
  unfold latestFiles
  rcases snapshotLatest_spec hreg with ⟨h0, e⟩ | ⟨h0, v, hv, _, e⟩
  · rw [e]
    refine ⟨[], rfl, by simp, fun f => ⟨by simp, ?_⟩⟩
    rintro ⟨v, l, en, hat, _⟩
    have := (at_le hreg hat).1
    omega
  · rw [e]
    have hat : At s.kv t n v := hv
    have hent : ∀ p ∈ withLevels 0 v.ssts, EntryOk s.files s.next p.1 p.2 := by
      intro p hp
      obtain ⟨l, h1, h2⟩ := (withLevels_mem _ _ _).1 hp
      have : p.1 = l := by omega
      rw [this]
      exact h.ent _ _ ⟨n, v, hat, h2⟩
    obtain ⟨fs, g1, g2⟩ := tableFiles_ok _ hent
    rw [withLevels_snd] at g1
    refine ⟨fs, g1, ?_, fun f => ⟨fun hf => ?_, ?_⟩⟩
    · intro f hf
      obtain ⟨p, _, _, hs⟩ := forall₂_mem_right g2 hf
      exact hs
    · obtain ⟨p, hp, hpf, _⟩ := forall₂_mem_right g2 hf
      obtain ⟨l, h1, h2⟩ := (withLevels_mem _ _ _).1 hp
      have : p.1 = l := by omega
      rw [this] at hpf
      exact ⟨v, l, p.2, hat, h2, hpf⟩
    · rintro ⟨u, l, en, hu, he, hf⟩
      rw [at_unique hu hat] at he
      have hp : ((l, en) : Nat × Entry (Info K)) ∈ withLevels 0 v.ssts := (withLevels_mem _ _ _).2 ⟨l, by simp, he⟩
      obtain ⟨i, hi⟩ := List.mem_iff_getElem?.1 hp
      obtain ⟨g, hg, hgf, _⟩ := forall₂_getElem? g2 hi
      rw [hf] at hgf
      cases hgf
      exact List.mem_of_getElem? hg

/-- The merge of reporting streams. -/
theorem merged {rts : Nat} {ss : List (Prio × List (Option (Mem.Entry K R)))} {Hs : List (Ver K R → Prop)}
    (h : List.Forall₂ (Reports rts) ss Hs) (hf : Functional (fun w => ∃ H ∈ Hs, H w)) :
    ∃ tr, mergeAll ss none = some tr ∧ IsScan (fun w => ∃ H ∈ Hs, H w) rts (rowsOf (C05.ready tr)) := by
  have hlen : ss.length = Hs.length := h.length_eq
  have hu : (fun w => ∃ i < ss.length, ∃ H, Hs[i]? = some H ∧ H w) = fun w => ∃ H ∈ Hs, H w := by
    funext w
    apply propext
    constructor
    · rintro ⟨i, _, H, hH, hw⟩
      exact ⟨H, List.mem_of_getElem? hH, hw⟩
    · rintro ⟨H, hH, hw⟩
      obtain ⟨i, hi⟩ := List.mem_iff_getElem?.1 hH
      exact ⟨i, by rw [hlen]; exact (List.getElem?_eq_some_iff.1 hi).1, H, hi, hw⟩
  obtain ⟨tr, m1, m2⟩ := C05.merged_scan ss (fun i w => ∃ H, Hs[i]? = some H ∧ H w) rts (fun _ => True)
    (by
      intro i p s hs
      obtain ⟨H, hH, hq⟩ := forall₂_getElem? h hs
      have : (fun w => ∃ H, Hs[i]? = some H ∧ H w) = H := by
        funext w; simp [hH]
      rw [this]; exact hq)
    (by rw [hu]; exact hf)
  rw [hu] at m2
  exact ⟨tr, m1, m2.1, fun k v => by rw [m2.2 k v]; simp⟩

/-- A full scan of a state whose memory and files hold only what was written. -/
theorem scan_of_parts {ext : R → Option K} {x : Exec K R} {t n : Nat} {s : Db K R} {P : Ver K R → Prop}
    {logs : List (List (Ver K R))} {cur : List (Ver K R)} (h : Inv ext x t n s)
    (hruns : List.Forall₂ (Imm.Rep ext) s.runs.runs logs) (hmem : Rep ext s.runs.mem cur)
    (hsub : ∀ w ∈ logs.flatten ++ cur, P w) (hdisk : ∀ w, OnDisk t n s w → P w) (hf : Functional P) (rts : Nat) :
    ∃ out, scanAll t s rts = some out ∧
      IsScan (fun w => w ∈ logs.flatten ∨ w ∈ cur ∨ OnDisk t n s w) rts (rowsOf out) := by
  obtain ⟨fs, f1, f2, f3⟩ := latestFiles_ok h
  obtain ⟨out, o1, o2⟩ := rep_scan_all hmem rts
  obtain ⟨is, i1, i2⟩ := immStreams_ok rts hruns
  obtain ⟨ds, d1, d2⟩ := sstStreams_ok rts fs f2
  have hall : List.Forall₂ (Reports rts) ([(Prio.mutable, out.map some)] ++ is ++ ds)
      ([LastWrite cur] ++ logs.map LastWrite ++ fs.map FileVersions) := by
    refine List.rel_append (List.rel_append (.cons ?_ .nil) i2) d2
    unfold Reports
    rw [ready_some]
    exact o2
  have hcurf : Functional (· ∈ cur) := fun a b ha hb =>
    hf a b (hsub a (List.mem_append_right _ ha)) (hsub b (List.mem_append_right _ hb))
  have hlogf : ∀ l ∈ logs, Functional (· ∈ l) := fun l hl a b ha hb =>
    hf a b (hsub a (List.mem_append_left _ (List.mem_flatten.2 ⟨l, hl, ha⟩)))
      (hsub b (List.mem_append_left _ (List.mem_flatten.2 ⟨l, hl, hb⟩)))
  have hfile : ∀ f ∈ fs, ∀ w, FileVersions f w ↔ Holds f w := by
    intro f hff w
    obtain ⟨v, l, e, a1, a2, a3⟩ := (f3 f).1 hff
    refine Lemmas.Flush.fileVersions_iff (H := Holds f) ?_ (fun _ _ => Iff.rfl) (fun _ => Iff.rfl) w
    intro a b ha hb
    exact hf a b (hdisk a ⟨v, l, e, f, a1, a2, a3, ha⟩) (hdisk b ⟨v, l, e, f, a1, a2, a3, hb⟩)
  have hu : (fun w => ∃ H ∈ [LastWrite cur] ++ logs.map LastWrite ++ fs.map FileVersions, H w) =
      fun w => w ∈ logs.flatten ∨ w ∈ cur ∨ OnDisk t n s w := by
    funext w
    apply propext
    constructor
    · rintro ⟨H, hH, hw⟩
      rcases List.mem_append.1 hH with hH | hH
      · rcases List.mem_append.1 hH with hH | hH
        · rw [List.mem_singleton.1 hH] at hw
          exact .inr (.inl (lastWrite_mem hw))
        · obtain ⟨l, hl, rfl⟩ := List.mem_map.1 hH
          exact .inl (List.mem_flatten.2 ⟨l, hl, lastWrite_mem hw⟩)
      · obtain ⟨f, hff, rfl⟩ := List.mem_map.1 hH
        obtain ⟨v, l, e, a1, a2, a3⟩ := (f3 f).1 hff
        exact .inr (.inr ⟨v, l, e, f, a1, a2, a3, (hfile f hff w).1 hw⟩)
    · rintro (hw | hw | ⟨v, l, e, f, a1, a2, a3, hw⟩)
      · obtain ⟨l, hl, hw⟩ := List.mem_flatten.1 hw
        exact ⟨LastWrite l, by simp [List.mem_map]; exact .inr (.inl ⟨l, hl, rfl⟩), mem_lastWrite l (hlogf l hl) w hw⟩
      · exact ⟨LastWrite cur, by simp, mem_lastWrite cur hcurf w hw⟩
      · have hff := (f3 f).2 ⟨v, l, e, a1, a2, a3⟩
        exact ⟨FileVersions f, by simp [List.mem_map]; exact .inr (.inr ⟨f, hff, rfl⟩), (hfile f hff w).2 hw⟩
  have hall' : ∀ w, (w ∈ logs.flatten ∨ w ∈ cur ∨ OnDisk t n s w) → P w := by
    rintro w (hw | hw | hw)
    · exact hsub w (List.mem_append_left _ hw)
    · exact hsub w (List.mem_append_right _ hw)
    · exact hdisk w hw
  obtain ⟨tr, m1, m2⟩ := merged hall (by
    rw [hu]
    exact fun a b ha hb => hf a b (hall' a ha) (hall' b hb))
  rw [hu] at m2
  refine ⟨C05.ready tr, ?_, m2⟩
  unfold scanAll allStreams memStream
  rw [f1]
  simp only [o1, i1, d1, Option.map_some]
  rw [m1]
  rfl

theorem scan_of_state {ext : R → Option K} {x : Exec K R} {t n : Nat} {s : Db K R} {log : List (Ver K R)}
    {exact : Prop} {logs : List (List (Ver K R))} {cur : List (Ver K R)} (h : Inv ext x t n s)
    (hc : Cont ext t n s log exact logs cur) (hf : Functional (· ∈ log)) (rts : Nat) :
    ∃ out, scanAll t s rts = some out ∧
      IsScan (fun w => w ∈ logs.flatten ∨ w ∈ cur ∨ OnDisk t n s w) rts (rowsOf out) :=
  scan_of_parts h hc.runs hc.mem hc.sub (fun w hw => by
    obtain ⟨v, l, e, f, a1, a2, a3, hw⟩ := hw
    exact hc.listed l e ⟨n, v, a1, a2⟩ f a3 w hw) hf rts

/-- The state holds only what was written, and of each written version a newer one, or itself. -/
theorem content {ext : R → Option K} {x : Exec K R} {t n : Nat} {s : Db K R} {log : List (Ver K R)}
    {exact : Prop} {logs : List (List (Ver K R))} {cur : List (Ver K R)}
    (hc : Cont ext t n s log exact logs cur) :
    (∀ w, (w ∈ logs.flatten ∨ w ∈ cur ∨ OnDisk t n s w) → w ∈ log) ∧
    ∀ w ∈ log, ∃ u, (u ∈ logs.flatten ∨ u ∈ cur ∨ OnDisk t n s u) ∧ u.key = w.key ∧ w.ts ≤ u.ts ∧ (exact → u = w) := by
  constructor
  · rintro w (hw | hw | ⟨v, l, e, f, a1, a2, a3, hw⟩)
    · exact hc.sub w (List.mem_append_left _ hw)
    · exact hc.sub w (List.mem_append_right _ hw)
    · exact hc.listed l e ⟨n, v, a1, a2⟩ f a3 w hw
  · intro w hw
    obtain ⟨u, hu, hrest⟩ := hc.cover w hw
    refine ⟨u, ?_, hrest⟩
    rcases hu with hu | hu
    · obtain ⟨l, hl, hu⟩ := List.mem_flatten.1 hu
      exact .inl (List.mem_flatten.2 ⟨l, List.mem_of_mem_drop hl, hu⟩)
    · exact .inr hu

/-- No step of the history is a restart. -/
def NoRestart (ops : List (Lsm.Op K R)) : Prop := ∀ cap, Lsm.Op.reopen cap ∉ ops

/-- No compaction of the history ends. -/
def NoCompaction (ops : List (Lsm.Op K R)) : Prop := ∀ i, Lsm.Op.finish i ∉ ops

theorem noRestart {ops : List (Lsm.Op K R)} (h : NoRestart ops) : ∀ o ∈ ops, isReopen o = false := by
  intro o ho
  cases o <;> first | rfl | exact absurd ho (h _)

theorem noCompaction {ops : List (Lsm.Op K R)} (h : NoCompaction ops) : ∀ o ∈ ops, isFinish o = false := by
  intro o ho
  cases o <;> first | rfl | exact absurd ho (h _)

/-- **C54 (partial).** After any history of successful writes, flushes and compactions, interleaved in
any way, a scan at a timestamp not before the newest write succeeds and returns exactly the rows
visible in what was written.

Missing: restarts (the write-ahead log is not part of this model), failed writes (C04), writes that
disagree about one key at one timestamp (C14, C15), and tables whose rows and deletions a merge reads
out of step (`Fits`, C15). -/
theorem latest_reads_see_all_writes_partial (ext : R → Option K) (x : Exec K R) (hn : 0 < x.readRows)
    (cap t sv : Nat) (ops : List (Lsm.Op K R)) (hr : NoRestart ops)
    (hok : (Lsm.run ext x t (Db.new cap t sv) ops).1 = true) (hf : Functional (· ∈ logOf ext ops))
    (hfit : ∀ l e, EverListed (reached ext x cap t sv ops) t l e →
      ∀ f, (reached ext x cap t sv ops).files ⟨l, e.id⟩ = some f → Fits x.readRows f)
    (rts : Nat) (hts : ∀ w ∈ logOf ext ops, w.ts ≤ rts) :
    ∃ out, scanAll t (reached ext x cap t sv ops) rts = some out ∧
      IsScan (· ∈ logOf ext ops) rts (rowsOf out) := by
  obtain ⟨n, logs, cur, h, hc⟩ := cont_run (exact := False) hn ops (cont_new ext cap t sv False) (inv_new ext x cap t sv)
    (by simpa using hf) (fun _ l e he => hfit l e (everListed_iff.2 he)) (noRestart hr) (fun h => h.elim) hok
  rw [List.nil_append] at hc
  obtain ⟨out, o1, o2⟩ := scan_of_state h hc hf rts
  refine ⟨out, o1, o2.1, fun k v => (o2.2 k v).trans ?_⟩
  obtain ⟨c1, c2⟩ := content (x := x) hc
  constructor
  · rintro ⟨ts, hw, hle, hmax⟩
    refine ⟨ts, c1 _ hw, hle, fun u hu hk hut => ?_⟩
    obtain ⟨u', hu', k1, k2, _⟩ := c2 u hu
    exact Nat.le_trans k2 (hmax u' hu' (k1.trans hk) (hts _ (c1 _ hu')))
  · rintro ⟨ts, hw, hle, hmax⟩
    obtain ⟨u, hu, k1, k2, _⟩ := c2 _ hw
    have h1 := hmax u (c1 u hu) k1 (hts _ (c1 u hu))
    have hts' : u.ts = ts := Nat.le_antisymm h1 k2
    have hop : u.op = .put v := hf u ⟨k, ts, .put v⟩ (c1 u hu) hw k1 hts'
    obtain ⟨uk, ut, uo⟩ := u
    simp only at k1 hts' hop
    subst k1
    subst hts'
    subst hop
    exact ⟨_, hu, hle, fun u hu hk hut => hmax u (c1 u hu) hk hut⟩

/-- **C54 (partial)**, without compactions: at every timestamp. -/
theorem reads_at_every_timestamp_without_compaction_partial (ext : R → Option K) (x : Exec K R) (hn : 0 < x.readRows)
    (cap t sv : Nat) (ops : List (Lsm.Op K R)) (hr : NoRestart ops) (hcomp : NoCompaction ops)
    (hok : (Lsm.run ext x t (Db.new cap t sv) ops).1 = true) (hf : Functional (· ∈ logOf ext ops)) (rts : Nat) :
    ∃ out, scanAll t (reached ext x cap t sv ops) rts = some out ∧
      IsScan (· ∈ logOf ext ops) rts (rowsOf out) := by
  obtain ⟨n, logs, cur, h, hc⟩ := cont_run (exact := True) hn ops (cont_new ext cap t sv True) (inv_new ext x cap t sv)
    (by simpa using hf) (fun h => absurd trivial h) (noRestart hr) (fun _ => noCompaction hcomp) hok
  rw [List.nil_append] at hc
  obtain ⟨out, o1, o2⟩ := scan_of_state h hc hf rts
  obtain ⟨c1, c2⟩ := content (x := x) hc
  have : (fun w => w ∈ logs.flatten ∨ w ∈ cur ∨ OnDisk t n (Lsm.run ext x t (Db.new cap t sv) ops).2 w) =
      (· ∈ logOf ext ops) := by
    funext w
    apply propext
    constructor
    · exact c1 w
    · intro hw
      obtain ⟨u, hu, _, _, he⟩ := c2 w hw
      rwa [he trivial] at hu
  rw [this] at o2
  exact ⟨out, o1, o2⟩

/-! Two flushes, a compaction, and more writes. -/
section Example
open C38

def exHist : List (Lsm.Op Nat Nat) :=
  [.write (.put [(11, 1), (21, 1)])] ++ flushOps [seg 1] ++
  [.write (.put [(12, 2), (31, 2)]), .write (.del [(2, 3)])] ++ flushOps [seg 1, seg 2] ++
  [jobOf 1 2, .write (.put [(41, 4)]), .finish 0, .write .freeze, .write (.put [(13, 5)])]

example : NoRestart exHist ∧ (Lsm.run exExt exX 1 (Db.new 4 1 0) exHist).1 = true ∧
    (∀ w ∈ logOf exExt exHist, w.ts ≤ 9) ∧
    (scanAll 1 (exS exHist) 9).map rowsOf = some [(1, 13), (3, 31), (4, 41)] ∧
    ((exS exHist).files ⟨1, 3⟩).map (fun f => (f.data, f.dels)) = some ([(⟨1, 2⟩, 12), (⟨3, 2⟩, 31)], [⟨2, 3⟩]) := by
  refine ⟨?_, by decide +kernel, by decide, by decide +kernel, by decide +kernel⟩
  intro cap h
  simp [exHist, flushOps, jobOf] at h

example : Functional (· ∈ logOf exExt exHist) := by
  have : ∀ a ∈ logOf exExt exHist, ∀ b ∈ logOf exExt exHist, a.key = b.key → a.ts = b.ts → a.op = b.op := by decide
  exact fun a b ha hb => this a ha b hb

/-- The same history before the compaction, read at an old timestamp. -/
example : NoCompaction (exHist.take 12) ∧ NoRestart (exHist.take 12) ∧
    (Lsm.run exExt exX 1 (Db.new 4 1 0) (exHist.take 12)).1 = true ∧
    (scanAll 1 (exS (exHist.take 12)) 2).map rowsOf = some [(1, 12), (2, 21), (3, 31)] ∧
    (scanAll 1 (exS (exHist.take 12)) 1).map rowsOf = some [(1, 11), (2, 21)] := by
  refine ⟨?_, ?_, by decide +kernel, by decide +kernel, by decide +kernel⟩
  · intro i h
    simp [exHist, flushOps, jobOf] at h
  · intro cap h
    simp [exHist, flushOps, jobOf] at h

/-- A batch has eight rows, so every table fits. -/
example : ∀ l e, EverListed (exS exHist) 1 l e → ∀ f, (exS exHist).files ⟨l, e.id⟩ = some f → Fits exX.readRows f := by
  have hfiles : (exS exHist).files = setFile (setFile (setFile (fun _ => none) ⟨0, 1⟩
      (some ⟨[(⟨1, 1⟩, 11), (⟨2, 1⟩, 21)], []⟩)) ⟨0, 2⟩ (some ⟨[(⟨1, 2⟩, 12), (⟨3, 2⟩, 31)], [⟨2, 3⟩]⟩)) ⟨1, 3⟩
      (some ⟨[(⟨1, 2⟩, 12), (⟨3, 2⟩, 31)], [⟨2, 3⟩]⟩) := rfl
  intro l e _ f hf
  refine .inr (.inr (.inl ?_))
  rw [hfiles] at hf
  unfold setFile at hf
  split_ifs at hf <;> cases hf <;> decide

end Example

end Tonbo.Props.C54
