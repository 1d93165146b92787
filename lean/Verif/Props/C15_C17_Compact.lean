import Verif.Lemmas.CompactLoss
import Verif.Props.C13_Sst
import Verif.Props.C14_C18_Flush

/-!
# C15, C16, C17, C18: compaction
-/

namespace Tonbo.Props.C15
open Tonbo.Model Tonbo.Model.Mem Tonbo.Model.Sst Tonbo.Model.Compact Tonbo.Spec Tonbo.Lemmas.Compact
open Tonbo.Model.Merge
open Tonbo.Lemmas.Mem (pairwise_key_ext)
open Tonbo.Lemmas.Plan (ready_some forall₂_getElem?)

variable {K R : Type} [LinearOrder K]

/-- **C15 (partial).** Merging sorted files replaces them by files that mean the same to every reader
who sees their newest versions: whatever other versions `O` exist, and for every key all of whose
versions in the inputs are visible at `rts`, the reader sees the same value.

Missing: files that deliver rows and deletions over several record batches in the way `Fits` excludes
(`compaction_loses_a_row`), and inputs that disagree about one key at one timestamp
(`compaction_revives_a_deleted_row`). -/
theorem compaction_preserves_latest_reads_partial (cfg : Cfg K R) (H : Heap K) (next : Option Nat)
    (n : Nat) (fs : List (File K R)) (tables : List (OTable K R)) (hn : 0 < n)
    (hs : ∀ f ∈ fs, FileSorted f) (hfit : ∀ f ∈ fs, Fits n f) (hf : Functional (FilesHold fs))
    (h : execute cfg H next (fs.map (fileBatches n)) = .ok tables)
    (O : Ver K R → Prop) (rts : Nat) (k : K) (hr : ∀ w, FilesHold fs w → w.key = k → w.ts ≤ rts) (v : R) :
    Visible (fun w => O w ∨ FilesMean fs w) rts k v ↔
      Visible (fun w => O w ∨ FilesMean (tables.map (·.file)) w) rts k v := by
  have hiff := merged_holds_iff hn hs hfit hf h
  have hcov := (merged_holds hn hs hfit h).2
  have hfo : Functional (FilesHold (tables.map (·.file))) := fun a b ha hb =>
    hf a b ((hiff a).1 ha).1 ((hiff b).1 hb).1
  have e1 : (fun w => O w ∨ FilesMean fs w) = fun w => O w ∨ FilesHold fs w :=
    funext fun w => propext (or_congr Iff.rfl (filesMean_iff hf w))
  have e2 : (fun w => O w ∨ FilesMean (tables.map (·.file)) w) =
      fun w => O w ∨ FilesHold (tables.map (·.file)) w :=
    funext fun w => propext (or_congr Iff.rfl (filesMean_iff hfo w))
  rw [e1, e2]
  constructor
  · rintro ⟨t, hw, ht, hmax⟩
    refine ⟨t, ?_, ht, ?_⟩
    · rcases hw with hw | hw
      · exact .inl hw
      · exact .inr ((hiff _).2 ⟨hw, fun u hu hk => hmax u (.inr hu) hk (hr u hu hk)⟩)
    · rintro u (hu | hu) hk hut
      · exact hmax u (.inl hu) hk hut
      · exact hmax u (.inr ((hiff u).1 hu).1) hk hut
  · rintro ⟨t, hw, ht, hmax⟩
    refine ⟨t, ?_, ht, ?_⟩
    · rcases hw with hw | hw
      · exact .inl hw
      · exact .inr ((hiff _).1 hw).1
    · rintro u (hu | hu) hk hut
      · exact hmax u (.inl hu) hk hut
      · obtain ⟨u', hu', hk'⟩ := hcov u hu
        have h1 := ((hiff u').1 hu').2 u hu hk'.symm
        have h2 := hmax u' (.inr hu') (hk'.trans hk) (hr u' ((hiff u').1 hu').1 (hk'.trans hk))
        exact Nat.le_trans h1 h2

/-- The scans of a list of files at one timestamp, as they enter the merge of a read. -/
def fileStreams (fs : List (File K R)) (rts : Nat) : Option (List (Prio × List (Option (Entry K R)))) :=
  fs.mapM (fun f => (Sst.scan f (fun _ => true) rts).map (fun o => (Prio.sstable, o.map some)))

private theorem fileStreams_ok (rts : Nat) : ∀ (fs : List (File K R)), (∀ f ∈ fs, FileSorted f) →
    ∃ ss, fileStreams fs rts = some ss ∧
      List.Forall₂ (fun (s : Prio × List (Option (Entry K R))) f =>
        IsVersionScan (FileVersions f) rts (fun _ => True) ((C05.ready s.2).map toVer)) ss fs
  | [], _ => ⟨[], rfl, .nil⟩
  | f :: fs, h => by
    obtain ⟨ss, h1, h2⟩ := fileStreams_ok rts fs (fun g hg => h g (List.mem_cons_of_mem _ hg))
    obtain ⟨out, o1, o2⟩ := C13.sst_scan f (h f List.mem_cons_self) rts
    refine ⟨(Prio.sstable, out.map some) :: ss, ?_, .cons ?_ h2⟩
    · unfold fileStreams at h1 ⊢
      simp [List.mapM_cons, o1, h1]
    · rw [ready_some]
      exact o2

/-- Scanning sorted files that do not disagree returns the rows visible in what they mean. -/
theorem scan_of_files (fs : List (File K R)) (hs : ∀ f ∈ fs, FileSorted f)
    (hf : Functional (FilesHold fs)) (rts : Nat) :
    ∃ ss tr, fileStreams fs rts = some ss ∧ mergeAll ss none = some tr ∧
      IsScan (FilesMean fs) rts (rowsOf (C05.ready tr)) := by
  obtain ⟨ss, s1, s2⟩ := fileStreams_ok rts fs hs
  have hlen : ss.length = fs.length := s2.length_eq
  have hu : (fun w => ∃ i < ss.length, ∃ f, fs[i]? = some f ∧ FileVersions f w) = FilesMean fs := by
    funext w
    apply propext
    constructor
    · rintro ⟨i, _, f, hf, hw⟩
      exact ⟨f, List.mem_of_getElem? hf, hw⟩
    · rintro ⟨f, hf, hw⟩
      obtain ⟨i, hi⟩ := List.mem_iff_getElem?.1 hf
      exact ⟨i, by rw [hlen]; exact (List.getElem?_eq_some_iff.1 hi).1, f, hi, hw⟩
  have hfm : Functional (FilesMean fs) := fun a b ha hb =>
    hf a b ((filesMean_iff hf a).1 ha) ((filesMean_iff hf b).1 hb)
  obtain ⟨tr, m1, m2⟩ := C05.merged_scan ss (fun i w => ∃ f, fs[i]? = some f ∧ FileVersions f w) rts
    (fun _ => True)
    (by
      intro i p s hs
      obtain ⟨f, hf, hq⟩ := forall₂_getElem? s2 hs
      have : (fun w => ∃ f, fs[i]? = some f ∧ FileVersions f w) = FileVersions f := by
        funext w; simp [hf]
      rw [this]; exact hq)
    (by rw [hu]; exact hfm)
  rw [hu] at m2
  exact ⟨ss, tr, s1, m1, m2.1, fun k v => by rw [m2.2 k v]; simp⟩

/-- A merge of sorted files that hold anything succeeds, unless an iteration budget or a missing
allocator stops it. -/
theorem compaction_succeeds (cfg : Cfg K R) (H : Heap K) (next : Option Nat) (n : Nat)
    (fs : List (File K R)) (hn : 0 < n) (hs : ∀ f ∈ fs, FileSorted f) (hfit : ∀ f ∈ fs, Fits n f)
    (hb : cfg.budget = none) (ha : next ≠ none ∨ (cfg.maxRows = none ∧ cfg.maxBytes = none))
    (w : Ver K R) (hw : FilesHold fs w) :
    ∃ tables, execute cfg H next (fs.map (fileBatches n)) = .ok tables := by
  obtain ⟨L, hL, hres⟩ := execute_spec cfg H next (fs.map (fileBatches n))
    (by
      intro bs hbs
      obtain ⟨f, hf, rfl⟩ := List.mem_map.1 hbs
      exact fits_delivers hn (hfit f hf))
    (by
      intro bs hbs k
      obtain ⟨f, hf, rfl⟩ := List.mem_map.1 hbs
      exact fileBatches_sorted hn (hs f hf) k)
  rcases hres with ⟨hnil, _⟩ | ⟨_, tables, parts, he, _⟩ | ⟨e, _, hx⟩
  · obtain ⟨u, hu, _⟩ := hL.covers _ ((inInputs_iff hn fs w).2 hw)
    rw [hnil] at hu; cases hu
  · exact ⟨tables, he⟩
  · exfalso
    rcases hx with ⟨_, m, hm, _⟩ | ⟨_, h1, h2⟩
    · rw [hb] at hm; cases hm
    · rcases ha with ha | ⟨ha1, ha2⟩
      · exact ha h1
      · rcases h2 with h2 | h2
        · exact h2 ha1
        · exact h2 ha2

/-- **C15 is false.** For every batch size `n`: a single sorted file with rows for the keys `0` to `n`
and one deletion of a larger key is merged into files without the row `n`. The reader of the rows
meets the end of the first batch while the deletion is still pending, and is never asked again. -/
theorem compaction_loses_a_row (n : Nat) (hn : 0 < n) (H : Heap Nat) (cfg : Cfg Nat Nat)
    (next : Option Nat) (h1 : cfg.budget = none) (h2 : cfg.maxRows = none) (h3 : cfg.maxBytes = none) :
    ∃ (f : File Nat Nat) (tables : List (OTable Nat Nat)), FileSorted f ∧ Functional (FilesHold [f]) ∧
      (∀ w, FilesHold [f] w → w.ts ≤ 1) ∧
      execute cfg H next ([f].map (fileBatches n)) = .ok tables ∧
      Visible (FilesMean [f]) 1 n n ∧ ∀ v, ¬ Visible (FilesMean (tables.map (·.file))) 1 n v := by
  have hsort : FileSorted (lossy n) := by
    refine ⟨List.pairwise_map.2 ?_, by simp [lossy]⟩
    refine List.Pairwise.imp ?_ List.pairwise_lt_range
    intro a b h
    exact le_of_lt (KT.lt_def.2 (.inl h))
  have hput : ∀ w, FilesHold [lossy n] w → w.ts = 1 ∧
      ((w.key < n + 1 ∧ w.op = .put w.key) ∨ (w.key = n + 5 ∧ w.op = .del)) := by
    rintro ⟨k, t, op⟩ ⟨f, hf, hw⟩
    rw [List.mem_singleton] at hf
    subst hf
    cases op with
    | put r =>
      simp only [Holds, lossy, List.mem_map, List.mem_range, Prod.mk.injEq] at hw
      obtain ⟨a, ha, hkt, rfl⟩ := hw
      cases hkt
      exact ⟨rfl, .inl ⟨ha, rfl⟩⟩
    | del =>
      simp only [Holds, lossy, List.mem_singleton] at hw
      cases hw
      exact ⟨rfl, .inr ⟨rfl, rfl⟩⟩
  have hfun : Functional (FilesHold [lossy n]) := by
    intro a b ha hb hk _
    obtain ⟨_, ha⟩ := hput a ha
    obtain ⟨_, hb⟩ := hput b hb
    rcases ha with ⟨ha, ha'⟩ | ⟨ha, ha'⟩ <;> rcases hb with ⟨hb, hb'⟩ | ⟨hb, hb'⟩
    · rw [ha', hb', hk]
    · omega
    · omega
    · rw [ha', hb']
  obtain ⟨tables, he, hlost⟩ := merge_loses hn H cfg next h1 h2 h3
  refine ⟨lossy n, tables, hsort, hfun, fun w hw => Nat.le_of_eq (hput w hw).1, he, ?_, ?_⟩
  · refine ⟨1, ?_, Nat.le_refl _, fun u hu _ _ => ?_⟩
    · rw [filesMean_iff hfun]
      exact ⟨lossy n, by simp, List.mem_map.2 ⟨n, by simp, rfl⟩⟩
    · rw [filesMean_iff hfun] at hu
      exact Nat.le_of_eq (hput u hu).1
  · rintro v ⟨t, ⟨f, hf, hw⟩, _⟩
    obtain ⟨tb, htb, rfl⟩ := List.mem_map.1 hf
    refine hlost ⟨n, t, .put v⟩ ⟨tb.file, List.mem_map_of_mem htb, ?_⟩ rfl
    obtain ⟨⟨pre, post, hpre, _⟩, _⟩ := hw
    change (⟨n, t⟩, v) ∈ tb.file.data
    rw [hpre]; simp

/-- The settings of the examples. -/
def exCfg : Cfg Nat Nat := ⟨7, none, none, 4, none, none, fun _ => 1, fun _ => 1⟩

/-- A row and a deletion of one key with one timestamp in one file: a scan of the file takes the key
for deleted; in the merge the row number decides first, so the row comes back. -/
theorem compaction_revives_a_deleted_row :
    ∃ (f : File Nat Nat) (tables : List (OTable Nat Nat)), FileSorted f ∧ Fits 4 f ∧
      execute exCfg (listHeap Nat) none ([f].map (fileBatches 4)) = .ok tables ∧
      (Sst.scan f (fun _ => true) 1).map rowsOf = some [(0, 0)] ∧
      tables.map (fun t => (Sst.scan t.file (fun _ => true) 1).map rowsOf) = [some [(0, 0), (1, 1)]] :=
  ⟨⟨[(⟨0, 1⟩, 0), (⟨1, 1⟩, 1)], [⟨1, 1⟩]⟩, _, by unfold FileSorted; decide, .inr (.inr (.inl (by decide))), rfl,
    by decide, by decide⟩

/-! A concrete case: two files, one read in three batches, the other with deletions; the output is
split after every second row. -/
section Example

def exFiles : List (File Nat Nat) :=
  [⟨[(⟨1, 9⟩, 11), (⟨1, 5⟩, 10), (⟨3, 6⟩, 30), (⟨5, 5⟩, 50), (⟨6, 5⟩, 60)], []⟩,
   ⟨[(⟨2, 7⟩, 20), (⟨4, 7⟩, 40)], [⟨3, 8⟩, ⟨7, 8⟩]⟩]

def exCaps : Cfg Nat Nat := { exCfg with maxRows := some 2 }

example : (∀ f ∈ exFiles, FileSorted f) ∧ (∀ f ∈ exFiles, Fits 2 f) := by
  refine ⟨?_, ?_⟩
  · unfold exFiles FileSorted; decide
  · intro f hf
    simp only [exFiles, List.mem_cons, List.not_mem_nil, or_false] at hf
    rcases hf with rfl | rfl
    · exact .inl rfl
    · exact .inr (.inr (.inl (by decide)))

example : Functional (FilesHold exFiles) := by
  rintro ⟨k, t, o⟩ ⟨k', t', o'⟩ ⟨f, hf, h⟩ ⟨f', hf', h'⟩ hk ht
  simp only at hk ht
  subst hk ht
  simp only [exFiles, List.mem_cons, List.not_mem_nil, or_false] at hf hf'
  rcases hf with rfl | rfl <;> rcases hf' with rfl | rfl <;> cases o <;> cases o' <;>
    simp_all [Holds] <;> omega

example : ∃ tables, execute exCaps (listHeap Nat) (some 100) (exFiles.map (fileBatches 2)) = .ok tables ∧
    tables.map (fun t => (t.id, t.file)) =
      [(7, ⟨[(⟨1, 9⟩, 11), (⟨2, 7⟩, 20)], []⟩), (100, ⟨[(⟨4, 7⟩, 40), (⟨5, 5⟩, 50)], [⟨3, 8⟩]⟩),
       (101, ⟨[(⟨6, 5⟩, 60)], [⟨7, 8⟩]⟩)] := ⟨_, rfl, by decide⟩

end Example

end Tonbo.Props.C15

namespace Tonbo.Props.C16
open Tonbo.Model Tonbo.Model.Mem Tonbo.Model.Sst Tonbo.Model.Compact Tonbo.Spec Tonbo.Lemmas.Compact

variable {K R : Type} [LinearOrder K]

/-- **C16.** Whatever the record batches, the caps and the heap: the files a merge of sorted files
writes are not empty, hold every key once and in ascending order, and every key of a file is smaller
than every key of a later one. They hold nothing the inputs do not hold. No file has more rows than
the row cap (or one row, if the cap is zero). -/
theorem outputs_sorted_and_disjoint (cfg : Cfg K R) (H : Heap K) (next : Option Nat) (n : Nat)
    (fs : List (File K R)) (tables : List (OTable K R)) (hn : 0 < n) (hs : ∀ f ∈ fs, FileSorted f)
    (h : execute cfg H next (fs.map (fileBatches n)) = .ok tables) :
    tables ≠ [] ∧
    (∀ t ∈ tables, FileSorted t.file ∧ (∃ kt, Stored t.file kt) ∧
      t.file.data.Pairwise (fun a b => a.1.key < b.1.key) ∧
      t.file.dels.Pairwise (fun a b => a.key < b.key) ∧
      (∀ p ∈ t.file.data, ∀ x ∈ t.file.dels, p.1.key ≠ x.key) ∧
      ∀ m, cfg.maxRows = some m → t.file.data.length ≤ max 1 m) ∧
    tables.Pairwise (fun a b => ∀ x y, Stored a.file x → Stored b.file y → x.key < y.key) ∧
    ∀ w, FilesHold (tables.map (·.file)) w → FilesHold fs w := by
  obtain ⟨L, hL, hres⟩ := execute_weak cfg H next (fs.map (fileBatches n))
    (by
      intro bs hbs k
      obtain ⟨f, hf, rfl⟩ := List.mem_map.1 hbs
      exact fileBatches_sorted hn (hs f hf) k)
  rcases hres with ⟨_, he⟩ | ⟨_, tables', parts, he, hrep, hfl, hasc, hid, hne, hcap⟩ | ⟨e, he, _⟩
  · rw [he] at h; cases h
  · rw [he] at h
    cases h
    have hin : ∀ {ws : List (KT K × Option R)} {kt : KT K}, Stored (fileOf ws) kt → ∃ p ∈ ws, p.1 = kt := by
      rintro ws kt (⟨r, hr⟩ | hx)
      · exact ⟨_, mem_rowOf.1 hr, rfl⟩
      · exact ⟨_, mem_delOf.1 hx, rfl⟩
    refine ⟨hne, ?_, ?_, ?_⟩
    · intro t ht
      obtain ⟨ws, hws, hr⟩ := forall₂_mem_l hrep t ht
      have ha : Asc ws := by
        rw [← hfl] at hasc
        exact (List.pairwise_flatten.1 hasc).1 ws hws
      have hd := asc_rows ha
      have hx := asc_dels ha
      refine ⟨?_, ?_, ?_, ?_, ?_, ?_⟩
      · rw [hr.file]
        exact ⟨hd.imp (fun h => le_of_lt (KT.lt_def.2 (.inl h))),
          hx.imp (fun h => le_of_lt (KT.lt_def.2 (.inl h)))⟩
      · obtain ⟨⟨kt, o⟩, hp⟩ := List.exists_mem_of_ne_nil _ hr.ne
        rw [hr.file]
        cases o with
        | none => exact ⟨kt, .inr (mem_delOf.2 hp)⟩
        | some r => exact ⟨kt, .inl ⟨r, mem_rowOf.2 hp⟩⟩
      · rw [hr.file]; exact hd
      · rw [hr.file]; exact hx
      · rw [hr.file]
        intro p hp x hx' hk
        have h1 : (p.1, some p.2) ∈ ws := mem_rowOf.1 hp
        have h2 : (x, none) ∈ ws := mem_delOf.1 hx'
        have key : ∀ {l : List (KT K × Option R)}, Asc l → ∀ a ∈ l, ∀ b ∈ l, a.1.key = b.1.key → a = b := by
          intro l hl
          induction l with
          | nil => intro a ha; cases ha
          | cons c l ih =>
            intro a ha' b hb hab
            have hc := List.pairwise_cons.1 hl
            rcases List.mem_cons.1 ha' with rfl | ha1 <;> rcases List.mem_cons.1 hb with rfl | hb
            · rfl
            · exact absurd hab (ne_of_lt (hc.1 b hb))
            · exact absurd hab.symm (ne_of_lt (hc.1 a ha1))
            · exact ih hc.2 a ha1 b hb hab
        have := key ha _ h1 _ h2 hk
        cases this
      · intro m hm
        have := hcap t ht m hm
        rwa [hr.rows] at this
    · have hpf : parts.Pairwise (fun a b => ∀ x ∈ a, ∀ y ∈ b, x.1.key < y.1.key) := by
        rw [← hfl] at hasc
        exact (List.pairwise_flatten.1 hasc).2
      clear hfl hasc hcap hne he hid
      induction hrep with
      | nil => exact List.Pairwise.nil
      | @cons t ws ts wss hr ht ih =>
        have hp := List.pairwise_cons.1 hpf
        refine List.pairwise_cons.2 ⟨?_, ih hp.2⟩
        intro b hb x y hx hy
        obtain ⟨ws', hws', hr'⟩ := forall₂_mem_l ht b hb
        rw [hr.file] at hx
        rw [hr'.file] at hy
        obtain ⟨p, hp1, rfl⟩ := hin hx
        obtain ⟨q, hq1, rfl⟩ := hin hy
        exact hp.1 ws' hws' p hp1 q hq1
    · intro w hw
      rw [outputs_hold hrep, hfl] at hw
      exact (inInputs_iff hn fs w).1 (hL _ hw)
  · rw [he] at h; cases h

/-- **C16 (partial)**, no key is lost: every key of the inputs occurs in the outputs, in its newest
version. Missing: files excluded by `Fits` (`C15.compaction_loses_a_row`). -/
theorem outputs_lose_no_key_partial (cfg : Cfg K R) (H : Heap K) (next : Option Nat) (n : Nat)
    (fs : List (File K R)) (tables : List (OTable K R)) (hn : 0 < n) (hs : ∀ f ∈ fs, FileSorted f)
    (hfit : ∀ f ∈ fs, Fits n f) (h : execute cfg H next (fs.map (fileBatches n)) = .ok tables)
    (u : Ver K R) (hu : FilesHold fs u) :
    ∃ w, FilesHold (tables.map (·.file)) w ∧ w.key = u.key ∧ u.ts ≤ w.ts := by
  obtain ⟨h1, h2⟩ := merged_holds hn hs hfit h
  obtain ⟨w, hw, hk⟩ := h2 u hu
  exact ⟨w, hw, hk, (h1 w hw).2 u hu hk.symm⟩

/-- Output files get different identifiers: the target identifier, then what the allocator yields. -/
theorem output_ids (cfg : Cfg K R) (H : Heap K) (first n : Nat)
    (fs : List (File K R)) (tables : List (OTable K R)) (hn : 0 < n) (hs : ∀ f ∈ fs, FileSorted f)
    (hlt : cfg.target < first)
    (h : execute cfg H (some first) (fs.map (fileBatches n)) = .ok tables) :
    (tables.map (·.id)).Pairwise (· < ·) ∧
    ∀ t ∈ tables, t.id = cfg.target ∨ (first ≤ t.id ∧ t.id < first + tables.length) := by
  obtain ⟨L, hL, hres⟩ := execute_weak cfg H (some first) (fs.map (fileBatches n))
    (by
      intro bs hbs k
      obtain ⟨f, hf, rfl⟩ := List.mem_map.1 hbs
      exact fileBatches_sorted hn (hs f hf) k)
  rcases hres with ⟨_, he⟩ | ⟨_, tables', parts, he, _, _, _, hid, hne, _⟩ | ⟨e, he, _⟩
  · rw [he] at h; cases h
  · rw [he] at h
    cases h
    rw [hid]
    refine ⟨?_, ?_⟩
    · refine List.pairwise_cons.2 ⟨?_, List.pairwise_lt_range'⟩
      intro a ha
      have := (List.mem_range'_1.1 ha).1
      omega
    · intro t ht
      have hm : t.id ∈ tables.map (·.id) := List.mem_map_of_mem ht
      rw [hid] at hm
      rcases List.mem_cons.1 hm with hm | hm
      · exact .inl hm
      · have := List.mem_range'_1.1 hm
        exact .inr ⟨this.1, by omega⟩
  · rw [he] at h; cases h

/-! The files of `C15.exFiles` meet the hypotheses; see the examples there. -/
example : C15.exCaps.target < 100 := by decide

end Tonbo.Props.C16

namespace Tonbo.Props.C15
open Tonbo.Model Tonbo.Model.Mem Tonbo.Model.Sst Tonbo.Model.Compact Tonbo.Spec Tonbo.Lemmas.Compact
open Tonbo.Model.Merge
open Tonbo.Lemmas.Mem (pairwise_key_ext)

variable {K R : Type} [LinearOrder K]

/-- **C15 (partial)**, as a comparison of scans: at every timestamp at which the newest versions are visible, a
scan of the outputs returns the same rows in the same order as a scan of the inputs. -/
theorem compaction_equals_scan_partial (cfg : Cfg K R) (H : Heap K) (next : Option Nat)
    (n : Nat) (fs : List (File K R)) (tables : List (OTable K R)) (hn : 0 < n)
    (hs : ∀ f ∈ fs, FileSorted f) (hfit : ∀ f ∈ fs, Fits n f) (hf : Functional (FilesHold fs))
    (h : execute cfg H next (fs.map (fileBatches n)) = .ok tables)
    (rts : Nat) (hr : ∀ w, FilesHold fs w → w.ts ≤ rts) :
    ∃ ss tr ss' tr', fileStreams fs rts = some ss ∧ mergeAll ss none = some tr ∧
      fileStreams (tables.map (·.file)) rts = some ss' ∧ mergeAll ss' none = some tr' ∧
      rowsOf (C05.ready tr') = rowsOf (C05.ready tr) := by
  have hiff := merged_holds_iff hn hs hfit hf h
  have hfo : Functional (FilesHold (tables.map (·.file))) := fun a b ha hb =>
    hf a b ((hiff a).1 ha).1 ((hiff b).1 hb).1
  obtain ⟨ss, tr, a1, a2, a3⟩ := scan_of_files fs hs hf rts
  obtain ⟨ss', tr', b1, b2, b3⟩ := scan_of_files (tables.map (·.file))
    (by
      intro f hf
      obtain ⟨t, ht, rfl⟩ := List.mem_map.1 hf
      exact ((C16.outputs_sorted_and_disjoint cfg H next n fs tables hn hs h).2.1 t ht).1) hfo rts
  refine ⟨ss, tr, ss', tr', a1, a2, b1, b2, ?_⟩
  refine pairwise_key_ext (fun p => p.1) b3.1 a3.1 (fun p => ?_)
  rw [b3.2 p.1 p.2, a3.2 p.1 p.2]
  have := compaction_preserves_latest_reads_partial cfg H next n fs tables hn hs hfit hf h (fun _ => False)
    rts p.1 (fun w hw _ => hr w hw) p.2
  simp only [false_or] at this
  exact this.symm

end Tonbo.Props.C15

namespace Tonbo.Props.C17
open Tonbo.Model Tonbo.Model.Mem Tonbo.Model.Sst Tonbo.Model.Compact Tonbo.Spec Tonbo.Lemmas.Compact

variable {K R : Type} [LinearOrder K]

/-- **C17 is false** of reads through the compacted tables: if the inputs hold two versions of a key,
the older one is gone. A reader at its timestamp sees nothing of that key afterwards. -/
theorem compaction_drops_history (cfg : Cfg K R) (H : Heap K) (next : Option Nat)
    (n : Nat) (fs : List (File K R)) (tables : List (OTable K R)) (hn : 0 < n)
    (hs : ∀ f ∈ fs, FileSorted f) (hfit : ∀ f ∈ fs, Fits n f)
    (h : execute cfg H next (fs.map (fileBatches n)) = .ok tables)
    (k : K) (t1 t2 : Nat) (o2 : Mut R) (hlt : t1 < t2) (h2 : FilesHold fs ⟨k, t2, o2⟩) (v : R) :
    ¬ Visible (FilesMean (tables.map (·.file))) t1 k v := by
  rintro ⟨t, ⟨f, hf, hw⟩, ht, _⟩
  obtain ⟨tb, htb, rfl⟩ := List.mem_map.1 hf
  have hh : FilesHold (tables.map (·.file)) ⟨k, t, .put v⟩ := by
    refine ⟨tb.file, List.mem_map_of_mem htb, ?_⟩
    obtain ⟨⟨pre, post, hpre, _⟩, _⟩ := hw
    change (⟨k, t⟩, v) ∈ tb.file.data
    rw [hpre]; simp
  have := ((merged_holds hn hs hfit h).1 _ hh).2 _ h2 rfl
  simp only at this ht
  omega

/-- A file for which that matters: the row written at timestamp 5 is visible at 5, and overwritten
at 9. -/
example : ∃ tables, execute C15.exCfg (listHeap Nat) none
      ([⟨[(⟨1, 9⟩, 11), (⟨1, 5⟩, 10)], []⟩].map (fileBatches 2)) = .ok tables ∧
    (Sst.scan (⟨[(⟨1, 9⟩, 11), (⟨1, 5⟩, 10)], []⟩ : File Nat Nat) (fun _ => true) 5).map rowsOf = some [(1, 10)] ∧
    tables.map (fun t => (Sst.scan t.file (fun _ => true) 5).map rowsOf) = [some []] :=
  ⟨_, rfl, by decide, by decide⟩

/-- **C17 (partial).** A version that is the newest of its key survives, at every timestamp not older
than it. Missing: versions that were overwritten or deleted within the inputs
(`compaction_drops_history`). -/
theorem newest_versions_survive_partial (cfg : Cfg K R) (H : Heap K) (next : Option Nat)
    (n : Nat) (fs : List (File K R)) (tables : List (OTable K R)) (hn : 0 < n)
    (hs : ∀ f ∈ fs, FileSorted f) (hfit : ∀ f ∈ fs, Fits n f) (hf : Functional (FilesHold fs))
    (h : execute cfg H next (fs.map (fileBatches n)) = .ok tables) (w : Ver K R)
    (hw : FilesHold fs w) (hmax : ∀ u, FilesHold fs u → u.key = w.key → u.ts ≤ w.ts)
    (rts : Nat) (hr : w.ts ≤ rts) : Newest (FilesMean (tables.map (·.file))) rts w := by
  have hiff := merged_holds_iff hn hs hfit hf h
  have hfo : Functional (FilesHold (tables.map (·.file))) := fun a b ha hb =>
    hf a b ((hiff a).1 ha).1 ((hiff b).1 hb).1
  refine ⟨(filesMean_iff hfo w).2 ((hiff w).2 ⟨hw, hmax⟩), hr, ?_⟩
  intro u hu hk _
  exact hmax u ((hiff u).1 ((filesMean_iff hfo u).1 hu)).1 hk

end Tonbo.Props.C17

namespace Tonbo.Props.C18
open Tonbo.Model Tonbo.Model.Mem Tonbo.Model.Sst Tonbo.Model.Compact Tonbo.Spec Tonbo.Lemmas.Compact

variable {K R : Type} [LinearOrder K]

/-- **C18**, for the outputs of a compaction: key and commit bounds are exact, and so are the counts. -/
theorem compaction_stats_exact (cfg : Cfg K R) (H : Heap K) (next : Option Nat) (n : Nat)
    (fs : List (File K R)) (tables : List (OTable K R)) (hn : 0 < n) (hs : ∀ f ∈ fs, FileSorted f)
    (h : execute cfg H next (fs.map (fileBatches n)) = .ok tables) (t : OTable K R) (ht : t ∈ tables) :
    StatsExact t.file t.stats.minKey t.stats.maxKey t.stats.minTs t.stats.maxTs ∧
      t.stats.rows = t.file.data.length ∧ t.stats.tombstones = t.file.dels.length := by
  obtain ⟨L, _, hres⟩ := execute_weak cfg H next (fs.map (fileBatches n))
    (by
      intro bs hbs k
      obtain ⟨f, hf, rfl⟩ := List.mem_map.1 hbs
      exact fileBatches_sorted hn (hs f hf) k)
  rcases hres with ⟨_, he⟩ | ⟨_, tables', parts, he, hrep, _⟩ | ⟨e, he, _⟩
  · rw [he] at h; cases h
  · rw [he] at h
    cases h
    obtain ⟨ws, _, hr⟩ := forall₂_mem_l hrep t ht
    exact ⟨hr.exact, hr.rows, hr.tombs⟩
  · rw [he] at h; cases h

/-! A concrete case: two chunks, deletions at both ends. -/
example : ∃ t, execute { C15.exCfg with chunkRows := 2 } (listHeap Nat) none
    ([⟨[(⟨3, 6⟩, 30), (⟨4, 2⟩, 40)], [⟨1, 5⟩, ⟨9, 8⟩]⟩].map (fileBatches 4)) = .ok [t] ∧
    t.stats = ⟨2, 2, 2, some 1, some 9, some 2, some 8⟩ := ⟨_, rfl, by decide⟩

end Tonbo.Props.C18
