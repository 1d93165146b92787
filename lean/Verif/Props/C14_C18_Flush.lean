import Verif.Lemmas.Flush
import Verif.Lemmas.StoreScan
import Verif.Props.C13_Sst

/-!
# C14, C18: writing frozen runs into one table file, and its statistics

`ops` is any sequence of upsert batches, delete batches and freezes; `t` the state they lead to.
-/

set_option linter.unusedSectionVars false

namespace Tonbo.Props.C14
open Tonbo.Model Tonbo.Model.Mem Tonbo.Model.Merge Tonbo.Model.Flush Tonbo.Spec
open Tonbo.Lemmas.Mem Tonbo.Lemmas.Flush Tonbo.Lemmas.Plan
open Tonbo.Model.Sst (File)

variable {K R : Type} [LinearOrder K]

private theorem runs_wf {ext : R → Option K} {ms : List (Imm K R)} {logs : List (List (Ver K R))}
    (h : List.Forall₂ (Imm.Rep ext) ms logs) : ∀ m ∈ ms, Imm.WF ext m := by
  intro m hm
  obtain ⟨i, hi⟩ := List.mem_iff_getElem?.1 hm
  obtain ⟨l, _, hrep⟩ := forall₂_getElem? h hi
  exact hrep.1

private theorem runs_content {ext : R → Option K} {ms : List (Imm K R)}
    {logs : List (List (Ver K R))} (h : List.Forall₂ (Imm.Rep ext) ms logs)
    (hf : Functional (· ∈ logs.flatten)) (w : Ver K R) :
    (∃ m ∈ ms, Imm.Content m w) ↔ w ∈ logs.flatten := by
  constructor
  · rintro ⟨m, hm, hw⟩
    obtain ⟨i, hi⟩ := List.mem_iff_getElem?.1 hm
    obtain ⟨l, hl, hrep⟩ := forall₂_getElem? h hi
    exact List.mem_flatten.2 ⟨l, List.mem_of_getElem? hl, lastWrite_mem ((hrep.2 w).1 hw)⟩
  · intro hw
    obtain ⟨l, hl, hw⟩ := List.mem_flatten.1 hw
    obtain ⟨m, hm, hrep⟩ := forall₂_mem_right h hl
    refine ⟨m, hm, (hrep.2 w).2 (mem_lastWrite l ?_ w hw)⟩
    exact fun a b ha hb => hf a b (List.mem_flatten.2 ⟨l, hl, ha⟩) (List.mem_flatten.2 ⟨l, hl, hb⟩)

private theorem reach {ext : R → Option K} {cap : Nat} {ops : List (Op K R)} {t : Runs K R}
    (h : (Runs.new cap).calls ext ops = (true, t)) (hr : t.runs ≠ []) :
    ∃ logs cur, List.Forall₂ (Imm.Rep ext) t.runs logs ∧ Rep ext t.mem cur ∧
      logs.flatten ++ cur = ops.flatMap (opWrites ext) ∧
      (∀ m ∈ t.runs, Imm.WF ext m) ∧ ∃ m ∈ t.runs, ∃ v, Imm.Content m v := by
  obtain ⟨logs, cur, h1, h2, h3⟩ := calls_ok ops (Runs.new cap) t [] [] .nil (rep_new ext cap) h
  obtain ⟨m, hm⟩ := List.exists_mem_of_ne_nil _ hr
  exact ⟨logs, cur, h1, h2, by simpa using h3, runs_wf h1, m, hm,
    Imm.exists_content (runs_wf h1 m hm)⟩

/-- **C14 (partial).** Flushing the frozen runs succeeds and writes a sorted file. If no two writes disagree
about one key at one timestamp, the log of writes splits into a first part held by the file and a
rest held by the mutable table: at every read timestamp, scanning the file reports exactly the newest
versions of the first part, and scanning the mutable table those of the rest.
Missing from the full property: writes that disagree at one timestamp
(see `flush_changes_equal_timestamps`). -/
theorem flush_preserves_reads_partial (ext : R → Option K) (cap : Nat) (ops : List (Op K R)) (t : Runs K R)
    (h : (Runs.new cap).calls ext ops = (true, t)) (hr : t.runs ≠ [])
    (hf : Functional (· ∈ ops.flatMap (opWrites ext))) :
    ∃ tab f flushed rest, flush ext t.runs = .ok tab ∧ tab.file ext = some f ∧ FileSorted f ∧
      flushed ++ rest = ops.flatMap (opWrites ext) ∧
      (∀ rts, ∃ out, Sst.scan f (fun _ => true) rts = some out ∧
        IsVersionScan (· ∈ flushed) rts (fun _ => True) (out.map toVer)) ∧
      (∀ rts, ∃ out, scan t.mem none rts = some out ∧
        IsVersionScan (· ∈ rest) rts (fun _ => True) (out.map toVer)) := by
  obtain ⟨logs, cur, h1, h2, h3, hwf, hne⟩ := reach h hr
  obtain ⟨tab, f, g1, g2, g3, _, g5, g6, _⟩ := flush_spec hwf hne
  have hfl : Functional (· ∈ logs.flatten) := fun a b ha hb =>
    hf a b (by rw [← h3]; exact List.mem_append_left _ ha) (by rw [← h3]; exact List.mem_append_left _ hb)
  have hfr : Functional (· ∈ cur) := fun a b ha hb =>
    hf a b (by rw [← h3]; exact List.mem_append_right _ ha) (by rw [← h3]; exact List.mem_append_right _ hb)
  refine ⟨tab, f, logs.flatten, cur, g1, g2, g3, h3, fun rts => ?_, fun rts => ?_⟩
  · obtain ⟨out, o1, o2⟩ := C13.sst_scan f g3 rts
    refine ⟨out, o1, ?_⟩
    have : FileVersions f = (· ∈ logs.flatten) := by
      funext w
      exact propext (fileVersions_iff hfl (fun kt r => by rw [g5]; exact runs_content h1 hfl _)
        (fun kt => by rw [g6]; exact runs_content h1 hfl _) w)
    rwa [this] at o2
  · obtain ⟨out, o1, o2⟩ := rep_scan_all h2 rts
    refine ⟨out, o1, ?_⟩
    have : LastWrite cur = (· ∈ cur) := by
      funext w
      exact propext ⟨fun hw => lastWrite_mem hw, mem_lastWrite cur hfr w⟩
    rwa [this] at o2

/-- The scans of frozen runs, as they enter the merge. -/
def runStreams (ms : List (Imm K R)) (rts : Nat) :
    Option (List (Prio × List (Option (Entry K R)))) :=
  ms.mapM (fun m => (m.scan none rts).map (fun o => (Prio.immutable, o.map some)))

private theorem runStreams_ok {ext : R → Option K} (rts : Nat) : ∀ {ms : List (Imm K R)}
    {logs : List (List (Ver K R))}, List.Forall₂ (Imm.Rep ext) ms logs →
    ∃ ss, runStreams ms rts = some ss ∧
      List.Forall₂ (fun (s : Prio × List (Option (Entry K R))) l =>
        IsVersionScan (LastWrite l) rts (fun _ => True) ((C05.ready s.2).map toVer)) ss logs
  | _, _, .nil => ⟨[], rfl, .nil⟩
  | m :: ms, l :: logs, .cons h t => by
    obtain ⟨ss, h1, h2⟩ := runStreams_ok rts t
    obtain ⟨out, o1, o2⟩ := imm_rep_scan_all h rts
    refine ⟨(Prio.immutable, out.map some) :: ss, ?_, .cons ?_ h2⟩
    · unfold runStreams at h1 ⊢
      simp [List.mapM_cons, o1, h1]
    · rw [ready_some]
      exact o2

/-- **C14 (partial)**, the file against the runs it replaces: at every read timestamp, scanning the file returns
the same rows, in the same order, as merging the scans of the runs. -/
theorem flush_equals_merge_partial (ext : R → Option K) (cap : Nat) (ops : List (Op K R)) (t : Runs K R)
    (h : (Runs.new cap).calls ext ops = (true, t)) (hr : t.runs ≠ [])
    (hf : Functional (· ∈ ops.flatMap (opWrites ext))) :
    ∃ tab f, flush ext t.runs = .ok tab ∧ tab.file ext = some f ∧
      ∀ rts, ∃ ss tr out, runStreams t.runs rts = some ss ∧ mergeAll ss none = some tr ∧
        Sst.scan f (fun _ => true) rts = some out ∧ rowsOf out = rowsOf (C05.ready tr) := by
  obtain ⟨logs, cur, h1, h2, h3, hwf, hne⟩ := reach h hr
  obtain ⟨tab, f, g1, g2, g3, _, g5, g6, _⟩ := flush_spec hwf hne
  have hfl : Functional (· ∈ logs.flatten) := fun a b ha hb =>
    hf a b (by rw [← h3]; exact List.mem_append_left _ ha) (by rw [← h3]; exact List.mem_append_left _ hb)
  refine ⟨tab, f, g1, g2, fun rts => ?_⟩
  obtain ⟨ss, s1, s2⟩ := runStreams_ok rts h1
  obtain ⟨out, o1, o2⟩ := C13.sst_scan f g3 rts
  have hv : FileVersions f = (· ∈ logs.flatten) := by
    funext w
    exact propext (fileVersions_iff hfl (fun kt r => by rw [g5]; exact runs_content h1 hfl _)
      (fun kt => by rw [g6]; exact runs_content h1 hfl _) w)
  rw [hv] at o2
  have hlen : ss.length = logs.length := s2.length_eq
  have hu : (fun w => ∃ i < ss.length, ∃ l, logs[i]? = some l ∧ LastWrite l w) =
      (· ∈ logs.flatten) := by
    funext w
    apply propext
    constructor
    · rintro ⟨i, _, l, hl, hw⟩
      exact List.mem_flatten.2 ⟨l, List.mem_of_getElem? hl, lastWrite_mem hw⟩
    · intro hw
      obtain ⟨l, hl, hw⟩ := List.mem_flatten.1 hw
      obtain ⟨i, hi⟩ := List.mem_iff_getElem?.1 hl
      refine ⟨i, by rw [hlen]; exact (List.getElem?_eq_some_iff.1 hi).1, l, hi, mem_lastWrite l ?_ w hw⟩
      exact fun a b ha hb => hfl a b (List.mem_flatten.2 ⟨l, hl, ha⟩) (List.mem_flatten.2 ⟨l, hl, hb⟩)
  obtain ⟨tr, m1, m2⟩ := C05.merged_scan ss (fun i w => ∃ l, logs[i]? = some l ∧ LastWrite l w) rts
    (fun _ => True)
    (by
      intro i p s hs
      obtain ⟨l, hl, hq⟩ := forall₂_getElem? s2 hs
      have : (fun w => ∃ l, logs[i]? = some l ∧ LastWrite l w) = LastWrite l := by
        funext w; simp [hl]
      rw [this]; exact hq)
    (by rw [hu]; exact hfl)
  rw [hu] at m2
  have := C02.rows_of_version_scan o2
  refine ⟨ss, tr, out, s1, m1, o1, ?_⟩
  exact pairwise_key_ext (fun p => p.1) this.1 m2.1 (fun p => (this.2 p.1 p.2).trans (m2.2 p.1 p.2).symm)

/-- Without runs there is nothing to flush, and flushing says so. -/
theorem flush_of_nothing_fails (ext : R → Option K) :
    flush ext ([] : List (Imm K R)) = .error .noSegments := rfl

/-- If an upsert and a deletion of one key carry one timestamp and sit in different runs, flushing
changes the answer: before, the older run wins the merge and the row is returned; afterwards the
deletion wins. -/
theorem flush_changes_equal_timestamps :
    ∃ (t : Runs Nat (Nat × Nat)) (tab : Table Nat (Nat × Nat)) (f : File Nat (Nat × Nat))
      (ss : List (Prio × List (Option (Entry Nat (Nat × Nat))))),
      (Runs.new 4).calls C02.exExt [.put [((1, 10), 5)], .freeze, .del [(1, 5)], .freeze] = (true, t) ∧
      flush C02.exExt t.runs = .ok tab ∧ tab.file C02.exExt = some f ∧
      runStreams t.runs 5 = some ss ∧
      (mergeAll ss none).map (fun tr => rowsOf (C05.ready tr)) = some [(1, (1, 10))] ∧
      (Sst.scan f (fun _ => true) 5).map rowsOf = some [] :=
  ⟨_, _, _, _, rfl, rfl, rfl, rfl, by decide, by decide⟩

/-! A concrete case: two frozen runs with interleaved keys and versions. -/
section Example

def exOps : List (Op Nat (Nat × Nat)) :=
  [.put [((1, 10), 5), ((3, 30), 6)], .freeze, .del [(3, 8)], .put [((1, 11), 9), ((2, 20), 9)],
    .freeze, .put [((4, 40), 10)]]

example : ((Runs.new 4).calls C02.exExt exOps).1 = true ∧
    ((Runs.new 4).calls C02.exExt exOps).2.runs.length = 2 ∧
    Functional (· ∈ exOps.flatMap (opWrites C02.exExt)) ∧
    flush C02.exExt ((Runs.new 4).calls C02.exExt exOps).2.runs = .ok
      { data := [((1, 11), 9), ((1, 10), 5), ((2, 20), 9), ((3, 30), 6)], dels := [(3, 8)],
        stats := ⟨2, 4, 1, some 1, some 3, some 5, some 9⟩ } := by
  refine ⟨by decide, by decide, ?_, by decide⟩
  intro a b ha hb
  simp only [exOps, opWrites, putWrites, delWrites, C02.exExt, List.flatMap_cons, List.flatMap_nil,
    List.filterMap_cons, List.filterMap_nil, List.map_cons, List.map_nil, Option.map_some,
    List.nil_append, List.cons_append, List.mem_cons, List.not_mem_nil, or_false, List.append_nil]
    at ha hb
  rcases ha with rfl | rfl | rfl | rfl | rfl | rfl <;>
    rcases hb with rfl | rfl | rfl | rfl | rfl | rfl <;> simp

end Example

end Tonbo.Props.C14

namespace Tonbo.Props.C18
open Tonbo.Model Tonbo.Model.Mem Tonbo.Model.Flush Tonbo.Spec Tonbo.Lemmas.Mem Tonbo.Lemmas.Flush

variable {K R : Type} [LinearOrder K]

/-- **C18**, for flushed files: the recorded key and commit bounds enclose every row and every deletion
in the file, both ends are attained, and the recorded counts are the numbers of rows and deletions. -/
theorem flush_stats_exact (ext : R → Option K) (cap : Nat) (ops : List (Op K R)) (t : Runs K R)
    (h : (Runs.new cap).calls ext ops = (true, t)) (hr : t.runs ≠ []) :
    ∃ tab f, flush ext t.runs = .ok tab ∧ tab.file ext = some f ∧
      StatsExact f tab.stats.minKey tab.stats.maxKey tab.stats.minTs tab.stats.maxTs ∧
      tab.stats.rows = f.data.length ∧ tab.stats.tombstones = f.dels.length := by
  obtain ⟨logs, cur, h1, h2, h3, hwf, hne⟩ := C14.reach h hr
  obtain ⟨tab, f, g1, g2, _, _, _, _, g7, g8, g9⟩ := flush_spec hwf hne
  exact ⟨tab, f, g1, g2, g7, g8, g9⟩

/-! A file with one row and, below and above it, deletions only: the deletions set the bounds. -/
example : ((Runs.new 4).calls C02.exExt [.put [((5, 50), 7)], .del [(2, 8), (9, 3)], .freeze]).1 = true ∧
    ∃ tab, flush C02.exExt ((Runs.new 4).calls C02.exExt
      [.put [((5, 50), 7)], .del [(2, 8), (9, 3)], .freeze]).2.runs = .ok tab ∧
      tab.stats = ⟨1, 1, 2, some 2, some 9, some 3, some 8⟩ :=
  ⟨by decide, _, rfl, by decide⟩

end Tonbo.Props.C18
