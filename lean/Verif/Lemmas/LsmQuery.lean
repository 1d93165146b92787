import Verif.Model.LsmQuery
import Verif.Props.C54_EndToEnd
import Verif.Props.C61_Columns
import Verif.Lemmas.TxnMem

/-! # The store a query reads -/

set_option linter.unusedSectionVars false

namespace Tonbo.Lemmas.Lsm
open Tonbo.Model Tonbo.Model.Manifest Tonbo.Model.Planner Tonbo.Model.Outcome Tonbo.Model.Lsm Tonbo.Spec
open Tonbo.Lemmas.Manifest
open Tonbo.Model.Pred Tonbo.Model.Plan Tonbo.Model.Keys
open Tonbo.Lemmas.Mem (Rep Imm.Rep Imm.WF Imm.Content lastWrite_mem)
open Tonbo.Lemmas.Plan (forall₂_getElem? forall₂_mem_right mem_lastWrite)
open Tonbo.Model.Sst (File)

variable {K : Type} [LinearOrder K]

theorem mapM_some {α β : Type} {f : α → Option β} {g : α → β} : ∀ (l : List α), (∀ a ∈ l, f a = some (g a)) →
    l.mapM f = some (l.map g)
  | [], _ => rfl
  | a :: l, h => by
    simp [List.mapM_cons, h a List.mem_cons_self, mapM_some l (fun b hb => h b (List.mem_cons_of_mem _ hb))]

/-- A scan finds the tables of the latest version, sorted and with true statistics. -/
theorem storeOf_ok {ext : Row → Option K} {x : Exec K Row} {t n : Nat} {s : Db K Row} (base : Schema)
    (h : Inv ext x t n s) :
    ∃ levels, storeOf base t s = some ⟨s.runs.mem, s.runs.runs, levels⟩ ∧
      (∀ q ∈ levels.flatten, FileSorted q.file ∧ StatsEnclose q ∧ q.schema = base ++ [Proj.commitField] ∧
        ∃ v l e, At s.kv t n v ∧ e ∈ v.ssts.getD l [] ∧ s.files ⟨l, e.id⟩ = some q.file) ∧
      ∀ v l e f, At s.kv t n v → e ∈ v.ssts.getD l [] → s.files ⟨l, e.id⟩ = some f →
        ∃ q ∈ levels.flatten, q.file = f := by
  obtain ⟨hd, hreg⟩ := h.reg
  unfold storeOf
  rcases snapshotLatest_spec hreg with ⟨h0, e⟩ | ⟨h0, v, hv, _, e⟩
  · rw [e]
    refine ⟨[], rfl, by simp, fun v l en f hat _ _ => ?_⟩
    have := (at_le hreg hat).1
    omega
  · rw [e]
    have hat : At s.kv t n v := hv
    let g : Entry (Info K) → Plan.Sst K := fun e => (sstOf base s.files e).getD ⟨⟨[], []⟩, none, none, none, []⟩
    have hg : ∀ l e, e ∈ v.ssts.getD l [] → sstOf base s.files e = some (g e) ∧ FileSorted (g e).file ∧
        StatsEnclose (g e) ∧ (g e).schema = base ++ [Proj.commitField] ∧ s.files ⟨l, e.id⟩ = some (g e).file := by
      intro l e he
      have hok := h.ent l e ⟨n, v, hat, he⟩
      obtain ⟨f, g1, g2, g3⟩ := readFile_entry hok
      have hs : sstOf base s.files e = some ⟨f, e.info.stats.bind (·.minKey), e.info.stats.bind (·.maxKey),
          e.info.stats.bind (·.minTs), base ++ [Proj.commitField]⟩ := by
        unfold sstOf
        rw [g2]
        rfl
      have hge : g e = ⟨f, e.info.stats.bind (·.minKey), e.info.stats.bind (·.maxKey),
          e.info.stats.bind (·.minTs), base ++ [Proj.commitField]⟩ := by
        simp only [g, hs, Option.getD_some]
      obtain ⟨st, s1, s2, _⟩ := g3.stats
      rw [hge]
      refine ⟨hs, g3.sorted, ?_, rfl, g1⟩
      intro kt hkt
      have hkt : Stored f kt := hkt
      simp only [s1, Option.bind_some]
      obtain ⟨a1, a2, a3, _⟩ := s2
      refine ⟨fun mn hmn => ?_, fun mx hmx => ?_, fun lo hlo => ?_⟩
      · rw [hmn] at a1
        exact a1.2 _ ⟨kt, hkt, rfl⟩
      · rw [hmx] at a2
        exact a2.2 _ ⟨kt, hkt, rfl⟩
      · rw [hlo] at a3
        exact a3.2 _ ⟨kt, hkt, rfl⟩
    have hmem : ∀ es ∈ v.ssts, ∀ e ∈ es, ∃ l, e ∈ v.ssts.getD l [] := by
      intro es hes e he
      obtain ⟨l, hl⟩ := List.mem_iff_getElem?.1 hes
      exact ⟨l, by rw [List.getD_eq_getElem?_getD, hl]; exact he⟩
    have hlev : levelsOf base s.files v = some (v.ssts.map (List.map g)) := by
      unfold levelsOf
      refine mapM_some _ fun es hes => mapM_some _ fun e he => ?_
      obtain ⟨l, hl⟩ := hmem es hes e he
      exact (hg l e hl).1
    refine ⟨v.ssts.map (List.map g), by simp only [hlev, Option.map_some], ?_, ?_⟩
    · intro q hq
      obtain ⟨gs, hgs, hq⟩ := List.mem_flatten.1 hq
      obtain ⟨es, hes, rfl⟩ := List.mem_map.1 hgs
      obtain ⟨e, he, rfl⟩ := List.mem_map.1 hq
      obtain ⟨l, hl⟩ := hmem es hes e he
      obtain ⟨_, g2, g3, g4, g5⟩ := hg l e hl
      exact ⟨g2, g3, g4, v, l, e, hat, hl, g5⟩
    · intro u l en f hu he hf
      rw [at_unique hu hat] at he
      obtain ⟨_, _, _, _, g5⟩ := hg l en he
      rw [hf] at g5
      refine ⟨g en, ?_, by simpa using g5.symm⟩
      rw [List.mem_flatten]
      refine ⟨(v.ssts.getD l []).map g, List.mem_map.2 ⟨v.ssts.getD l [], ?_, rfl⟩, List.mem_map.2 ⟨en, he, rfl⟩⟩
      rw [List.getD_eq_getElem?_getD] at he ⊢
      cases hl : v.ssts[l]? with
      | none => rw [hl] at he; cases he
      | some es => exact List.mem_of_getElem? hl

/-- Rows in memory are rows that were written. -/
theorem run_rows {P : Row → Prop} {ext : Row → Option K} {x : Exec K Row} {t : Nat} :
    ∀ (ops : List (Lsm.Op K Row)) (s : Db K Row),
    ((∀ a ∈ s.runs.mem.batches, ∀ r ∈ a.rows, P r) ∧ ∀ m ∈ s.runs.runs, ∀ r ∈ m.rows, P r) →
    (∀ rows, Lsm.Op.write (.put rows) ∈ ops → ∀ q ∈ rows, P q.1) → (∀ o ∈ ops, isReopen o = false) →
    (Lsm.run ext x t s ops).1 = true →
    (∀ a ∈ (Lsm.run ext x t s ops).2.runs.mem.batches, ∀ r ∈ a.rows, P r) ∧
      ∀ m ∈ (Lsm.run ext x t s ops).2.runs.runs, ∀ r ∈ m.rows, P r
  | [], _, h, _, _, _ => h
  | o :: os, s, h, hw, hre, hok => by
    unfold Lsm.run at hok
    simp only [Bool.and_eq_true] at hok
    unfold Lsm.run
    refine run_rows os _ ?_ (fun rows hr => hw rows (List.mem_cons_of_mem _ hr))
      (fun o ho => hre o (List.mem_cons_of_mem _ ho)) hok.2
    have h1 := hok.1
    by_cases hwr : ∃ op, o = .write op
    · obtain ⟨op, rfl⟩ := hwr
      refine Lemmas.Proj.calls_rows (P := P) (ext := ext) [op] s.runs (s.runs.call ext op).2 h.1 h.2 ?_ ?_
      · intro rows hr q hq
        rw [List.mem_singleton] at hr
        exact hw rows (by rw [hr]; exact List.mem_cons_self) q hq
      · simp only [Mem.Runs.calls]
        have : (s.runs.call ext op).1 = true := h1
        rw [this]
        rfl
    · have hwr' : ∀ op, o ≠ .write op := fun op ho => hwr ⟨op, ho⟩
      by_cases hk : Lemmas.Txn.keepsMem o = true
      · rw [Lemmas.Txn.step_runs ext x t s o hk hwr']
        exact h
      · cases o with
        | flushDrain =>
          change (∀ a ∈ (flushDrain s).runs.mem.batches, ∀ r ∈ a.rows, P r) ∧
            ∀ m ∈ (flushDrain s).runs.runs, ∀ r ∈ m.rows, P r
          unfold flushDrain
          split
          · refine ⟨h.1, fun m hm => ?_⟩
            simp only at hm
            split at hm
            · exact h.2 m (List.mem_of_mem_drop hm)
            · cases hm
          · exact h
        | reopen cap => exact absurd (hre _ List.mem_cons_self) (by simp [isReopen])
        | _ => exact absurd rfl hk

/-- A row of the log was handed to a call. -/
theorem put_of_log {ext : Row → Option K} {ops : List (Lsm.Op K Row)} {k : K} {u : Nat} {r : Row}
    (h : (⟨k, u, .put r⟩ : Ver K Row) ∈ logOf ext ops) : ∃ rows, Lsm.Op.write (.put rows) ∈ ops ∧ (r, u) ∈ rows := by
  unfold logOf at h
  obtain ⟨o, ho, hw⟩ := List.mem_flatMap.1 h
  cases o with
  | write op =>
    have hw := Lemmas.Mem.lastOnly_mem hw
    cases op with
    | put rows =>
      simp only [opWrites, putWrites, List.mem_filterMap, Option.map_eq_some_iff] at hw
      obtain ⟨q, hq, k', _, e⟩ := hw
      simp only [Ver.mk.injEq, Mut.put.injEq] at e
      obtain ⟨_, rfl, rfl⟩ := e
      exact ⟨rows, ho, hq⟩
    | del keys =>
      simp only [opWrites, delWrites, List.mem_map] at hw
      obtain ⟨q, _, e⟩ := hw
      cases e
    | freeze => cases hw
  | _ => cases hw

/-- At a timestamp not before the newest write, a deletion in a run does not outlast the rows beside it. -/
theorem deletesCovered_latest {ext : Row → Option K} {ms : List (Mem.Imm K Row)} {logs : List (List (Ver K Row))}
    (h : List.Forall₂ (Imm.Rep ext) ms logs) {rts : Nat} (hts : ∀ w ∈ logs.flatten, w.ts ≤ rts) :
    Props.C07.DeletesCovered rts ms := by
  intro m hm hne _
  obtain ⟨i, hi⟩ := List.mem_iff_getElem?.1 hm
  obtain ⟨l, hl, hrep⟩ := forall₂_getElem? h hi
  obtain ⟨U, X, ht⟩ := hrep.1.tidy
  cases hU : U with
  | nil => rw [ht.ts, hU] at hne; exact absurd rfl hne
  | cons q U' =>
    have hq : q ∈ U := by rw [hU]; exact List.mem_cons_self
    obtain ⟨j, hj1, hj2⟩ := (ht.up q.1 q.2).1 hq
    refine ⟨q.1.ts, by rw [ht.ts]; exact List.mem_map_of_mem (f := fun q => q.1.ts) hq, ?_⟩
    have hcont : Imm.Content m ⟨q.1.key, q.1.ts, .put q.2⟩ := ⟨some j, hj1, by simp [Lemmas.Mem.Imm.res, hj2]⟩
    exact hts _ (List.mem_flatten.2 ⟨l, List.mem_of_getElem? hl, lastWrite_mem ((hrep.2 _).1 hcont)⟩)

/-- The scan of columns by name, where the scan of rows succeeds. -/
theorem scan_of_scanStore {y : Plan.Ext K} {c : Codec K} {base keys : Schema} {st : Store K} {p : Expr} {rts : Nat}
    (ht : Props.C61.TableOk base keys p) (hf : Props.C61.FilesOk y base p rts st.levels)
    (hm : Props.C61.MemoryOk base st) {proj : Schema} (hproj : Props.C61.ProjOk base proj) {batchSize : Nat}
    {limit : Option Nat} {bs : List (List Row)}
    (h : scanStore y c base keys st p rts (columns base (proj.map (·.1))) batchSize limit = .ok (some (bs, none))) :
    Proj.scan y c base keys none st p rts (some proj) batchSize limit = .ok (some (bs, none)) := by
  rw [Lemmas.Proj.scan_eq c (Props.C61.shapes ht hf hm (by intro o h; cases h)) (some proj) hproj.2 hproj.1]
  unfold scanStore at h
  unfold Lemmas.Proj.wholeScan Lemmas.Proj.wholeStreams
  simp only [Option.isSome_none]
  cases hpl : Plan.plan y c base keys false st p rts with
  | error e => rw [hpl] at h; cases h
  | ok pl =>
    rw [hpl] at h
    simp only [Option.toList_none, List.map_nil, List.nil_append, Option.map_id']
    simp only [Except.ok.injEq] at h
    rw [← h]
    rfl

/-- What a query reads in a state whose memory and files hold only what was written. -/
structure ReadsLog (ext : Row → Option K) (y : Plan.Ext K) (c : Codec K) (base keys : Schema) (p : Expr) (rts : Nat)
    (log : List (Ver K Row)) (content : Ver K Row → Prop) (st : Store K) : Prop where
  basis : Lemmas.Plan.Basis y c base keys ext st p rts
  sub : ∀ w, Lemmas.Plan.AllVersions st w → w ∈ log
  holds : ∀ k u r, Lemmas.Plan.Holds st ⟨k, u⟩ r → (⟨k, u, .put r⟩ : Ver K Row) ∈ log
  data : ∀ q ∈ st.levels.flatten, ∀ k u r, (⟨k, u⟩, r) ∈ q.file.data → (⟨k, u, .put r⟩ : Ver K Row) ∈ log
  versions : ∀ w, Lemmas.Plan.Versions st w ↔ content w
  files : Props.C61.FilesOk y base p rts st.levels
  memory : Props.C61.MemoryOk base st

/-- Memory and files that hold only what was written. -/
theorem reads_parts {ext : Row → Option K} {mem : Mem.Inner K Row} {runs : List (Mem.Imm K Row)}
    {levels : List (List (Plan.Sst K))} {log : List (Ver K Row)} {logs : List (List (Ver K Row))} {cur : List (Ver K Row)}
    (hruns : List.Forall₂ (Imm.Rep ext) runs logs) (hmem : Rep ext mem cur)
    (hsub : ∀ w ∈ logs.flatten ++ cur, w ∈ log) (hf : Functional (· ∈ log))
    (y : Plan.Ext K) (c : Codec K) (base keys : Schema) (p : Expr) (rts : Nat)
    (hlv : ∀ q ∈ levels.flatten, FileSorted q.file ∧ StatsEnclose q ∧ q.schema = base ++ [Proj.commitField] ∧
      ∀ w, Spec.Holds q.file w → w ∈ log)
    (hts : ∀ w ∈ log, w.ts < 2 ^ 64)
    (hfits : ∀ k u r, (⟨k, u, .put r⟩ : Ver K Row) ∈ log → Props.C07.RowFits c base keys p k r)
    (hlen : ∀ k u r, (⟨k, u, .put r⟩ : Ver K Row) ∈ log → r.length = base.length)
    (hrows : (∀ a ∈ mem.batches, ∀ r ∈ a.rows, r.length = base.length) ∧ ∀ m ∈ runs, ∀ r ∈ m.rows, r.length = base.length)
    (hsel' : ∀ q ∈ levels.flatten, SelectsMatches base p rts q.file.data (y.select p rts q))
    (hcod : Lemmas.Plan.CodecOk c keys p) (hx : Props.C07.Foreign y base p) (hp : Props.C07.PredOk keys p)
    (hdel : Props.C07.DeletesCovered rts runs) :
    ReadsLog ext y c base keys p rts log
      (fun w => w ∈ logs.flatten ∨ w ∈ cur ∨ ∃ q ∈ levels.flatten, Spec.Holds q.file w) ⟨mem, runs, levels⟩ := by
  have hcurf : Functional (· ∈ cur) := fun a b ha hb =>
    hf a b (hsub a (List.mem_append_right _ ha)) (hsub b (List.mem_append_right _ hb))
  have hlogf : Functional (· ∈ logs.flatten) := fun a b ha hb =>
    hf a b (hsub a (List.mem_append_left _ ha)) (hsub b (List.mem_append_left _ hb))
  have hmemc : ∀ w, Lemmas.Mem.Content mem mem.index w ↔ w ∈ cur := fun w =>
    (hmem.2 w).trans ⟨lastWrite_mem, mem_lastWrite cur hcurf w⟩
  have himmc : ∀ w, (∃ m ∈ runs, Imm.Content m w) ↔ w ∈ logs.flatten := runs_content hruns hlogf
  have hfilec : ∀ q ∈ levels.flatten, ∀ w, Spec.Holds q.file w → w ∈ log := fun q hq => (hlv q hq).2.2.2
  have hdata : ∀ q ∈ levels.flatten, ∀ k u r, (⟨k, u⟩, r) ∈ q.file.data → (⟨k, u, .put r⟩ : Ver K Row) ∈ log :=
    fun q hq k u r hd => hfilec q hq ⟨k, u, .put r⟩ hd
  have hallv : ∀ w, Lemmas.Plan.AllVersions ⟨mem, runs, levels⟩ w → w ∈ log := by
    rintro ⟨k, u, op⟩ (hw | hw | ⟨q, hq, hw⟩)
    · exact hsub _ (List.mem_append_right _ ((hmemc _).1 hw))
    · exact hsub _ (List.mem_append_left _ ((himmc _).1 hw))
    · exact hfilec q hq ⟨k, u, op⟩ (by cases op <;> exact hw)
  have hholds : ∀ k u r, Lemmas.Plan.Holds ⟨mem, runs, levels⟩ ⟨k, u⟩ r → (⟨k, u, .put r⟩ : Ver K Row) ∈ log := by
    rintro k u r (hw | hw | ⟨q, hq, hw⟩)
    · exact hallv _ (.inl hw)
    · exact hallv _ (.inr (.inl hw))
    · exact hdata q hq k u r hw
  have hbasis : Lemmas.Plan.Basis y c base keys ext ⟨mem, runs, levels⟩ p rts := by
    refine Props.C07.basis_of_content (L := (· ∈ log)) hmem.1 ?_ ?_ hts ?_ (fun k u r hr => hfits k u r (hholds k u r hr))
      hcod hx hp hdel
    · intro m hm
      obtain ⟨i, hi⟩ := List.mem_iff_getElem?.1 hm
      obtain ⟨l, _, hrep⟩ := forall₂_getElem? hruns hi
      exact hrep.1
    · rintro w (hw | hw)
      · exact hallv w (.inl hw)
      · exact hallv w (.inr (.inl hw))
    · intro q hq
      exact ⟨(hlv q hq).1, (hlv q hq).2.1, hsel' q hq⟩
  have hver : ∀ w, Lemmas.Plan.Versions ⟨mem, runs, levels⟩ w ↔
      (w ∈ logs.flatten ∨ w ∈ cur ∨ ∃ q ∈ levels.flatten, Spec.Holds q.file w) := by
    intro w
    have hfv : ∀ q ∈ levels.flatten, ∀ w, FileVersions q.file w ↔ Spec.Holds q.file w := by
      intro q hq w
      refine Lemmas.Flush.fileVersions_iff (H := Spec.Holds q.file) ?_ (fun _ _ => Iff.rfl) (fun _ => Iff.rfl) w
      exact fun a b ha hb => hf a b (hfilec q hq a ha) (hfilec q hq b hb)
    constructor
    · rintro (hw | hw | ⟨q, hq, hw⟩)
      · exact .inr (.inl ((hmemc w).1 hw))
      · exact .inl ((himmc w).1 hw)
      · exact .inr (.inr ⟨q, hq, (hfv q hq w).1 hw⟩)
    · rintro (hw | hw | ⟨q, hq, hw⟩)
      · exact .inr (.inl ((himmc w).2 hw))
      · exact .inl ((hmemc w).2 hw)
      · exact .inr (.inr ⟨q, hq, (hfv q hq w).2 hw⟩)
  refine ⟨hbasis, hallv, hholds, hdata, hver, ?_, hrows⟩
  intro q hq
  refine ⟨(hlv q hq).2.2.1, fun e he => ?_, fun e he => (hsel' q hq).1.subset he⟩
  obtain ⟨⟨k, u⟩, r⟩ := e
  exact hlen k u r (hdata q hq k u r he)

theorem reads_log {ext : Row → Option K} {x : Exec K Row} {t n : Nat} {s : Db K Row} {log : List (Ver K Row)}
    {exact : Prop} {logs : List (List (Ver K Row))} {cur : List (Ver K Row)} (h : Inv ext x t n s)
    (hc : Cont ext t n s log exact logs cur) (hf : Functional (· ∈ log))
    (y : Plan.Ext K) (c : Codec K) (base keys : Schema) (p : Expr) (rts : Nat)
    (hts : ∀ w ∈ log, w.ts < 2 ^ 64)
    (hfits : ∀ k u r, (⟨k, u, .put r⟩ : Ver K Row) ∈ log → Props.C07.RowFits c base keys p k r)
    (hlen : ∀ k u r, (⟨k, u, .put r⟩ : Ver K Row) ∈ log → r.length = base.length)
    (hrows : (∀ a ∈ s.runs.mem.batches, ∀ r ∈ a.rows, r.length = base.length) ∧
      ∀ m ∈ s.runs.runs, ∀ r ∈ m.rows, r.length = base.length)
    (hsel : ∀ st, storeOf base t s = some st → ∀ q ∈ st.levels.flatten,
      SelectsMatches base p rts q.file.data (y.select p rts q))
    (hcod : Lemmas.Plan.CodecOk c keys p) (hx : Props.C07.Foreign y base p) (hp : Props.C07.PredOk keys p)
    (hdel : Props.C07.DeletesCovered rts s.runs.runs) :
    ∃ st, storeOf base t s = some st ∧
      ReadsLog ext y c base keys p rts log (fun w => w ∈ logs.flatten ∨ w ∈ cur ∨ OnDisk t n s w) st := by
  obtain ⟨levels, hst, hlv, hall⟩ := storeOf_ok base h
  have hfilec : ∀ q ∈ levels.flatten, ∀ w, Spec.Holds q.file w → w ∈ log ∧ OnDisk t n s w := by
    intro q hq w hw
    obtain ⟨_, _, _, v, l, e, a1, a2, a3⟩ := hlv q hq
    exact ⟨hc.listed l e ⟨n, v, a1, a2⟩ _ a3 w hw, v, l, e, _, a1, a2, a3, hw⟩
  have hl := reads_parts hc.runs hc.mem hc.sub hf y c base keys p rts
    (fun q hq => ⟨(hlv q hq).1, (hlv q hq).2.1, (hlv q hq).2.2.1, fun w hw => (hfilec q hq w hw).1⟩)
    hts hfits hlen hrows (hsel _ hst) hcod hx hp hdel
  refine ⟨_, hst, { hl with versions := fun w => (hl.versions w).trans (or_congr_right (or_congr_right ?_)) }⟩
  constructor
  · rintro ⟨q, hq, hw⟩
    exact (hfilec q hq w hw).2
  · rintro ⟨v, l, e, f, a1, a2, a3, hw⟩
    obtain ⟨q, hq, rfl⟩ := hall v l e f a1 a2 a3
    exact ⟨q, hq, hw⟩

/-- A query of a state whose memory and files hold only what was written. -/
theorem query_of_state {ext : Row → Option K} {x : Exec K Row} {t n : Nat} {s : Db K Row} {log : List (Ver K Row)}
    {exact : Prop} {logs : List (List (Ver K Row))} {cur : List (Ver K Row)} (h : Inv ext x t n s)
    (hc : Cont ext t n s log exact logs cur) (hf : Functional (· ∈ log))
    (y : Plan.Ext K) (c : Codec K) (base keys : Schema) (p : Expr) (rts : Nat)
    (hts : ∀ w ∈ log, w.ts < 2 ^ 64)
    (hfits : ∀ k u r, (⟨k, u, .put r⟩ : Ver K Row) ∈ log → Props.C07.RowFits c base keys p k r)
    (hlen : ∀ k u r, (⟨k, u, .put r⟩ : Ver K Row) ∈ log → r.length = base.length)
    (hrows : (∀ a ∈ s.runs.mem.batches, ∀ r ∈ a.rows, r.length = base.length) ∧
      ∀ m ∈ s.runs.runs, ∀ r ∈ m.rows, r.length = base.length)
    (hsel : ∀ st, storeOf base t s = some st → ∀ q ∈ st.levels.flatten,
      SelectsMatches base p rts q.file.data (y.select p rts q))
    (hcod : Lemmas.Plan.CodecOk c keys p) (hx : Props.C07.Foreign y base p) (hp : Props.C07.PredOk keys p)
    (hdel : Props.C07.DeletesCovered rts s.runs.runs)
    (hlast : ∀ k u r, (⟨k, u, .put r⟩ : Ver K Row) ∈ log → u ≤ rts → meaning (envOf base r) p = .t →
      ∀ u' r', (⟨k, u', .put r'⟩ : Ver K Row) ∈ log → u ≤ u' → u' ≤ rts → meaning (envOf base r') p = .t)
    (ht : Props.C61.TableOk base keys p) (proj : Schema) (hproj : Props.C61.ProjOk base proj)
    (batchSize : Nat) (hb : 0 < batchSize) (limit : Option Nat) :
    ∃ (bs : List (List Row)) (rows : List (K × Row)),
      query y c base keys t s p rts (some proj) batchSize limit = some (.ok (some (bs, none))) ∧
      IsFilteredScan (fun w => w ∈ logs.flatten ∨ w ∈ cur ∨ OnDisk t n s w) base p rts rows ∧
      (∀ b ∈ bs, b ≠ [] ∧ b.length ≤ batchSize) ∧
      bs.flatten = upTo limit (rows.map (fun q => columns base (proj.map (·.1)) q.2)) := by
  obtain ⟨st, hst, hl⟩ := reads_log h hc hf y c base keys p rts hts hfits hlen hrows hsel hcod hx hp hdel
  obtain ⟨bs, rows, g1, g2, g3, g4, g5⟩ := Lemmas.Plan.scanStore_lasting hl.basis
    (fun a b ha hb => hf a b (hl.sub a ha) (hl.sub b hb))
    (fun k u r hu hr hm u' r' h1 h2 ⟨q, hq, hd⟩ => hlast k u r (hl.holds k u r hr) hu hm u' r' (hl.data q hq k u' r' hd) h1 h2)
    (columns base (proj.map (·.1))) hb limit
  refine ⟨bs, rows, ?_, ⟨g2, fun k r => ?_⟩, g4, ?_⟩
  · unfold query
    rw [hst, Option.map_some]
    exact congrArg some (scan_of_scanStore ht hl.files hl.memory hproj g1)
  · rw [g3 k r]
    exact and_congr_left fun _ => Lemmas.Plan.visible_congr fun w _ _ => hl.versions w
  · rw [g5]; cases limit <;> rfl

end Tonbo.Lemmas.Lsm
