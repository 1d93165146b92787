import Verif.Lemmas.OverlayScan
import Verif.Lemmas.LsmQuery
import Verif.Spec.TxnQueryView
import Verif.Props.C19_C23_Snapshot

/-! # A query inside a transaction -/

set_option linter.unusedSectionVars false

namespace Tonbo.Lemmas.Lsm
open Tonbo.Model Tonbo.Model.Manifest Tonbo.Model.Lsm Tonbo.Model.Pred Tonbo.Model.Plan Tonbo.Model.Keys
open Tonbo.Spec Tonbo.Lemmas.Manifest
open Tonbo.Model.Txn (Stage)

variable {K : Type} [LinearOrder K]

theorem stage_sorted {R : Type} (muts : List (K × Stage R)) : SMap.Sorted (stage muts) :=
  (Props.C19.stagedBy_spec muts [] (by simp [SMap.Sorted])).1

theorem mem_stage {R : Type} (muts : List (K × Stage R)) (k : K) (s : Stage R) :
    (k, s) ∈ stage muts ↔ lastFor muts k = some s := by
  obtain ⟨h1, h2⟩ := Props.C19.stagedBy_spec muts [] (by simp [SMap.Sorted])
  have h3 := h2 k
  simp only [SMap.get?, Option.or_none] at h3
  rw [← h3]
  exact (SMap.get?_eq_some h1).symm

theorem lastFor_mem {R : Type} {muts : List (K × Stage R)} {k : K} {s : Stage R} (h : lastFor muts k = some s) :
    (k, s) ∈ muts := by
  unfold lastFor at h
  obtain ⟨⟨k', s'⟩, hq, rfl⟩ := Option.map_eq_some_iff.1 h
  have h1 := List.find?_some hq
  simp only [decide_eq_true_eq] at h1
  subst h1
  exact List.mem_reverse.1 (List.mem_of_find?_eq_some hq)

theorem unstaged_iff {R : Type} (muts : List (K × Stage R)) (k : K) :
    (∀ s, (k, s) ∉ stage muts) ↔ lastFor muts k = none := by
  simp only [mem_stage]
  cases lastFor muts k <;> simp

theorem seenIn_iff {R : Type} (H : Ver K R → Prop) (muts : List (K × Stage R)) (rts : Nat) (k : K) (r : R) :
    SeenIn H muts rts k r ↔
      ((k, Stage.up r) ∈ stage muts ∨ ((∀ s, (k, s) ∉ stage muts) ∧ Visible H rts k r)) := by
  unfold SeenIn
  rw [unstaged_iff, mem_stage]
  cases lastFor muts k with
  | none => simp
  | some s => cases s <;> simp [eq_comm]

/-- The entries a scan is given for what is staged. -/
def overlayOf (rts : Nat) (staged : List (K × Stage Row)) : Option (List (Mem.Entry K Row)) :=
  if staged.isEmpty then none else some (staged.map (stagedEntry rts))

/-- A scan of memory and files that hold only what was written, with staged mutations. -/
theorem scan_of_reads {ext : Row → Option K} {log : List (Ver K Row)} (hf : Functional (· ∈ log))
    {y : Plan.Ext K} {c : Codec K} {base keys : Schema} {p : Expr} {rts : Nat} {content : Ver K Row → Prop} {st : Store K}
    (hl : ReadsLog ext y c base keys p rts log content st) (muts : List (K × Stage Row))
    (hstf : ∀ k r, (k, Stage.up r) ∈ muts → Props.C07.RowFits c base keys p k r)
    (hstl : ∀ k r, (k, Stage.up r) ∈ muts → r.length = base.length)
    (hlast : ∀ k, lastFor muts k = none → ∀ u r, (⟨k, u, .put r⟩ : Ver K Row) ∈ log → u ≤ rts →
      meaning (envOf base r) p = .t →
      ∀ u' r', (⟨k, u', .put r'⟩ : Ver K Row) ∈ log → u ≤ u' → u' ≤ rts → meaning (envOf base r') p = .t)
    (ht : Props.C61.TableOk base keys p) (proj : Schema) (hproj : Props.C61.ProjOk base proj)
    (batchSize : Nat) (hb : 0 < batchSize) (limit : Option Nat) :
    ∃ (bs : List (List Row)) (rows : List (K × Row)),
      Proj.scan y c base keys (overlayOf rts (stage muts)) st p rts (some proj) batchSize limit = .ok (some (bs, none)) ∧
      IsTxnScan content muts base p rts rows ∧
      (∀ b ∈ bs, b ≠ [] ∧ b.length ≤ batchSize) ∧
      bs.flatten = upTo limit (rows.map (fun q => columns base (proj.map (·.1)) q.2)) := by
  unfold overlayOf
  cases he : (stage muts).isEmpty with
  | true =>
    have hnil : stage muts = [] := by simpa using he
    have hno : ∀ k, lastFor muts k = none := fun k => (unstaged_iff muts k).1 (by rw [hnil]; simp)
    obtain ⟨bs, rows, g1, g2, g3, g4, g5⟩ := Lemmas.Plan.scanStore_lasting hl.basis
      (fun a b ha hb => hf a b (hl.sub a ha) (hl.sub b hb))
      (fun k u r hu hr hm u' r' h1 h2 ⟨q, hq, hd⟩ =>
        hlast k (hno k) u r (hl.holds k u r hr) hu hm u' r' (hl.data q hq k u' r' hd) h1 h2)
      (columns base (proj.map (·.1))) hb limit
    refine ⟨bs, rows, scan_of_scanStore ht hl.files hl.memory hproj g1, ⟨g2, fun k r => ?_⟩, g4, ?_⟩
    · rw [g3 k r]
      unfold SeenIn
      rw [hno k]
      exact and_congr_left fun _ => Lemmas.Plan.visible_congr fun w _ _ => hl.versions w
    · rw [g5]; cases limit <;> rfl
  | false =>
    have hfa := Lemmas.Plan.filesAs_lasting hl.basis (fun a b ha hb => hf a b (hl.sub a ha) (hl.sub b hb))
      (D := fun k => ∀ s, (k, s) ∉ stage muts)
      (fun k hk u r hu hr hm u' r' h1 h2 ⟨q, hq, hd⟩ =>
        hlast k ((unstaged_iff muts k).1 hk) u r (hl.holds k u r hr) hu hm u' r' (hl.data q hq k u' r' hd) h1 h2)
    obtain ⟨bs, rows, g1, g2, g3, g4, g5⟩ := Lemmas.Overlay.wholeScan_overlay hl.basis hfa (stage_sorted muts)
      (fun k r hm => (hstf k r (lastFor_mem ((mem_stage muts k _).1 hm))).leaf)
      (columns base (proj.map (·.1))) hb limit
    refine ⟨bs, rows, ?_, ⟨g2, fun k r => ?_⟩, g4, ?_⟩
    · simp only [Bool.false_eq_true, if_false]
      rw [Lemmas.Proj.scan_eq c (Props.C61.shapes ht hl.files hl.memory ?_) (some proj) hproj.2 hproj.1]
      · exact g1
      · intro o ho kt r hr
        obtain rfl := Option.some.inj ho
        obtain ⟨⟨k, s'⟩, hq, hqe⟩ := List.mem_map.1 hr
        cases s' with
        | del => cases hqe
        | up r' => cases hqe; exact hstl k r (lastFor_mem ((mem_stage muts k _).1 hq))
    · rw [g3 k r, seenIn_iff]
      refine and_congr_left fun _ => or_congr_right (and_congr_right fun _ => ?_)
      exact Lemmas.Plan.visible_congr fun w _ _ => hl.versions w
    · rw [g5]

/-- A query of a state whose memory and files hold only what was written, with staged mutations. -/
theorem queryTxn_of_state {ext : Row → Option K} {x : Exec K Row} {t n : Nat} {s : Db K Row} {log : List (Ver K Row)}
    {exact : Prop} {logs : List (List (Ver K Row))} {cur : List (Ver K Row)} (h : Inv ext x t n s)
    (hc : Cont ext t n s log exact logs cur) (hf : Functional (· ∈ log))
    (y : Plan.Ext K) (c : Codec K) (base keys : Schema) (p : Expr) (rts : Nat)
    (hts : ∀ w ∈ log, w.ts < 2 ^ 64)
    (hfits : ∀ k u r, (⟨k, u, .put r⟩ : Ver K Row) ∈ log → Props.C07.RowFits c base keys p k r)
    (hlen : ∀ k u r, (⟨k, u, .put r⟩ : Ver K Row) ∈ log → r.length = base.length)
    (hrows : (∀ a ∈ s.runs.mem.batches, ∀ r ∈ a.rows, r.length = base.length) ∧
      ∀ m ∈ s.runs.runs, ∀ r ∈ m.rows, r.length = base.length)
    (hsel : ∀ st, storeOf base t s = some st → ∀ q ∈ st.levels.flatten,
      SelectsMatches base p rts q.file.data (y.select p rts q))
    (hcod : Lemmas.Plan.CodecOk c keys p) (hx : Props.C07.Foreign y base p) (hp : Props.C07.PredOk keys p)
    (hdel : Props.C07.DeletesCovered rts s.runs.runs)
    (muts : List (K × Stage Row))
    (hstf : ∀ k r, (k, Stage.up r) ∈ muts → Props.C07.RowFits c base keys p k r)
    (hstl : ∀ k r, (k, Stage.up r) ∈ muts → r.length = base.length)
    (hlast : ∀ k, lastFor muts k = none → ∀ u r, (⟨k, u, .put r⟩ : Ver K Row) ∈ log → u ≤ rts →
      meaning (envOf base r) p = .t →
      ∀ u' r', (⟨k, u', .put r'⟩ : Ver K Row) ∈ log → u ≤ u' → u' ≤ rts → meaning (envOf base r') p = .t)
    (ht : Props.C61.TableOk base keys p) (proj : Schema) (hproj : Props.C61.ProjOk base proj)
    (batchSize : Nat) (hb : 0 < batchSize) (limit : Option Nat) :
    ∃ (bs : List (List Row)) (rows : List (K × Row)),
      queryTxn y c base keys t s (stage muts) p rts (some proj) batchSize limit = some (.ok (some (bs, none))) ∧
      IsTxnScan (fun w => w ∈ logs.flatten ∨ w ∈ cur ∨ OnDisk t n s w) muts base p rts rows ∧
      (∀ b ∈ bs, b ≠ [] ∧ b.length ≤ batchSize) ∧
      bs.flatten = upTo limit (rows.map (fun q => columns base (proj.map (·.1)) q.2)) := by
  obtain ⟨st, hst, hl⟩ := reads_log h hc hf y c base keys p rts hts hfits hlen hrows hsel hcod hx hp hdel
  obtain ⟨bs, rows, g1, g2⟩ := scan_of_reads hf hl muts hstf hstl hlast ht proj hproj batchSize hb limit
  refine ⟨bs, rows, ?_, g2⟩
  unfold queryTxn
  rw [hst, Option.map_some]
  exact congrArg some g1

end Tonbo.Lemmas.Lsm
