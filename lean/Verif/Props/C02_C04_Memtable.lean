import Verif.Lemmas.Runs
import Mathlib.Data.Nat.Basic
import Mathlib.Data.List.Basic
import Mathlib.Data.List.Forall2

/-!
# C02, C03, C04: the in-memory table

`ext` is the key extractor, `ops` any sequence of upsert batches, delete batches and freezes with
arbitrary commit timestamps. `ops.flatMap (opWrites ext)` is the log of writes they stand for.
-/

set_option linter.unusedSectionVars false

namespace Tonbo.Props.C02
open Tonbo.Model Tonbo.Model.Mem Tonbo.Spec Tonbo.Lemmas.Mem Tonbo.Lemmas.Scan

variable {K R : Type} [LinearOrder K]

/-- Splitting a reachable state into the part of the log held by the frozen runs and the rest. -/
private theorem reach {ext : R → Option K} {cap : Nat} {ops : List (Op K R)} {t : Runs K R}
    (h : (Runs.new cap).calls ext ops = (true, t)) :
    ∃ logs cur, List.Forall₂ (Imm.Rep ext) t.runs logs ∧ Rep ext t.mem cur ∧
      logs.flatten ++ cur = ops.flatMap (opWrites ext) := by
  obtain ⟨logs, cur, h1, h2, h3⟩ := calls_ok ops (Runs.new cap) t [] [] .nil (rep_new ext cap) h
  exact ⟨logs, cur, h1, h2, by simpa using h3⟩

private theorem forall₂_nil {α β : Type} {r : α → β → Prop} {l : List β}
    (h : List.Forall₂ r [] l) : l = [] := by
  cases h; rfl

/-- **C02.** Scanning the mutable table reports, per key, exactly its newest version not newer than
the read timestamp, as a row or as a tombstone, in ascending key order. -/
theorem mutable_scan (ext : R → Option K) (cap : Nat) (ops : List (Op K R)) (t : Runs K R)
    (h : (Runs.new cap).calls ext ops = (true, t)) (hr : t.runs = []) (rts : Nat) :
    ∃ out, scan t.mem none rts = some out ∧
      IsVersionScan (LastWrite (ops.flatMap (opWrites ext))) rts (fun _ => True)
        (out.map toVer) := by
  obtain ⟨logs, cur, h1, h2, h3⟩ := reach h
  rw [hr] at h1
  have := forall₂_nil h1
  subst this
  simp only [List.flatten_nil, List.nil_append] at h3
  rw [← h3]
  exact rep_scan_all h2 rts

/-- **C02**, restricted to any key range. Timestamps are 64-bit. -/
theorem mutable_scan_in_range (ext : R → Option K) (cap : Nat) (ops : List (Op K R)) (t : Runs K R)
    (h : (Runs.new cap).calls ext ops = (true, t)) (hr : t.runs = [])
    (hts : ∀ w ∈ ops.flatMap (opWrites ext), w.ts < 2 ^ 64) (lo hi : Bnd K) (rts : Nat) :
    ∃ out, scan t.mem (some (lo, hi)) rts = some out ∧
      IsVersionScan (LastWrite (ops.flatMap (opWrites ext))) rts
        (fun k => inBounds lo hi k = true) (out.map toVer) := by
  obtain ⟨logs, cur, h1, h2, h3⟩ := reach h
  rw [hr] at h1
  have := forall₂_nil h1
  subst this
  simp only [List.flatten_nil, List.nil_append] at h3
  rw [← h3] at hts ⊢
  exact rep_scan_range h2 (fun w hw => by have := hts w hw; simp only [tsMax]; omega) lo hi rts

private theorem pairwise_rows : ∀ (out : List (Entry K R)),
    (out.map toVer).Pairwise (fun a b => a.key < b.key) →
      (rowsOf out).Pairwise (fun a b => a.1 < b.1) ∧
      ∀ k r, (k, r) ∈ rowsOf out ↔ ∃ t, (⟨k, t, .put r⟩ : Ver K R) ∈ out.map toVer
  | [], _ => by simp [rowsOf]
  | e :: out, h => by
    rw [List.map_cons, List.pairwise_cons] at h
    have ih := pairwise_rows out h.2
    cases e with
    | tomb kt =>
      refine ⟨by simpa [rowsOf] using ih.1, ?_⟩
      intro k r
      have := ih.2 k r
      simp only [rowsOf, List.filterMap_cons, List.map_cons, List.mem_cons, toVer] at this ⊢
      rw [this]
      constructor
      · rintro ⟨t, ht⟩; exact ⟨t, .inr ht⟩
      · rintro ⟨t, ht | ht⟩
        · simp at ht
        · exact ⟨t, ht⟩
    | row kt r0 =>
      constructor
      · simp only [rowsOf, List.filterMap_cons, List.pairwise_cons]
        refine ⟨?_, ih.1⟩
        rintro ⟨k, r⟩ hm
        obtain ⟨t, ht⟩ := (ih.2 k r).1 hm
        exact h.1 _ ht
      · intro k r
        have := ih.2 k r
        simp only [rowsOf, List.filterMap_cons, List.map_cons, List.mem_cons, toVer] at this ⊢
        rw [this]
        constructor
        · rintro (e | ⟨t, ht⟩)
          · simp at e; exact ⟨kt.ts, .inl (by simp [e])⟩
          · exact ⟨t, .inr ht⟩
        · rintro ⟨t, ht | ht⟩
          · simp at ht; exact .inl (by simp [ht])
          · exact .inr ⟨t, ht⟩

/-- From a version scan to a row scan: tombstones hide, everything else shows. -/
theorem rows_of_version_scan {H : Ver K R → Prop} {rts : Nat} {p : K → Prop}
    {out : List (Entry K R)} (h : IsVersionScan H rts p (out.map toVer)) :
    IsRangeScan H rts p (rowsOf out) := by
  have := pairwise_rows out h.1
  refine ⟨this.1, ?_⟩
  intro k r
  rw [this.2 k r]
  constructor
  · rintro ⟨t, ht⟩
    have := (h.2 _).1 ht
    exact ⟨this.1, t, this.2⟩
  · rintro ⟨hp, t, ht⟩
    exact ⟨t, (h.2 _).2 ⟨hp, ht⟩⟩

/-- **C02**, as rows: the rows seen at `rts` in a key range are exactly the visible ones. -/
theorem mutable_rows_in_range (ext : R → Option K) (cap : Nat) (ops : List (Op K R)) (t : Runs K R)
    (h : (Runs.new cap).calls ext ops = (true, t)) (hr : t.runs = [])
    (hts : ∀ w ∈ ops.flatMap (opWrites ext), w.ts < 2 ^ 64) (lo hi : Bnd K) (rts : Nat) :
    ∃ out, scan t.mem (some (lo, hi)) rts = some out ∧
      IsRangeScan (LastWrite (ops.flatMap (opWrites ext))) rts
        (fun k => inBounds lo hi k = true) (rowsOf out) := by
  obtain ⟨out, h1, h2⟩ := mutable_scan_in_range ext cap ops t h hr hts lo hi rts
  exact ⟨out, h1, rows_of_version_scan h2⟩

/-! A concrete history: key 1 set at 5 and 9, key 2 set at 6 and deleted at 8. -/
section Example

/-- rows are (key, value) -/
def exExt (r : Nat × Nat) : Option Nat := some r.1

def exOps : List (Op Nat (Nat × Nat)) :=
  [.put [((1, 10), 5), ((2, 20), 6)], .del [(2, 8)], .put [((1, 11), 9)]]

example : ((Runs.new 4).calls exExt exOps).1 = true ∧ ((Runs.new 4).calls exExt exOps).2.runs = []
    ∧ scan ((Runs.new 4).calls exExt exOps).2.mem none 7 =
      some [.row ⟨1, 5⟩ (1, 10), .row ⟨2, 6⟩ (2, 20)]
    ∧ scan ((Runs.new 4).calls exExt exOps).2.mem none 9 =
      some [.row ⟨1, 9⟩ (1, 11), .tomb ⟨2, 8⟩]
    ∧ scan ((Runs.new 4).calls exExt exOps).2.mem (some (.excl 1, .unb)) 7 =
      some [.row ⟨2, 6⟩ (2, 20)] := by decide

end Example

end Tonbo.Props.C02

namespace Tonbo.Props.C03
open Tonbo.Model Tonbo.Model.Mem Tonbo.Spec Tonbo.Lemmas.Mem Tonbo.Lemmas.Scan

variable {K R : Type} [LinearOrder K]

/-- **C03.** Freezing the mutable table after any successful calls: an empty table yields no run;
otherwise the run answers every scan, over everything and over every key range that is not
inverted, exactly like the mutable table did, and the mutable table is empty afterwards. -/
theorem seal_preserves_reads (ext : R → Option K) (cap : Nat) (ops : List (Op K R)) (t : Runs K R)
    (h : (Runs.new cap).calls ext ops = (true, t))
    (hts : ∀ w ∈ ops.flatMap (opWrites ext), w.ts < 2 ^ 64) :
    (sealInner ext t.mem = (.ok none, t.mem) ∧ ∀ rts, scan t.mem none rts = some []) ∨
    (∃ m, sealInner ext t.mem = (.ok (some m), Inner.new t.mem.cap) ∧
      (∀ rts, m.scan none rts = scan t.mem none rts) ∧
      (∀ rts lo hi, rangePanics lo hi = false →
        m.scan (some (lo, hi)) rts = scan t.mem (some (lo, hi)) rts) ∧
      (∀ b rts, scan (Inner.new t.mem.cap : Inner K R) b rts = some [])) := by
  obtain ⟨logs, cur, _, h2, h3⟩ := calls_ok ops (Runs.new cap) t [] [] .nil (rep_new ext cap) h
  have hts' : ∀ w ∈ cur, w.ts ≤ tsMax := by
    intro w hw
    have := hts w (by
      have : w ∈ logs.flatten ++ cur := List.mem_append_right _ hw
      rw [h3] at this; simpa using this)
    simp only [tsMax]; omega
  rcases seal_rep h2 with ⟨e1, _, e3⟩ | ⟨m, e1, e2, _⟩
  · left
    refine ⟨e1, ?_⟩
    intro rts
    simp [scan, e3, scanLoop]
  · right
    refine ⟨m, e1, ?_, ?_, ?_⟩
    · intro rts
      obtain ⟨o1, a1, b1⟩ := rep_scan_all h2 rts
      obtain ⟨o2, a2, b2⟩ := imm_rep_scan_all e2 rts
      rw [a1, a2]
      exact congrArg some (List.map_injective_iff.2 toVer_injective (versionScan_unique b2 b1))
    · intro rts lo hi hr
      obtain ⟨o1, a1, b1⟩ := rep_scan_range h2 hts' lo hi rts
      obtain ⟨o2, a2, b2⟩ := imm_rep_scan_range e2 hts' lo hi hr rts
      rw [a1, a2]
      exact congrArg some (List.map_injective_iff.2 toVer_injective (versionScan_unique b2 b1))
    · intro b rts
      cases b with
      | none => simp [scan, Inner.new, scanLoop]
      | some b => simp [scan, Inner.new, scanLoop]

/-- The range restriction is needed: on an inverted range the frozen run panics while the mutable
table returns nothing (the planner never passes such a range, see `C09.range_never_inverted`). -/
theorem frozen_run_panics_on_inverted_range :
    ∃ (m : Imm Nat (Nat × Nat)) (t : Inner Nat (Nat × Nat)),
      insertBatch (fun r => some r.1) (Inner.new 4) [(1, 10)] 5 = (.ok none, t) ∧
      sealInner (fun r => some r.1) t = (.ok (some m), Inner.new 4) ∧
      m.scan (some (.incl 3, .incl 2)) 9 = none ∧ scan t (some (.incl 3, .incl 2)) 9 = some [] :=
  ⟨_, _, rfl, rfl, by decide, by decide⟩

example : ∃ m, sealInner C02.exExt ((Runs.new 4).calls C02.exExt C02.exOps).2.mem =
      (.ok (some m), Inner.new 4) ∧
    m.scan none 9 = some [.row ⟨1, 9⟩ (1, 11), .tomb ⟨2, 8⟩] :=
  ⟨_, rfl, by decide⟩

end Tonbo.Props.C03

namespace Tonbo.Props.C04
open Tonbo.Model Tonbo.Model.Mem Tonbo.Spec Tonbo.Lemmas.Mem Tonbo.Lemmas.Scan

variable {K R : Type} [LinearOrder K]

/-- `scanAt` answers every full scan as the log `log` demands. -/
def Answers (scanAt : Nat → Option (List (Entry K R))) (log : List (Ver K R)) : Prop :=
  ∀ rts, ∃ out, scanAt rts = some out ∧
    IsVersionScan (LastWrite log) rts (fun _ => True) (out.map toVer)

/-- **C04 (partial).** After any sequence of calls that all returned `Ok`, with automatic freezes
at capacity, the log of everything inserted is cut into consecutive pieces, each frozen run holds
exactly one piece, in order, and the mutable table holds exactly the rest.
Missing from the full property: calls that fail (see `failed_insert_drops_frozen_run`). -/
theorem runs_cover_partial (ext : R → Option K) (cap : Nat) (ops : List (Op K R)) (t : Runs K R)
    (h : (Runs.new cap).calls ext ops = (true, t)) :
    ∃ logs cur, logs.flatten ++ cur = ops.flatMap (opWrites ext) ∧
      List.Forall₂ (fun (m : Imm K R) log => Answers (fun rts => m.scan none rts) log)
        t.runs logs ∧
      Answers (fun rts => scan t.mem none rts) cur := by
  obtain ⟨logs, cur, h1, h2, h3⟩ := calls_ok ops (Runs.new cap) t [] [] .nil (rep_new ext cap) h
  refine ⟨logs, cur, by simpa using h3, ?_, fun rts => rep_scan_all h2 rts⟩
  exact h1.imp (fun m l hml rts => imm_rep_scan_all hml rts)

/-- Slots are only used together with index entries. -/
private def Fresh (s : Inner K R) : Prop := s.index = [] → s.batches = [] ∧ s.dels = []

private theorem insert_ne_nil {α β : Type} [LinearOrder α] {k : α} {v : β} {l : List (α × β)} :
    SMap.insert k v l ≠ [] := by
  cases l with
  | nil => simp [SMap.insert]
  | cons a l => simp only [SMap.insert]; split <;> [simp; (split <;> simp)]

private theorem indexRows_ne_nil {mk : Nat → Loc} : ∀ (rest : List (K × Nat)) (i : Nat)
    (ix : List (KT K × Loc)), (rest ≠ [] ∨ ix ≠ []) → indexRows mk i rest ix ≠ []
  | [], i, ix, h => by simpa [indexRows] using h
  | (k, t) :: rest, i, ix, _ => by
    simp only [indexRows]
    exact indexRows_ne_nil rest _ _ (.inr insert_ne_nil)

/-- An operation a caller may issue: batches are not empty and have no null keys. -/
def Valid (ext : R → Option K) : Op K R → Prop
  | .put rows => rows ≠ [] ∧ ∀ p ∈ rows, ext p.1 ≠ none
  | .del keys => keys ≠ []
  | .freeze => True

private theorem mapM_isSome {α β : Type} {f : α → Option β} {l : List α}
    (h : ∀ a ∈ l, f a ≠ none) : ∃ l', l.mapM f = some l' := by
  induction l with
  | nil => exact ⟨[], rfl⟩
  | cons a l ih =>
    obtain ⟨l', hl⟩ := ih (fun b hb => h b (List.mem_cons_of_mem _ hb))
    obtain ⟨b, hb⟩ := Option.ne_none_iff_exists'.1 (h a List.mem_cons_self)
    exact ⟨b :: l', by simp [List.mapM_cons, hl, hb]⟩

private theorem tryPut_fits {ext : R → Option K} {s : Inner K R} {rows : List (R × Nat)}
    (hc : s.batches.length < s.cap) (hne : rows ≠ []) (hk : ∀ p ∈ rows, ext p.1 ≠ none) :
    ∃ s', tryInsertBatch ext s (rows.map (·.1)) (rows.map (·.2)) = .ok s' ∧ s'.index ≠ [] := by
  obtain ⟨ks, hks⟩ := mapM_isSome (f := ext) (l := rows.map (·.1)) (by
    intro a ha
    obtain ⟨p, hp, rfl⟩ := List.mem_map.1 ha
    exact hk p hp)
  simp only [tryInsertBatch, if_neg (Nat.not_le.2 hc), hks, TryRes.ok.injEq, exists_eq_left']
  apply indexRows_ne_nil
  left
  have hl := (mapM_some_length hks).1
  cases rows with
  | nil => exact absurd rfl hne
  | cons p rows =>
    cases ks with
    | nil => simp at hl
    | cons k ks => simp

private theorem tryDel_fits {s : Inner K R} {keys : List (K × Nat)}
    (hc : s.dels.length < s.cap) (hne : keys ≠ []) :
    ∃ s', tryInsertDelete s (keys.map (fun p => (some p.1, some p.2))) = .ok s' ∧
      s'.index ≠ [] := by
  obtain ⟨ts, hts⟩ := mapM_isSome (f := fun p : Option K × Option Nat => p.2)
    (l := keys.map (fun p => (some p.1, some p.2))) (by
      intro a ha; obtain ⟨p, _, rfl⟩ := List.mem_map.1 ha; simp)
  obtain ⟨ks, hks⟩ := mapM_isSome (f := fun p : Option K × Option Nat => p.1)
    (l := keys.map (fun p => (some p.1, some p.2))) (by
      intro a ha; obtain ⟨p, _, rfl⟩ := List.mem_map.1 ha; simp)
  have hne' : keys.map (fun p => (some p.1, some p.2)) ≠ [] := by simpa using hne
  simp only [tryInsertDelete, if_neg hne', hts, hks, if_neg (Nat.not_le.2 hc), TryRes.ok.injEq,
    exists_eq_left']
  apply indexRows_ne_nil
  left
  have hl := (mapM_some_length hks).1
  have hl' := (mapM_some_length hts).1
  cases keys with
  | nil => exact absurd rfl hne
  | cons p keys =>
    cases ks with
    | nil => simp at hl
    | cons k ks =>
      cases ts with
      | nil => simp at hl'
      | cons t ts => simp

private theorem call_succeeds {ext : R → Option K} {t : Runs K R} {log : List (Ver K R)}
    (hr : Rep ext t.mem log) (hf : Fresh t.mem) (hcap : 0 < t.mem.cap) {op : Op K R}
    (hv : Valid ext op) :
    (t.call ext op).1 = true ∧ Fresh (t.call ext op).2.mem ∧
      (t.call ext op).2.mem.cap = t.mem.cap := by
  cases op with
  | freeze =>
    simp only [Runs.call, memCall]
    rcases seal_rep hr with ⟨e, _, _⟩ | ⟨m, e, _, _⟩
    · rw [e]; exact ⟨rfl, hf, rfl⟩
    · rw [e]; exact ⟨rfl, fun _ => ⟨rfl, rfl⟩, rfl⟩
  | put rows =>
    have key : ∀ r, insertBatchMvcc ext t.mem (rows.map (·.1)) (rows.map (fun p => some p.2)) = r →
        (∃ o s', r = (.ok o, s') ∧ s'.index ≠ [] ∧ s'.cap = t.mem.cap) := by
      intro r h
      unfold insertBatchMvcc at h
      rw [if_neg (by simp), mapM_id_some] at h
      simp only at h
      by_cases hc : t.mem.batches.length < t.mem.cap
      · obtain ⟨s', h1, h2⟩ := tryPut_fits (ext := ext) hc hv.1 hv.2
        rw [h1] at h
        exact ⟨none, s', h.symm, h2, (tryInsertBatch_ok hr.1 hr.2 (by simp) h1).2.2.1⟩
      · have hfull : tryInsertBatch ext t.mem (rows.map (·.1)) (rows.map (·.2)) = .full := by
          simp only [tryInsertBatch, if_pos (Nat.le_of_not_lt hc)]
        rw [hfull] at h
        rcases seal_rep hr with ⟨_, _, e⟩ | ⟨m, e, _, _⟩
        · exact absurd (hf e).1 (by intro hb; rw [hb] at hc; simp at hc; omega)
        · rw [e] at h
          obtain ⟨s', h1, h2⟩ := tryPut_fits (ext := ext) (s := (Inner.new t.mem.cap : Inner K R))
            (by simpa [Inner.new] using hcap) hv.1 hv.2
          simp only [h1] at h
          refine ⟨some m, s', h.symm, h2, ?_⟩
          exact (tryInsertBatch_ok (rep_new ext t.mem.cap).1 (rep_new ext _).2 (by simp) h1).2.2.1
    obtain ⟨o, s', e, hne, hc⟩ := key _ rfl
    simp only [Runs.call, memCall, e]
    exact ⟨trivial, fun h => absurd h hne, hc⟩
  | del keys =>
    have key : ∀ r, insertDeleteBatch ext t.mem (keys.map (fun p => (some p.1, some p.2))) = r →
        (∃ o s', r = (.ok o, s') ∧ s'.index ≠ [] ∧ s'.cap = t.mem.cap) := by
      intro r h
      unfold insertDeleteBatch at h
      by_cases hc : t.mem.dels.length < t.mem.cap
      · obtain ⟨s', h1, h2⟩ := tryDel_fits (s := t.mem) hc hv
        rw [h1] at h
        exact ⟨none, s', h.symm, h2, (tryInsertDelete_ok hr.1 hr.2 h1).2.2.1⟩
      · have hfull : tryInsertDelete t.mem (keys.map (fun p => (some p.1, some p.2))) = .full := by
          obtain ⟨ts, hts⟩ := mapM_isSome (f := fun p : Option K × Option Nat => p.2)
            (l := keys.map (fun p => (some p.1, some p.2))) (by
              intro a ha; obtain ⟨p, _, rfl⟩ := List.mem_map.1 ha; simp)
          simp only [tryInsertDelete, hts, if_pos (Nat.le_of_not_lt hc)]
          rw [if_neg (by simpa [Valid] using hv)]
        rw [hfull] at h
        rcases seal_rep hr with ⟨_, _, e⟩ | ⟨m, e, _, _⟩
        · exact absurd (hf e).2 (by intro hb; rw [hb] at hc; simp at hc; omega)
        · rw [e] at h
          obtain ⟨s', h1, h2⟩ := tryDel_fits (s := (Inner.new t.mem.cap : Inner K R))
            (by simpa [Inner.new] using hcap) hv
          simp only [h1] at h
          refine ⟨some m, s', h.symm, h2, ?_⟩
          exact (tryInsertDelete_ok (rep_new ext t.mem.cap).1 (rep_new ext _).2 h1).2.2.1
    obtain ⟨o, s', e, hne, hc⟩ := key _ rfl
    simp only [Runs.call, memCall, e]
    exact ⟨trivial, fun h => absurd h hne, hc⟩

/-- **C04.** With positive capacity, non-empty batches and no null keys no call ever fails, however
many batches are inserted. -/
theorem inserts_never_fail (ext : R → Option K) (cap : Nat) (hcap : 0 < cap)
    (ops : List (Op K R)) (hv : ∀ op ∈ ops, Valid ext op) :
    ((Runs.new cap).calls ext ops).1 = true := by
  have aux : ∀ (ops : List (Op K R)) (t : Runs K R) (log : List (Ver K R)),
      (∀ op ∈ ops, Valid ext op) → Rep ext t.mem log → Fresh t.mem → 0 < t.mem.cap →
      (t.calls ext ops).1 = true := by
    intro ops
    induction ops with
    | nil => intros; rfl
    | cons op ops ih =>
      intro t log hv hr hf hc
      obtain ⟨h1, h2, h3⟩ := call_succeeds hr hf hc (hv op List.mem_cons_self)
      have hrep : ∃ log', Rep ext (t.call ext op).2.mem log' := by
        rcases call_ok hr (show t.call ext op = (true, (t.call ext op).2) by rw [← h1]) with
          ⟨_, e⟩ | ⟨_, _, _, e⟩ <;> exact ⟨_, e⟩
      obtain ⟨log', hl⟩ := hrep
      simp only [Runs.calls, h1, Bool.true_and]
      exact ih _ log' (fun o ho => hv o (List.mem_cons_of_mem _ ho)) hl h2 (by rw [h3]; exact hc)
  exact aux ops (Runs.new cap) [] hv (rep_new ext cap) (fun _ => ⟨rfl, rfl⟩) hcap

/-- **C04.** A zero-capacity table reports an error and changes nothing. -/
theorem zero_capacity_errors (ext : R → Option K) (rows : List R) (t : Nat) :
    insertBatch ext (Inner.new 0 : Inner K R) rows t = (.error .capacity, Inner.new 0) := by
  have hm : (rows.map (fun _ => some t)).mapM id = some (rows.map (fun _ => t)) := by
    induction rows with
    | nil => rfl
    | cons a l ih => simp only [List.map_cons, List.mapM_cons, ih]; rfl
  simp only [insertBatch, insertBatchMvcc, hm]
  simp [tryInsertBatch, sealInner, Inner.new]

/-- **C04.** A batch whose commit timestamps are not one for each row is refused and changes nothing, full table or
not. -/
theorem bad_timestamps_change_nothing (ext : R → Option K) (s : Inner K R) (rows : List R) (ts : List (Option Nat))
    (h : ts.length ≠ rows.length ∨ none ∈ ts) : insertBatchMvcc ext s rows ts = (.error .tsColumn, s) := by
  unfold insertBatchMvcc
  by_cases hl : ts.length ≠ rows.length
  · rw [if_pos hl]
  · rw [if_neg hl]
    have hn : none ∈ ts := h.resolve_left hl
    have hm : ts.mapM id = none := by
      clear h hl
      induction ts with
      | nil => cases hn
      | cons a l ih =>
        cases a with
        | none => rfl
        | some a =>
          have := ih (by simpa using hn)
          simp only [List.mapM_cons, this]
          rfl
    rw [hm]

/-- A rejected batch leaves the content of the mutable table alone unless the table was full: at every
timestamp a scan returns what it returned before. The table is what any sequence of successful calls left. -/
theorem rejected_batch_no_effect (ext : R → Option K) (cap : Nat) (ops : List (Op K R)) (t : Runs K R)
    (hcalls : (Runs.new cap).calls ext ops = (true, t)) {s' : Inner K R} {rows : List R} {ts : List Nat} {e : Err}
    (he : tryInsertBatch ext t.mem rows ts = .err e s') (rts : Nat) :
    scan s' none rts = scan t.mem none rts := by
  obtain ⟨_, log, _, h, _⟩ := calls_ok ops (Runs.new cap) t [] [] .nil (rep_new ext cap) hcalls
  obtain ⟨w', _, hc⟩ := tryInsertBatch_err h.1 he
  obtain ⟨o1, a1, b1⟩ := rep_scan_all h rts
  obtain ⟨o2, a2, b2⟩ := rep_scan_all (s := s') ⟨w', fun w => (hc w).trans (h.2 w)⟩ rts
  rw [a1, a2]
  exact congrArg some (List.map_injective_iff.2 toVer_injective (versionScan_unique b2 b1))

/-! ## Where the code falls short -/

/-- rows are (key, value); the key may be null -/
def nullExt (r : Option Nat × Nat) : Option Nat := r.1

/-- **C04 refuted.** On a full table a batch with a null key fails, and the run frozen to make room
is dropped with it (memtable.rs:700-710): the row of key 1 inserted before is gone from the mutable
table and from the runs. -/
theorem failed_insert_drops_frozen_run :
    ∃ t0 t1 : Runs Nat (Option Nat × Nat),
      (Runs.new 1).calls nullExt [.put [((some 1, 10), 5)]] = (true, t0) ∧
      scan t0.mem none 9 = some [.row ⟨1, 5⟩ (some 1, 10)] ∧
      t0.call nullExt (.put [((none, 20), 6)]) = (false, t1) ∧
      t1.runs = [] ∧ scan t1.mem none 9 = some [] :=
  ⟨_, _, rfl, by decide, rfl, by decide, by decide⟩

/-- `n` slots used by zero-row batches. -/
private def wedged (cap n : Nat) : Runs K R :=
  { runs := [], mem := { index := [], batches := List.replicate n ⟨[], []⟩, dels := [], cap := cap } }

private theorem empties (ext : R → Option K) (cap : Nat) : ∀ n m, m + n ≤ cap →
    (wedged cap m : Runs K R).calls ext (List.replicate n (Op.put [])) =
      (true, wedged cap (m + n)) := by
  intro n
  induction n with
  | zero => intro m _; rfl
  | succ n ih =>
    intro m hm
    have h1 : Runs.call ext (wedged cap m : Runs K R) (.put []) = (true, wedged cap (m + 1)) := by
      have : ¬ cap ≤ m := by omega
      simp [wedged, Runs.call, memCall, insertBatchMvcc, tryInsertBatch, this, indexRows, addRun,
        List.replicate_succ']
    rw [List.replicate_succ]
    simp only [Runs.calls, h1]
    rw [ih (m + 1) (by omega), show m + 1 + n = m + (n + 1) by omega]
    rfl

/-- **C04 refuted.** Zero-row batches use up slots without adding index entries, and freezing a table
with an empty index does not free its slots (memtable.rs:297-299). After as many zero-row batches
as there are slots, every further upsert batch is refused, for ever: the state no longer changes. -/
theorem empty_batches_wedge (ext : R → Option K) (cap : Nat) :
    ∃ t : Runs K R, (Runs.new cap).calls ext (List.replicate cap (.put [])) = (true, t) ∧
      (∀ rows, t.call ext (.put rows) = (false, t)) ∧ t.call ext .freeze = (true, t) := by
  refine ⟨wedged cap cap, ?_, ?_, ?_⟩
  · have := empties (R := R) ext cap cap 0 (by omega)
    rw [Nat.zero_add] at this
    exact this
  · intro rows
    have hm := mapM_id_some rows
    simp only [Runs.call, memCall, insertBatchMvcc, hm]
    simp [wedged, tryInsertBatch, sealInner]
  · simp [wedged, Runs.call, memCall, sealInner, addRun]

/-- A table of one row; a batch whose second row has no key is rejected, and the row is still there. -/
example : ∃ (t : Runs Nat (Option Nat × Nat)) (e : Err) (s' : Inner Nat (Option Nat × Nat)),
    (Runs.new 4).calls nullExt [.put [((some 1, 10), 5)]] = (true, t) ∧
    tryInsertBatch nullExt t.mem [(some 2, 20), (none, 30)] [6, 6] = .err e s' ∧
    scan s' none 9 = some [.row ⟨1, 5⟩ (some 1, 10)] := ⟨_, _, _, rfl, rfl, by decide⟩

/-! A concrete run with two slots: the third batch freezes the first two. -/
example : (Runs.new 2).calls C02.exExt
      [.put [((1, 10), 5)], .put [((2, 20), 6)], .put [((1, 11), 7)]] =
    (true, { runs := [{ rows := [(1, 10), (2, 20)], ts := [5, 6], tomb := [false, false],
                        dkeys := [], dts := [], index := [(⟨1, 5⟩, some 0), (⟨2, 6⟩, some 1)] }],
             mem := { index := [(⟨1, 7⟩, .up 0 0)], batches := [⟨[(1, 11)], [7]⟩], dels := [],
                      cap := 2 } }) := by decide

example : Valid C02.exExt (.put [((1, 10), 5)]) := ⟨by simp, by simp [C02.exExt]⟩

end Tonbo.Props.C04
