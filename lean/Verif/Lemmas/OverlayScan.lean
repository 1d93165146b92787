import Verif.Model.TxnQuery
import Verif.Lemmas.StoreScan
import Verif.Lemmas.ProjScan
import Verif.Lemmas.TxnInv

/-! # Scanning a store with staged mutations in front -/

set_option linter.unusedSectionVars false

namespace Tonbo.Lemmas.Overlay
open Tonbo.Model Tonbo.Model.Mem Tonbo.Model.Merge Tonbo.Spec Tonbo.Lemmas.Mem Tonbo.Lemmas.Scan
open Tonbo.Model.Pred Tonbo.Model.Keys Tonbo.Model.Bounds Tonbo.Model.Plan Tonbo.Lemmas.Pred
open Tonbo.Lemmas.PredEval Tonbo.Lemmas.Plan
open Tonbo.Model.Txn (Stage)
open Tonbo.Model.Lsm (stage stagedEntry)
open Tonbo.Props.C05 (ready mem_rowsOf)
open Tonbo.Lemmas.Sst (toVer_key)

section Merge
variable {K R : Type} [LinearOrder K]

theorem stagedEntry_key (rts : Nat) (q : K × Stage R) : (stagedEntry rts q).kt.key = q.1 := by
  obtain ⟨k, s⟩ := q
  cases s <;> rfl

theorem stagedEntry_ts (rts : Nat) (q : K × Stage R) : (stagedEntry rts q).kt.ts = rts := by
  obtain ⟨k, s⟩ := q
  cases s <;> rfl

/-- Staged mutations merged with sources. -/
theorem overlay_lists (ss : List (Prio × List (Entry K R))) (Hs : List (Ver K R → Prop)) (rts : Nat)
    (good : K → Prop) (rowOk : K → R → Prop)
    (h : List.Forall₂ (fun s H => SrcOk rts good rowOk s.2 H) ss Hs)
    (hfun : ∀ k, good k → Functional (fun w => w.key = k ∧ ∃ H ∈ Hs, H w))
    {st : List (K × Stage R)} (hst : SMap.Sorted st) :
    (∀ ps ∈ ((Prio.txn, st.map (stagedEntry rts)) :: ss).map (fun s => (s.1, s.2.map some)),
      (ready ps.2).Pairwise (fun a b : Entry K R => a.kt.key < b.kt.key)) ∧
    ∃ tr, mergeAll (((Prio.txn, st.map (stagedEntry rts)) :: ss).map (fun s => (s.1, s.2.map some))) none = some tr ∧
      (rowsOf (ready tr)).Pairwise (fun a b => a.1 < b.1) ∧
      (∀ k r, (∃ s, (k, s) ∈ st) → ((k, r) ∈ rowsOf (ready tr) ↔ (k, Stage.up r) ∈ st)) ∧
      (∀ k r, (∀ s, (k, s) ∉ st) → good k → ((k, r) ∈ rowsOf (ready tr) ↔
        Visible (fun w => ∃ H ∈ Hs, H w) rts k r)) ∧
      ∀ k r, (∀ s, (k, s) ∉ st) → (k, r) ∈ rowsOf (ready tr) → rowOk k r := by
  have hasc0 : (st.map (stagedEntry rts)).Pairwise (fun x y : Entry K R => x.kt.key < y.kt.key) := by
    rw [List.pairwise_map]
    refine hst.imp ?_
    intro a b hab
    rw [stagedEntry_key, stagedEntry_key]
    exact hab
  have hasc : ∀ ps ∈ ((Prio.txn, st.map (stagedEntry rts)) :: ss).map (fun s => (s.1, s.2.map some)),
      (ready ps.2).Pairwise (fun a b : Entry K R => a.kt.key < b.kt.key) := by
    intro ps hps
    obtain ⟨s, hs, rfl⟩ := List.mem_map.1 hps
    rw [ready_some]
    rcases List.mem_cons.1 hs with rfl | hs
    · exact hasc0
    · obtain ⟨i, hi⟩ := List.mem_iff_getElem?.1 hs
      obtain ⟨H, _, ho⟩ := forall₂_getElem? h hi
      have := ho.asc
      rw [List.pairwise_map] at this
      refine this.imp ?_
      intro a b hab
      cases a <;> cases b <;> exact hab
  refine ⟨hasc, ?_⟩
  -- the streams by number
  have hget : ∀ (i : Nat) (q : Prio) (l : List (Option (Entry K R))),
      (((Prio.txn, st.map (stagedEntry rts)) :: ss).map (fun s => (s.1, s.2.map some)))[i]? = some (q, l) →
      (i = 0 ∧ q = .txn ∧ ready l = st.map (stagedEntry rts)) ∨
      (∃ j a, i = j + 1 ∧ ss[j]? = some (q, a) ∧ ready l = a) := by
    intro i q l hi
    rw [List.getElem?_map] at hi
    cases i with
    | zero =>
      simp only [List.getElem?_cons_zero, Option.map_some, Option.some.injEq, Prod.mk.injEq] at hi
      obtain ⟨rfl, rfl⟩ := hi
      exact .inl ⟨rfl, rfl, ready_some _⟩
    | succ j =>
      simp only [List.getElem?_cons_succ] at hi
      cases hj : ss[j]? with
      | none => rw [hj] at hi; cases hi
      | some a =>
        rw [hj] at hi
        simp only [Option.map_some, Option.some.injEq, Prod.mk.injEq] at hi
        obtain ⟨rfl, rfl⟩ := hi
        exact .inr ⟨j, a.2, rfl, hj, ready_some _⟩
  have hzero : (((Prio.txn, st.map (stagedEntry rts)) :: ss).map
      (fun s => (s.1, s.2.map some)))[0]? = some (Prio.txn, (st.map (stagedEntry rts)).map some) := rfl
  obtain ⟨tr, m1, _, m3⟩ := Props.C05.merged_entries _ hasc
  obtain ⟨tr', n1, n2, n3, n4⟩ := Props.C05.merged_scan_on
    (((Prio.txn, st.map (stagedEntry rts)) :: ss).map (fun s => (s.1, s.2.map some)))
    (fun i w => 0 < i ∧ ∃ H, Hs[i - 1]? = some H ∧ H w) rts (fun k => (∀ s, (k, s) ∉ st) ∧ good k)
    (fun ps hps => by
      rw [List.pairwise_map]
      exact (hasc ps hps).imp (fun hlt => by simpa [toVer_key] using hlt))
    (by
      intro i q l hi w hw
      rcases hget i q l hi with ⟨rfl, rfl, hl⟩ | ⟨j, a, rfl, hj, hl⟩
      · constructor
        · intro hm
          obtain ⟨en, hen, rfl⟩ := List.mem_map.1 hm
          rw [hl] at hen
          obtain ⟨⟨k, s⟩, hq, rfl⟩ := List.mem_map.1 hen
          rw [toVer_key, stagedEntry_key] at hw
          exact absurd hq (hw.1 s)
        · rintro ⟨⟨h0, _⟩, _⟩; omega
      · obtain ⟨H, hH, ho⟩ := forall₂_getElem? h hj
        rw [hl, ho.exact w hw.2]
        have : (fun w => 0 < j + 1 ∧ ∃ H, Hs[j + 1 - 1]? = some H ∧ H w) = H := by
          funext w; simp [hH]
        rw [this])
    (by
      intro k hk a b ha hb
      obtain ⟨a1, _, _, _, H, hH, ha⟩ := ha
      obtain ⟨b1, _, _, _, H', hH', hb⟩ := hb
      exact hfun k hk.2 a b ⟨a1, H, List.mem_of_getElem? hH, ha⟩ ⟨b1, H', List.mem_of_getElem? hH', hb⟩)
  rw [m1] at n1
  obtain rfl := Option.some.inj n1
  have hu : (fun w => ∃ i < (((Prio.txn, st.map (stagedEntry rts)) :: ss).map (fun s => (s.1, s.2.map some))).length,
      0 < i ∧ ∃ H, Hs[i - 1]? = some H ∧ H w) = fun w => ∃ H ∈ Hs, H w := by
    funext w
    apply propext
    constructor
    · rintro ⟨i, _, _, H, hH, hw⟩
      exact ⟨H, List.mem_of_getElem? hH, hw⟩
    · rintro ⟨H, hH, hw⟩
      obtain ⟨i, hi⟩ := List.mem_iff_getElem?.1 hH
      refine ⟨i + 1, ?_, by omega, H, by simpa using hi, hw⟩
      have := (List.getElem?_eq_some_iff.1 hi).1
      rw [← h.length_eq] at this
      simp only [List.length_map, List.length_cons]
      omega
  rw [hu] at n3
  refine ⟨tr, m1, n2, ?_, fun k r h1 h2 => n3 k r ⟨h1, h2⟩, ?_⟩
  · rintro k r ⟨s, hs⟩
    constructor
    · intro hm
      obtain ⟨ts, hm⟩ := mem_rowsOf.1 hm
      obtain ⟨_, i, q, l, hi, hl, hmax⟩ := (m3 _).1 hm
      have hwin := hmax 0 Prio.txn _ (stagedEntry rts (k, s)) hzero
        (by rw [ready_some]; exact List.mem_map.2 ⟨_, hs, rfl⟩) (stagedEntry_key rts (k, s))
      rw [stagedEntry_ts] at hwin
      change rts < ts ∨ (rts = ts ∧ _) at hwin
      rcases hget i q l hi with ⟨_, _, hl'⟩ | ⟨j, a, rfl, hj, hl'⟩
      · rw [hl'] at hl
        obtain ⟨⟨k', s'⟩, hq, he⟩ := List.mem_map.1 hl
        cases s' with
        | del => cases he
        | up r' => cases he; exact hq
      · rw [hl'] at hl
        obtain ⟨H, _, ho⟩ := forall₂_getElem? h hj
        have hle : ts ≤ rts := ho.seen _ hl
        rcases hwin with hlt | ⟨_, hrank⟩
        · omega
        · exfalso
          rcases hrank with hlt | ⟨_, hle'⟩
          · cases q <;> simp [Prio.rank] at hlt
          · omega
    · intro hm
      refine mem_rowsOf.2 ⟨rts, (m3 _).2 ⟨rfl, 0, Prio.txn, _, hzero, ?_, ?_⟩⟩
      · rw [ready_some]; exact List.mem_map.2 ⟨_, hm, rfl⟩
      · intro j q l en hj hen hkey
        rcases hget j q l hj with ⟨rfl, rfl, hl⟩ | ⟨j', a, rfl, hj', hl⟩
        · rw [hl] at hen
          obtain ⟨q', _, rfl⟩ := List.mem_map.1 hen
          exact .inr ⟨stagedEntry_ts rts q', .inr ⟨rfl, le_refl _⟩⟩
        · rw [hl] at hen
          obtain ⟨H, _, ho⟩ := forall₂_getElem? h hj'
          have hle : en.kt.ts ≤ rts := ho.seen _ hen
          rcases Nat.lt_or_eq_of_le hle with hlt | heq
          · exact .inl hlt
          · refine .inr ⟨heq, ?_⟩
            cases q
            · exact .inr ⟨rfl, by omega⟩
            all_goals exact .inl (by decide)
  · intro k r hk hm
    obtain ⟨ps, hps, hr⟩ := n4 k r hm
    obtain ⟨s, hs, rfl⟩ := List.mem_map.1 hps
    rw [ready_some] at hr
    rcases List.mem_cons.1 hs with rfl | hs
    · obtain ⟨ts, ht⟩ := mem_rowsOf.1 hr
      obtain ⟨⟨k', s'⟩, hq, he⟩ := List.mem_map.1 ht
      cases s' with
      | del => cases he
      | up r' => cases he; exact absurd hq (hk _)
    · obtain ⟨i, hi⟩ := List.mem_iff_getElem?.1 hs
      obtain ⟨H, _, ho⟩ := forall₂_getElem? h hi
      exact ho.rows k r hr

end Merge

/-! ## The residual predicate -/

variable {K : Type} [LinearOrder K]

/-- With staged mutations the whole predicate is evaluated at the end. -/
theorem residual_forced {pc : Scalar → Scalar → Option Ordering} (hpc : PcOk pc) {schema ks : Schema} {p : Expr} {r : Row}
    (hr : ∀ e ∈ leaves p, LeafOk schema r e) (nonSst needsAll : Bool) :
    match residualFor schema ks p true nonSst needsAll with
    | none => meaning (envOf schema r) p = .t
    | some q => matchesOwned pc schema q r = .ok (decide (meaning (envOf schema r) p = .t)) := by
  by_cases ht : Plan.isTrue p = true
  · have : p = .tt := by cases p <;> simp_all [Plan.isTrue]
    subst this
    have h1 : (splitRowFilter schema Expr.tt).residual = none := by rw [splitRowFilter]
    have hn : (splitNonSst ks Expr.tt).residual = none := by
      simp [splitNonSst, splitRowFilter]
    have : residualFor schema ks .tt true nonSst needsAll = none := by
      simp only [residualFor, Plan.isTrue, h1, Bool.not_true, Bool.and_false, Bool.false_eq_true, if_false]
      cases nonSst with
      | false => rfl
      | true => simp only [if_true, hn]; rfl
    rw [this]
    simp [meaning, kleene]
  · have hf : Plan.isTrue p = false := by simpa using ht
    by_cases hall : needsAll = true
    · have : residualFor schema ks p true nonSst needsAll = some p := by
        simp [residualFor, hall, hf]
      rw [this]
      exact Props.C08.row_kept_iff_partial hpc p hr
    · have hall : needsAll = false := by simpa using hall
      have hres : residualFor schema ks p true nonSst needsAll =
          combineWithAnd (splitRowFilter schema p).residual (some p) := by
        simp [residualFor, hall, hf]
      rw [hres]
      obtain ⟨g1, g2⟩ := combineWithAnd_spec (a := (splitRowFilter schema p).residual) (b := some p)
        (leafMeaning (envOf schema r))
      cases hq : combineWithAnd (splitRowFilter schema p).residual (some p) with
      | none => exact absurd (g2 hq).2 (by simp)
      | some q =>
        obtain ⟨e1, e2⟩ := g1 q hq
        simp only
        have hlv : ∀ e ∈ leaves q, LeafOk schema r e := by
          intro e he
          rcases e2 e he with ⟨y, hy, hye⟩ | ⟨y, hy, hye⟩
          · exact hr e (residual_leaves schema p y hy e hye)
          · obtain rfl := Option.some.inj hy
            exact hr e hye
        rw [Props.C08.row_kept_iff_partial hpc q hlv]
        have : meaning (envOf schema r) q = .t ↔ meaning (envOf schema r) p = .t := by
          unfold meaning
          rw [e1]
          constructor
          · exact fun h => h.2 p rfl
          · intro h
            refine ⟨fun y hy => ?_, fun y hy => by obtain rfl := Option.some.inj hy; exact h⟩
            exact ((Props.C08.split_true_iff (leafMeaning (envOf schema r)) schema p).1 h).2 y hy
        simp only [this]

variable {x : Plan.Ext K} {c : Codec K} {schema ks : Schema} {ext : Row → Option K} {st : Store K} {p : Expr} {rts : Nat}

/-- A scan with staged mutations in front of a store. -/
theorem wholeScan_overlay {Q : Type} (h : Basis x c schema ks ext st p rts) {Hf : Sst K → Ver K Row → Prop}
    {staged : List (K × Stage Row)} (hfa : FilesAs x c schema ks st p rts Hf (fun k => ∀ s, (k, s) ∉ staged))
    (hst : SMap.Sorted staged) (hfit : ∀ k r, (k, Stage.up r) ∈ staged → ∀ e ∈ leaves p, LeafOk schema r e) (proj : Row → Q)
    {batchSize : Nat} (hb : 0 < batchSize) (limit : Option Nat) :
    ∃ (bs : List (List Q)) (rows : List (K × Row)),
      Lemmas.Proj.wholeScan x c schema ks (some (staged.map (stagedEntry rts))) st p rts proj batchSize limit =
        .ok (some (bs, none)) ∧
      rows.Pairwise (fun a b : K × Row => a.1 < b.1) ∧
      (∀ k r, (k, r) ∈ rows ↔ ((k, Stage.up r) ∈ staged ∨
        ((∀ s, (k, s) ∉ staged) ∧ Visible (Versions st) rts k r)) ∧ meaning (envOf schema r) p = .t) ∧
      (∀ b ∈ bs, b ≠ [] ∧ b.length ≤ batchSize) ∧
      bs.flatten = upTo limit (rows.map (fun q => proj q.2)) := by
  obtain ⟨pl, ss, ns, na, Hs, hpl, _, hss, hF, hsub, hsup⟩ := streams_sources h Hf hfa.src hfa.kept
  obtain ⟨hasc, tr, t1, t2, t3, t4, t5⟩ := overlay_lists ss Hs rts _ _ hF
    (fun k _ a b ha hb => hfa.fn a b (hsub a ha.2) (hsub b hb.2)) hst
  -- the plan is that of a scan without staged mutations but for the residual
  obtain ⟨ns', na', hpl'⟩ : ∃ ns' na', Plan.plan x c schema ks true st p rts =
      .ok { pl with residual := residualFor schema ks p true ns' na' } := by
    unfold Plan.plan at hpl ⊢
    rw [h.bloom] at hpl ⊢
    simp only [Except.ok.injEq] at hpl ⊢
    rw [← hpl]
    exact ⟨_, _, rfl⟩
  have hss' : streams x st { pl with residual := residualFor schema ks p true ns' na' } p rts = some ss := hss
  obtain ⟨tr', g1, g2⟩ := Props.C06.scan_batches
    ((residualFor schema ks p true ns' na').map (fun q => matchesOwned x.pc schema q)) proj batchSize hb limit _ hasc
  rw [t1] at g1
  obtain rfl := Option.some.inj g1
  have hleaf : ∀ q ∈ rowsOf (ready tr), ∀ e ∈ leaves p, LeafOk schema q.2 e := by
    rintro ⟨k, r⟩ hq
    by_cases hk : ∀ s, (k, s) ∉ staged
    · obtain ⟨⟨t, _, hh⟩, _⟩ := t5 k r hk hq
      exact (h.fits k t r hh).leaf
    · have hk : ∃ s, (k, s) ∈ staged := by
        by_contra hc
        exact hk fun s hs => hc ⟨s, hs⟩
      exact hfit k r ((t3 k r hk).1 hq)
  have hres := fun q hq => residual_forced (ks := ks) h.pc (hleaf q hq) ns' na'
  have hev : ∀ ev, ((residualFor schema ks p true ns' na').map (fun q => matchesOwned x.pc schema q)) = some ev →
      ∀ q ∈ rowsOf (ready tr), ev q.2 = .ok (decide (meaning (envOf schema q.2) p = .t)) := by
    intro ev he q hq
    have := hres q hq
    cases hr : residualFor schema ks p true ns' na' with
    | none => rw [hr] at he; cases he
    | some q' =>
      rw [hr] at he this
      simp only [Option.map_some, Option.some.injEq] at he
      subst he
      exact this
  obtain ⟨bs, b1, b2, b3⟩ := g2 (fun ev he q hq => ⟨_, hev ev he q hq⟩)
  have hsel : Props.C06.selected ((residualFor schema ks p true ns' na').map (fun q => matchesOwned x.pc schema q)) proj
      (rowsOf (ready tr)) = ((rowsOf (ready tr)).filter
        (fun q => decide (meaning (envOf schema q.2) p = .t))).map (fun q => proj q.2) := by
    unfold Props.C06.selected
    congr 1
    apply List.filter_congr
    intro q hq
    cases hr : residualFor schema ks p true ns' na' with
    | none =>
      have := hres q hq
      rw [hr] at this
      simpa using this
    | some q' =>
      simp only [Option.map_some]
      rw [hev (matchesOwned x.pc schema q') (by rw [hr]; rfl) q hq]
      by_cases hm : meaning (envOf schema q.2) p = .t <;> simp [hm]
  refine ⟨bs, (rowsOf (ready tr)).filter (fun q => decide (meaning (envOf schema q.2) p = .t)), ?_,
    t2.filter _, ?_, b2, ?_⟩
  · unfold Lemmas.Proj.wholeScan Lemmas.Proj.wholeStreams
    simp only [Option.isSome_some, hpl', hss', Option.map_some, Option.toList_some, List.map_cons, List.map_nil,
      List.cons_append, List.nil_append, Option.bind_some]
    simp only [List.map_cons] at b1
    rw [b1]
  · intro k r
    rw [List.mem_filter]
    simp only [decide_eq_true_eq]
    refine and_congr_left (fun hm => ?_)
    by_cases hk : ∀ s, (k, s) ∉ staged
    · constructor
      · intro hin
        obtain ⟨⟨t, ht, hh⟩, _⟩ := t5 k r hk hin
        have hg : Good schema st p rts k := ⟨t, r, ht, hh, hm⟩
        refine .inr ⟨hk, (hfa.vis k r hk hm).1 ?_⟩
        exact (visible_congr (fun w hwk hts => ⟨hsub w, hsup w (hwk ▸ hg) hts⟩)).1 ((t4 k r hk hg).1 hin)
      · rintro (hs | ⟨_, hv⟩)
        · exact absurd hs (hk _)
        · obtain ⟨t, ht1, ht2, _⟩ := id hv
          have hg : Good schema st p rts k := ⟨t, r, ht2, holds_of_version ht1, hm⟩
          refine (t4 k r hk hg).2 ?_
          exact (visible_congr (fun w hwk hts => ⟨hsub w, hsup w (hwk ▸ hg) hts⟩)).2 ((hfa.vis k r hk hm).2 hv)
    · have hk' : ∃ s, (k, s) ∈ staged := by
        by_contra hc
        exact hk fun s hs => hc ⟨s, hs⟩
      rw [t3 k r hk']
      constructor
      · exact .inl
      · rintro (hs | ⟨hno, _⟩)
        · exact hs
        · exact absurd hno hk
  · rw [b3]
    cases limit <;> simp only [hsel, upTo]

end Tonbo.Lemmas.Overlay
