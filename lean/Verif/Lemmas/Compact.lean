import Verif.Lemmas.CompactOut

/-!
# The main loop of a merge
-/

set_option linter.unusedSectionVars false

namespace Tonbo.Lemmas.Compact
open Tonbo.Model Tonbo.Model.Mem Tonbo.Model.Sst Tonbo.Model.Flush Tonbo.Model.Compact Tonbo.Spec
open Tonbo.Lemmas.Flush

variable {K R : Type} [LinearOrder K]

/-- `L` holds, in key order, one newest entry for every key of `P`. -/
structure NewestList (P : KT K × Option R → Prop) (L : List (KT K × Option R)) : Prop where
  asc : Asc L
  newest : ∀ w ∈ L, P w ∧ ∀ u, P u → u.1.key = w.1.key → u.1.ts ≤ w.1.ts
  covers : ∀ u, P u → ∃ w ∈ L, w.1.key = u.1.key

theorem newestList_cons {P Q : KT K × Option R → Prop} {x : KT K × Option R} {L : List (KT K × Option R)}
    (hx : P x) (hmin : ∀ p, P p → x.1 ≤ p.1) (hQ : ∀ p, Q p ↔ (P p ∧ p.1.key ≠ x.1.key))
    (h : NewestList Q L) : NewestList P (x :: L) := by
  refine ⟨List.pairwise_cons.2 ⟨?_, h.asc⟩, ?_, ?_⟩
  · intro w hw
    obtain ⟨h1, h2⟩ := (hQ w).1 (h.newest w hw).1
    exact lt_of_le_of_ne (kt_key_le (hmin w h1)) (Ne.symm h2)
  · intro w hw
    rcases List.mem_cons.1 hw with rfl | hw
    · exact ⟨hx, fun u hu hk => kt_ts_ge (hmin u hu) hk⟩
    · obtain ⟨h1, h2⟩ := h.newest w hw
      obtain ⟨h3, h4⟩ := (hQ w).1 h1
      exact ⟨h3, fun u hu hk => h2 u ((hQ u).2 ⟨hu, by rw [hk]; exact h4⟩) hk⟩
  · intro u hu
    by_cases hk : u.1.key = x.1.key
    · exact ⟨x, List.mem_cons_self, hk.symm⟩
    · obtain ⟨w, hw, e⟩ := h.covers u ((hQ u).2 ⟨hu, hk⟩)
      exact ⟨w, List.mem_cons_of_mem _ hw, e⟩

theorem newestList_nil {srcs : List (Cursor K R)} {heap : List (HEntry K)} (hi : SrcInv srcs heap)
    (hh : heap = []) : NewestList (Left srcs) [] := by
  have hno : ∀ p, ¬ Left srcs p := by
    intro p hp
    obtain ⟨e, he, _⟩ := hi.covers hp
    rw [hh] at he; cases he
  exact ⟨List.Pairwise.nil, by simp, fun u hu => absurd hu (hno u)⟩

/-- The identifiers a merge hands out: the target, then what the allocator yields. -/
def idsFrom (target : Nat) (next : Option Nat) (m : Nat) : List Nat :=
  target :: match next with
    | none => []
    | some n => List.range' n m

/-- No more rows than the row cap, or one. -/
def RowCap (cfg : Cfg K R) (n : Nat) : Prop := ∀ m, cfg.maxRows = some m → n ≤ max 1 m

/-- What the main loop needs to know about sources and heap: `S` is kept by every iteration, and `N`
relates sources and heap to the entries the iterations emit. -/
structure Steps (H : Heap K) (S : List (Cursor K R) → List (HEntry K) → Prop)
    (N : List (Cursor K R) → List (HEntry K) → List (KT K × Option R) → Prop) : Prop where
  step : ∀ {srcs : List (Cursor K R)} {heap h' : List (HEntry K)} {e : HEntry K}, S srcs heap →
    heap.Perm (e :: h') → (∀ x ∈ h', e.ge x) →
    ∃ c x t, srcs[e.src]? = some c ∧ rem c e.kind = x :: t ∧ c.idx e.kind = e.row ∧ x.1 = e.kt ∧
      ∃ srcs' heap', refillAll e.kt.key (e :: (takeGroup H e.kt.key h'.length h').1) srcs
          (takeGroup H e.kt.key h'.length h').2 = some (srcs', heap') ∧ S srcs' heap' ∧
        total srcs' < total srcs ∧ (∀ e' ∈ heap', e.kt.key < e'.kt.key) ∧
        ∀ L, N srcs' heap' L → N srcs heap (x :: L)
  stop : ∀ {srcs : List (Cursor K R)}, S srcs [] → N srcs [] []

theorem Steps.exists_list {H : Heap K} {S : List (Cursor K R) → List (HEntry K) → Prop}
    {N : List (Cursor K R) → List (HEntry K) → List (KT K × Option R) → Prop} (hS : Steps H S N) :
    ∀ (n : Nat) (srcs : List (Cursor K R)) (heap : List (HEntry K)),
    S srcs heap → total srcs < n → ∃ L, N srcs heap L
  | 0, _, _, _, h => by omega
  | n + 1, srcs, heap, hi, hn => by
    by_cases hh : heap = []
    · subst hh
      exact ⟨[], hS.stop hi⟩
    · obtain ⟨e, h', _, h2, h3⟩ := H.cons heap hh
      obtain ⟨c, x, t, hc, hr, _, _, srcs', heap', _, g1, g2, _, g3⟩ := hS.step hi h2 h3
      obtain ⟨L, hL⟩ := hS.exists_list n srcs' heap' g1 (by omega)
      exact ⟨x :: L, g3 L hL⟩

/-- The strong invariant: everything left is delivered. -/
theorem steps_newest (H : Heap K) :
    Steps H (SrcInv (R := R)) (fun srcs _ L => NewestList (Left srcs) L) := by
  refine ⟨?_, fun h => newestList_nil h rfl⟩
  intro srcs heap h' e hi h2 h3
  obtain ⟨c, x, t, hc, hr, hrow, hxe, hmin, srcs', heap', g0, g1, g2, g3, g4⟩ := group_spec H hi h2 h3
  refine ⟨c, x, t, hc, hr, hrow, hxe, srcs', heap', g0, g1, g3, g4, fun L hL => ?_⟩
  refine newestList_cons ⟨c, List.mem_of_getElem? hc, e.kind, by rw [pend, hr]; simp⟩ hmin ?_ hL
  intro p
  rw [g2 p, hxe]

/-- The state of the main loop after the entries `parts.flatten ++ ws` were emitted, `ws` of them into
the output that is still open. -/
structure Inv (S : List (Cursor K R) → List (HEntry K) → Prop) (cfg : Cfg K R) (next0 : Option Nat) (st : St K R) (parts : List (List (KT K × Option R)))
    (ws : List (KT K × Option R)) : Prop where
  src : S st.srcs st.heap
  out : OutRep st.out ws
  tabs : List.Forall₂ (TableRep cfg) st.tables parts
  ids : ∃ id, st.cur = some id ∧ st.tables.map (·.id) ++ [id] = idsFrom cfg.target next0 st.tables.length
  next : st.next = next0.map (· + st.tables.length)
  alone : next0 = none → st.tables = []
  asc : Asc (parts.flatten ++ ws)
  before : ∀ p ∈ parts.flatten ++ ws, ∀ e ∈ st.heap, p.1.key < e.kt.key
  iters : st.iters = (parts.flatten ++ ws).length
  cap : ∀ t ∈ st.tables, RowCap cfg t.stats.rows
  open_ : ws = [] ∨ ∀ m, cfg.maxRows = some m → st.out.rows < m

/-- When a merge may fail although the inputs hold something. -/
def Excuse (cfg : Cfg K R) (next0 : Option Nat) (n : Nat) (e : Compact.Err) : Prop :=
  (e = .budget ∧ ∃ m, cfg.budget = some m ∧ m < n) ∨
  (e = .noAllocator ∧ next0 = none ∧ (cfg.maxRows ≠ none ∨ cfg.maxBytes ≠ none))

theorem flushChunk_rows (o : Out K R) : o.flushChunk.rows = o.rows := by
  unfold Out.flushChunk; split <;> rfl

/-- Closing an output. -/
theorem rollOver_spec {S : List (Cursor K R) → List (HEntry K) → Prop} (cfg : Cfg K R) (next0 : Option Nat) {st : St K R}
    {parts : List (List (KT K × Option R))} {ws : List (KT K × Option R)}
    (src : S st.srcs st.heap) (out : OutRep st.out ws)
    (tabs : List.Forall₂ (TableRep cfg) st.tables parts)
    (ids : ∃ id, st.cur = some id ∧ st.tables.map (·.id) ++ [id] = idsFrom cfg.target next0 st.tables.length)
    (next : st.next = next0.map (· + st.tables.length)) (alone : next0 = none → st.tables = [])
    (asc : Asc (parts.flatten ++ ws))
    (before : ∀ p ∈ parts.flatten ++ ws, ∀ e ∈ st.heap, p.1.key < e.kt.key)
    (iters : st.iters = (parts.flatten ++ ws).length)
    (cap : ∀ t ∈ st.tables, RowCap cfg t.stats.rows) (hcap : RowCap cfg st.out.rows) (hne : ws ≠ []) :
    (∃ st' parts' ws', rollOver cfg st = .ok st' ∧ Inv S cfg next0 st' parts' ws' ∧ st'.srcs = st.srcs ∧
      st'.heap = st.heap ∧ parts'.flatten ++ ws' = parts.flatten ++ ws) ∨
    (rollOver cfg st = .error .noAllocator ∧ next0 = none ∧ (cfg.maxRows ≠ none ∨ cfg.maxBytes ≠ none)) := by
  obtain ⟨o, ho, hrep, hrows⟩ : ∃ o, (if cfg.chunkRows ≤ st.out.pending then st.out.flushChunk else st.out) = o ∧
      OutRep o ws ∧ o.rows = st.out.rows := by
    by_cases hc : cfg.chunkRows ≤ st.out.pending
    · exact ⟨_, by rw [if_pos hc], (outRep_flush out).1, flushChunk_rows _⟩
    · exact ⟨_, by rw [if_neg hc], out, rfl⟩
  unfold rollOver
  simp only [ho]
  obtain ⟨id, hid, hids⟩ := ids
  by_cases hx : o.exceeds cfg.maxRows cfg.maxBytes = true
  · rw [if_pos hx]
    have hasc : Asc ws := (List.pairwise_append.1 asc).2.1
    obtain ⟨t, f1, f2, f3⟩ := finish_spec cfg hrep hne hasc id
    simp only [hid, f1]
    cases hn : next0 with
    | none =>
      right
      rw [hn] at next
      rw [next]
      refine ⟨rfl, rfl, ?_⟩
      by_contra hc
      have hc1 : cfg.maxRows = none := by
        by_contra h'; exact hc (.inl h')
      have hc2 : cfg.maxBytes = none := by
        by_contra h'; exact hc (.inr h')
      simp [Out.exceeds, over, hc1, hc2] at hx
    | some n =>
      left
      rw [hn] at next hids
      rw [next]
      refine ⟨_, parts ++ [ws], [], rfl, ?_, rfl, rfl, by simp⟩
      refine ⟨src, outRep_new, ?_, ?_, ?_, fun h => (by cases h), ?_, ?_, ?_, ?_, .inl rfl⟩
      · exact List.rel_append tabs (.cons f3 .nil)
      · refine ⟨n + st.tables.length, rfl, ?_⟩
        simp only [List.map_append, List.map_cons, List.map_nil, f2, hids, List.length_append,
          List.length_cons, List.length_nil, idsFrom, List.cons_append, List.cons.injEq, true_and]
        rw [show 0 + 1 = 1 from rfl, List.range'_concat]
        simp
      · simp [Nat.add_assoc]
      · simpa using asc
      · simpa using before
      · simpa using iters
      · intro t' ht'
        rcases List.mem_append.1 ht' with ht' | ht'
        · exact cap t' ht'
        · rw [List.mem_singleton.1 ht', f3.rows, f3.file]
          change RowCap cfg (ws.filterMap rowOf).length
          rw [← out.rows]
          exact hcap
  · rw [if_neg hx]
    left
    refine ⟨_, parts, ws, rfl, ?_, rfl, rfl, rfl⟩
    refine ⟨src, hrep, tabs, ⟨id, hid, hids⟩, next, alone, asc, before, iters, cap, .inr ?_⟩
    intro m hm
    simp only
    by_contra hc
    apply hx
    simp only [Out.exceeds, hm, over, Bool.or_eq_true, decide_eq_true_eq]
    exact .inl (by omega)

/-- The main loop. -/
theorem loop_spec {H : Heap K} {S : List (Cursor K R) → List (HEntry K) → Prop}
    {N : List (Cursor K R) → List (HEntry K) → List (KT K × Option R) → Prop} (hS : Steps H S N)
    (cfg : Cfg K R) (next0 : Option Nat) : ∀ (n : Nat) (st : St K R)
    (parts : List (List (KT K × Option R))) (ws : List (KT K × Option R)), Inv S cfg next0 st parts ws →
    total st.srcs < n →
    ∃ L, N st.srcs st.heap L ∧
      ((∃ st' parts' ws', loop cfg H n st = .ok st' ∧ Inv S cfg next0 st' parts' ws' ∧
          parts'.flatten ++ ws' = parts.flatten ++ ws ++ L) ∨
       ∃ e, loop cfg H n st = .error e ∧ Excuse cfg next0 (parts.flatten ++ ws ++ L).length e)
  | 0, _, _, _, _, h => by omega
  | n + 1, st, parts, ws, hI, hn => by
    by_cases hh : st.heap = []
    · refine ⟨[], ?_, .inl ⟨st, parts, ws, ?_, hI, by simp⟩⟩
      · have := hI.src
        rw [hh] at this ⊢
        exact hS.stop this
      · simp [loop, hh, H.nil]
    · obtain ⟨e, h', h1, h2, h3⟩ := H.cons st.heap hh
      obtain ⟨c, x, t, hc, hr, hrow, hxe, srcs', heap', g0, g1, g3, hgt, hcons⟩ := hS.step hI.src h2 h3
      have hem : e ∈ st.heap := h2.mem_iff.2 List.mem_cons_self
      have hap := append_spec cfg hc hr hrow st.out
      have hok : ∀ st', body cfg H st e h' = .ok st' → loop cfg H (n + 1) st = loop cfg H n st' := by
        intro st' hb; rw [loop]; simp only [h1, hb]
      have herr : ∀ err, body cfg H st e h' = .error err → loop cfg H (n + 1) st = .error err := by
        intro st' hb; rw [loop]; simp only [h1, hb]
      unfold body at hok herr
      simp only [hap, g0] at hok herr
      by_cases hb : overBudget cfg.budget (st.iters + 1) = true
      · rw [if_pos hb] at herr
        obtain ⟨L, hL⟩ := hS.exists_list n srcs' heap' g1 (by omega)
        refine ⟨x :: L, hcons L hL, .inr ⟨_, herr _ rfl, .inl ⟨rfl, ?_⟩⟩⟩
        cases hbd : cfg.budget with
        | none => rw [hbd] at hb; cases hb
        | some m =>
          rw [hbd] at hb
          refine ⟨m, rfl, ?_⟩
          simp only [overBudget, decide_eq_true_eq] at hb
          rw [hI.iters] at hb
          simp only [List.length_append, List.length_cons] at hb ⊢
          omega
      · rw [if_neg hb] at hok herr
        have hasc : Asc (parts.flatten ++ (ws ++ [x])) := by
          rw [← List.append_assoc]
          refine List.pairwise_append.2 ⟨hI.asc, List.pairwise_singleton _ _, ?_⟩
          intro a ha b hb'
          rw [List.mem_singleton.1 hb']
          rw [hxe]
          exact hI.before a ha e hem
        have hpr : (push cfg st.out x).rows ≤ st.out.rows + 1 := by
          unfold push
          split
          · simp [Out.pushData]
          · simp [Out.pushDel]
        have hro := rollOver_spec cfg next0 (parts := parts) (ws := ws ++ [x])
          (st := { st with srcs := srcs', heap := heap', out := push cfg st.out x, iters := st.iters + 1 })
          g1 (outRep_push cfg hI.out x) hI.tabs hI.ids hI.next hI.alone hasc
          (by
            intro p hp q hq
            rw [← List.append_assoc] at hp
            rcases List.mem_append.1 hp with hp | hp
            · exact lt_trans (hI.before p hp e hem) (hgt q hq)
            · rw [List.mem_singleton.1 hp, hxe]
              exact hgt q hq)
          (by simp only [List.length_append, List.length_cons, List.length_nil]
              have := hI.iters
              simp only [List.length_append] at this
              omega)
          hI.cap
          (by
            intro m hm
            simp only
            rcases hI.open_ with hw | hw
            · have h0 := hI.out.rows
              rw [hw] at h0
              simp only [List.filterMap_nil, List.length_nil] at h0
              omega
            · have := hw m hm
              omega)
          (by simp)
        rcases hro with ⟨st', parts', ws', r1, r2, r3, r4, r5⟩ | ⟨r1, r2⟩
        · rw [hok st' r1]
          simp only at r3 r4
          obtain ⟨L, hL, hres⟩ := loop_spec hS cfg next0 n st' parts' ws' r2 (by rw [r3]; omega)
          rw [r3, r4] at hL
          have e1 : parts'.flatten ++ ws' ++ L = parts.flatten ++ ws ++ x :: L := by
            rw [r5]; simp
          rw [e1] at hres
          exact ⟨x :: L, hcons L hL, hres⟩
        · rw [herr _ r1]
          obtain ⟨L, hL⟩ := hS.exists_list n srcs' heap' g1 (by omega)
          exact ⟨x :: L, hcons L hL, .inr ⟨_, rfl, .inr ⟨rfl, r2⟩⟩⟩

/-! ## Opening the sources -/

/-- The batches of a source reach the outputs in full. -/
def Delivers (bs : List (Batch K R)) : Prop := CurOk (Cursor.new bs).ensure

/-- All entries of one kind in a list of batches. -/
def allItems (bs : List (Batch K R)) (k : Kind) : List (KT K × Option R) := bs.flatMap (fun b => items b k)

theorem pend_new (bs : List (Batch K R)) (k : Kind) : pend (Cursor.new bs).ensure k = allItems bs k := by
  cases bs with
  | nil => cases k <;> rfl
  | cons b r =>
    have : rem (Cursor.new (b :: r)).ensure k = items b k := by
      cases k <;> simp [Cursor.new, Cursor.ensure, rem, Cursor.idx]
    unfold pend
    rw [this]
    rfl

theorem openAll_spec : ∀ (inputs : List (List (Batch K R))) (i : Nat),
    openAll i inputs = some (inputs.map (fun bs => (Cursor.new bs).ensure),
      entries i (inputs.map (fun bs => (Cursor.new bs).ensure)))
  | [], i => rfl
  | bs :: inputs, i => by
    rw [openAll, enqueue_none, ensure_idem]
    simp only
    rw [enqueue_none, ensure_idem]
    simp only [openAll_spec inputs (i + 1), List.map_cons, entries]

/-- Some input holds this entry. -/
def InInputs (inputs : List (List (Batch K R))) (p : KT K × Option R) : Prop :=
  ∃ bs ∈ inputs, ∃ k, p ∈ allItems bs k

theorem left_inputs (inputs : List (List (Batch K R))) (p : KT K × Option R) :
    Left (inputs.map (fun bs => (Cursor.new bs).ensure)) p ↔ InInputs inputs p := by
  constructor
  · rintro ⟨c, hc, k, hp⟩
    obtain ⟨bs, hbs, rfl⟩ := List.mem_map.1 hc
    exact ⟨bs, hbs, k, by rw [← pend_new]; exact hp⟩
  · rintro ⟨bs, hbs, k, hp⟩
    exact ⟨_, List.mem_map_of_mem hbs, k, by rw [pend_new]; exact hp⟩

theorem total_inputs (inputs : List (List (Batch K R))) :
    total (inputs.map (fun bs => (Cursor.new bs).ensure)) =
      (inputs.flatten.map (fun b => b.data.length + (b.kts .del).length)).sum := by
  induction inputs with
  | nil => rfl
  | cons bs inputs ih =>
    unfold total at ih ⊢
    simp only [List.map_cons, List.sum_cons, List.flatten_cons, List.map_append, List.sum_append]
    rw [ih, pend_new, pend_new]
    congr 1
    clear ih
    induction bs with
    | nil => rfl
    | cons b bs ih =>
      simp only [allItems, List.flatMap_cons, List.length_append, List.map_cons, List.sum_cons] at ih ⊢
      rw [← ih]
      have h1 : (items b .data).length = b.data.length := by simp [items]
      have h2 : (items b .del).length = (b.kts .del).length := by rw [items_length]
      omega

/-- A merge, for any invariant that holds at the start. -/
theorem execute_gen {H : Heap K} {S : List (Cursor K R) → List (HEntry K) → Prop}
    {N : List (Cursor K R) → List (HEntry K) → List (KT K × Option R) → Prop} (hS : Steps H S N)
    (cfg : Cfg K R) (next : Option Nat) (inputs : List (List (Batch K R)))
    (hsrc : S (inputs.map (fun bs => (Cursor.new bs).ensure))
      (entries 0 (inputs.map (fun bs => (Cursor.new bs).ensure))))
    (hN : ∀ srcs heap, S srcs heap → heap ≠ [] → ¬ N srcs heap []) :
    ∃ L, N (inputs.map (fun bs => (Cursor.new bs).ensure))
        (entries 0 (inputs.map (fun bs => (Cursor.new bs).ensure))) L ∧
      ((L = [] ∧ execute cfg H next inputs = .error .emptyInput) ∨
       (L ≠ [] ∧ ∃ tables parts, execute cfg H next inputs = .ok tables ∧
          List.Forall₂ (TableRep cfg) tables parts ∧ parts.flatten = L ∧ Asc L ∧
          tables.map (·.id) = idsFrom cfg.target next (tables.length - 1) ∧ tables ≠ [] ∧
          (∀ t ∈ tables, RowCap cfg t.stats.rows)) ∨
       ∃ e, execute cfg H next inputs = .error e ∧ Excuse cfg next L.length e) := by
  unfold execute
  simp only [openAll_spec]
  by_cases he : entries 0 (inputs.map (fun bs => (Cursor.new bs).ensure)) = []
  · refine ⟨[], ?_, .inl ⟨rfl, by rw [if_pos he]⟩⟩
    rw [he] at hsrc ⊢
    exact hS.stop hsrc
  · rw [if_neg he]
    have hI : Inv S cfg next ⟨inputs.map (fun bs => (Cursor.new bs).ensure),
        entries 0 (inputs.map (fun bs => (Cursor.new bs).ensure)), Out.new, [], some cfg.target, next, 0⟩ [] [] := by
      refine ⟨hsrc, outRep_new, .nil, ⟨cfg.target, rfl, ?_⟩, ?_, fun _ => rfl, List.Pairwise.nil, by simp, rfl,
        by simp, .inl rfl⟩
      · cases next <;> rfl
      · cases next <;> rfl
    obtain ⟨L, hL, hres⟩ := loop_spec hS cfg next _ _ [] [] hI
      (by simp only; rw [total_inputs]; exact Nat.lt_succ_self _)
    simp only at hL
    refine ⟨L, hL, .inr ?_⟩
    simp only [List.flatten_nil, List.append_nil, List.nil_append] at hres
    have hLne : L ≠ [] := by
      rintro rfl
      exact hN _ _ hsrc he hL
    rcases hres with ⟨st', parts', ws', l1, l2, l3⟩ | ⟨e, l1, l2⟩
    · left
      have hasc : Asc L := by rw [← l3]; exact l2.asc
      refine ⟨hLne, ?_⟩
      rw [l1]
      simp only [finishAll]
      obtain ⟨id, hid, hids⟩ := l2.ids
      by_cases hw : ws' = []
      · have hp : ¬ st'.out.hasPending = true := fun h => (hasPending_iff l2.out).1 h hw
        rw [if_neg hp]
        subst hw
        rw [List.append_nil] at l3
        have htne : st'.tables ≠ [] := by
          intro ht
          have := l2.tabs
          rw [ht] at this
          cases this
          exact hLne l3.symm
        rw [if_neg htne]
        refine ⟨_, parts', rfl, l2.tabs, l3, hasc, ?_, htne, l2.cap⟩
        cases hn : next with
        | none => exact absurd (l2.alone hn) htne
        | some n =>
          rw [hn] at hids
          obtain ⟨m, hm⟩ : ∃ m, st'.tables.length = m + 1 :=
            ⟨st'.tables.length - 1, by have := List.length_pos_iff.2 htne; omega⟩
          rw [hm] at hids ⊢
          have : idsFrom cfg.target (some n) (m + 1) = idsFrom cfg.target (some n) m ++ [n + m] := by
            simp [idsFrom, List.range'_concat]
          rw [this] at hids
          exact (List.append_inj' hids rfl).1
      · have hp : st'.out.hasPending = true := (hasPending_iff l2.out).2 hw
        rw [if_pos hp]
        obtain ⟨t, f1, f2, f3⟩ := finish_spec cfg l2.out hw (List.pairwise_append.1 l2.asc).2.1 id
        simp only [hid, f1]
        refine ⟨_, parts' ++ [ws'], rfl, List.rel_append l2.tabs (.cons f3 .nil), ?_, hasc, ?_, by simp, ?_⟩
        · simpa using l3
        · simp only [List.map_append, List.map_cons, List.map_nil, f2, hids, List.length_append,
            List.length_cons, List.length_nil]
          rfl
        · intro t' ht'
          rcases List.mem_append.1 ht' with ht' | ht'
          · exact l2.cap t' ht'
          · rw [List.mem_singleton.1 ht', f3.rows, f3.file]
            change RowCap cfg (ws'.filterMap rowOf).length
            rw [← l2.out.rows]
            intro m hm
            rcases l2.open_ with h | h
            · exact absurd h hw
            · have := h m hm; omega
    · right
      exact ⟨e, by rw [l1], l2⟩

/-- A merge of sorted sources that deliver everything. -/
theorem execute_spec (cfg : Cfg K R) (H : Heap K) (next : Option Nat) (inputs : List (List (Batch K R)))
    (hd : ∀ bs ∈ inputs, Delivers bs)
    (hs : ∀ bs ∈ inputs, ∀ k, (allItems bs k).Pairwise (fun a b => a.1 ≤ b.1)) :
    ∃ L, NewestList (InInputs inputs) L ∧
      ((L = [] ∧ execute cfg H next inputs = .error .emptyInput) ∨
       (L ≠ [] ∧ ∃ tables parts, execute cfg H next inputs = .ok tables ∧
          List.Forall₂ (TableRep cfg) tables parts ∧ parts.flatten = L ∧ Asc L ∧
          tables.map (·.id) = idsFrom cfg.target next (tables.length - 1) ∧ tables ≠ [] ∧
          (∀ t ∈ tables, RowCap cfg t.stats.rows)) ∨
       ∃ e, execute cfg H next inputs = .error e ∧ Excuse cfg next L.length e) := by
  have hsrc : SrcInv (inputs.map (fun bs => (Cursor.new bs).ensure))
      (entries 0 (inputs.map (fun bs => (Cursor.new bs).ensure))) := by
    refine ⟨?_, List.Perm.refl _⟩
    intro c hc
    obtain ⟨bs, hbs, rfl⟩ := List.mem_map.1 hc
    exact ⟨hd bs hbs, fun k => by rw [pend_new]; exact hs bs hbs k⟩
  have hleft : Left (inputs.map (fun bs => (Cursor.new bs).ensure)) = InInputs inputs :=
    funext fun p => propext (left_inputs inputs p)
  obtain ⟨L, hL, hres⟩ := execute_gen (steps_newest H) cfg next inputs hsrc
    (by
      intro srcs heap hi hne hL
      obtain ⟨e, he⟩ := List.exists_mem_of_ne_nil _ hne
      obtain ⟨c, _, hc, hhead⟩ := mem_entries (hi.heap.mem_iff.1 he)
      rw [headOf_rem] at hhead
      cases hr : rem c e.kind with
      | nil => rw [hr] at hhead; cases hhead
      | cons x t =>
        obtain ⟨w, hw, _⟩ := hL.covers x ⟨c, List.mem_of_getElem? hc, e.kind, by rw [pend, hr]; simp⟩
        cases hw)
  rw [hleft] at hL
  exact ⟨L, hL, hres⟩

end Tonbo.Lemmas.Compact
