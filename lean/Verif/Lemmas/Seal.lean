import Verif.Lemmas.Mem

/-! # Sealing a memtable keeps its content -/

set_option linter.unusedSectionVars false

namespace Tonbo.Lemmas.Mem
open Tonbo.Model Tonbo.Model.Mem Tonbo.Spec Tonbo.Lemmas.Scan

variable {K R : Type} [LinearOrder K]

theorem smap_insert_last {α β : Type} [LinearOrder α] {l : List (α × β)} {k : α} {v : β}
    (h : ∀ p ∈ l, p.1 < k) : SMap.insert k v l = l ++ [(k, v)] := by
  induction l with
  | nil => rfl
  | cons q l ih =>
    obtain ⟨a, b⟩ := q
    have ha : a < k := h (a, b) List.mem_cons_self
    simp only [SMap.insert]
    rw [if_neg (lt_asymm ha), if_neg (ne_of_gt ha), ih (fun p hp => h p (List.mem_cons_of_mem _ hp))]
    rfl

/-- Rows of the upserts of an index, in order. -/
def ups (s : Inner K R) : List (KT K × Loc) → List (KT K × R)
  | [] => []
  | (kt, .up b r) :: rest =>
    match getUp s b r with
    | some (row, _) => (kt, row) :: ups s rest
    | none => ups s rest
  | (_, .dl _ _) :: rest => ups s rest

/-- Deleted keys of an index, in order. -/
def dls : List (KT K × Loc) → List (KT K)
  | [] => []
  | (_, .up _ _) :: rest => dls rest
  | (kt, .dl _ _) :: rest => kt :: dls rest

/-- The metadata list of the first pass. -/
def metas : List (KT K × Loc) → List (Nat × Bool)
  | [] => []
  | (kt, .up _ _) :: rest => (kt.ts, true) :: metas rest
  | (kt, .dl _ _) :: rest => (kt.ts, false) :: metas rest

/-- The index of the sealed table. -/
def sidx : List (KT K × Loc) → Nat → List (KT K × Option Nat)
  | [], _ => []
  | (kt, .up _ _) :: rest, u => (kt, some u) :: sidx rest (u + 1)
  | (kt, .dl _ _) :: rest, u => (kt, none) :: sidx rest u

theorem sealPass1_eq {ext : R → Option K} {s : Inner K R} :
    ∀ (ix : List (KT K × Loc)) (a : SealAcc K R), (∀ e ∈ ix, Points ext s e) →
      sealPass1 s ix a = some
        { rows := a.rows ++ (ups s ix).map (·.2), ts := a.ts ++ (ups s ix).map (·.1.ts),
          dkeys := a.dkeys ++ (dls ix).map (·.key), dts := a.dts ++ (dls ix).map (·.ts),
          meta_ := a.meta_ ++ metas ix }
  | [], a, _ => by simp [sealPass1, ups, dls, metas]
  | (kt, .up b r) :: rest, a, h => by
    obtain ⟨row, hg, _⟩ := h _ List.mem_cons_self
    simp only at hg
    simp only [sealPass1, hg, ups, dls, metas]
    rw [sealPass1_eq rest _ (fun e he => h e (List.mem_cons_of_mem _ he))]
    simp
  | (kt, .dl b r) :: rest, a, h => by
    have hg : getDl s b r = some (kt.key, kt.ts) := h _ List.mem_cons_self
    simp only [sealPass1, hg, ups, dls, metas]
    rw [sealPass1_eq rest _ (fun e he => h e (List.mem_cons_of_mem _ he))]
    simp

theorem ups_keys {ext : R → Option K} {s : Inner K R} :
    ∀ (ix : List (KT K × Loc)), (∀ e ∈ ix, Points ext s e) →
      ((ups s ix).map (·.2)).mapM ext = some ((ups s ix).map (·.1.key))
  | [], _ => by simp [ups]
  | (kt, .up b r) :: rest, h => by
    obtain ⟨row, hg, he⟩ := h _ List.mem_cons_self
    simp only at hg he
    have := ups_keys (ext := ext) (s := s) rest (fun e he => h e (List.mem_cons_of_mem _ he))
    simp only [ups, hg, List.map_cons, List.mapM_cons, he, this]
    simp
  | (kt, .dl b r) :: rest, h => by
    have := ups_keys (ext := ext) (s := s) rest (fun e he => h e (List.mem_cons_of_mem _ he))
    simpa [ups] using this

theorem sealPass2_eq {ext : R → Option K} {s : Inner K R} (uk dk : List K) :
    ∀ (rest : List (KT K × Loc)) (u d : Nat) (ix : List (KT K × Option Nat)),
      (∀ e ∈ rest, Points ext s e) → SMap.Sorted rest →
      (∀ p ∈ ix, ∀ e ∈ rest, p.1 < e.1) →
      (∀ j, ((ups s rest).map (·.1.key))[j]? = none ∨
        uk[u + j]? = ((ups s rest).map (·.1.key))[j]?) →
      (∀ j, ((dls rest).map (·.key))[j]? = none ∨ dk[d + j]? = ((dls rest).map (·.key))[j]?) →
      sealPass2 uk dk (metas rest) u d ix = some (ix ++ sidx rest u)
  | [], u, d, ix, _, _, _, _, _ => by simp [metas, sealPass2, sidx]
  | (kt, .up b r) :: rest, u, d, ix, hp, hs, hlt, hu, hd => by
    obtain ⟨row, hg, _⟩ := hp _ List.mem_cons_self
    simp only at hg
    have hk : uk[u]? = some kt.key := by
      have := hu 0
      simpa [ups, hg] using this
    have hs' := List.pairwise_cons.1 hs
    simp only [metas, sealPass2, hk, sidx]
    rw [smap_insert_last (fun p hp => hlt p hp _ List.mem_cons_self)]
    rw [sealPass2_eq (ext := ext) (s := s) uk dk rest (u + 1) d _
      (fun e he => hp e (List.mem_cons_of_mem _ he)) hs'.2]
    · simp
    · intro p hp' e he
      rcases List.mem_append.1 hp' with h | h
      · exact hlt p h e (List.mem_cons_of_mem _ he)
      · simp at h; subst h; exact hs'.1 e he
    · intro j
      have := hu (j + 1)
      simp only [ups, hg, List.map_cons, List.getElem?_cons_succ] at this
      rw [show u + 1 + j = u + (j + 1) by omega]
      exact this
    · intro j
      simpa [dls] using hd j
  | (kt, .dl b r) :: rest, u, d, ix, hp, hs, hlt, hu, hd => by
    have hk : dk[d]? = some kt.key := by
      have := hd 0
      simpa [dls] using this
    have hs' := List.pairwise_cons.1 hs
    simp only [metas, sealPass2, hk, sidx]
    rw [smap_insert_last (fun p hp => hlt p hp _ List.mem_cons_self)]
    rw [sealPass2_eq (ext := ext) (s := s) uk dk rest u (d + 1) _
      (fun e he => hp e (List.mem_cons_of_mem _ he)) hs'.2]
    · simp
    · intro p hp' e he
      rcases List.mem_append.1 hp' with h | h
      · exact hlt p h e (List.mem_cons_of_mem _ he)
      · simp at h; subst h; exact hs'.1 e he
    · intro j
      simpa [ups] using hu j
    · intro j
      have := hd (j + 1)
      simp only [dls, List.map_cons, List.getElem?_cons_succ] at this
      rw [show d + 1 + j = d + (j + 1) by omega]
      exact this

/-- The sealed table of a well-formed table. -/
def sealed (s : Inner K R) : Imm K R :=
  { rows := (ups s s.index).map (·.2), ts := (ups s s.index).map (·.1.ts),
    tomb := (ups s s.index).map (fun _ => false),
    dkeys := (dls s.index).map (·.key), dts := (dls s.index).map (·.ts),
    index := sidx s.index 0 }

theorem seal_eq {ext : R → Option K} {s : Inner K R} (hw : WF ext s) (hne : s.index ≠ []) :
    sealInner ext s = (.ok (some (sealed s)), Inner.new s.cap) := by
  unfold sealInner
  rw [if_neg hne, sealPass1_eq s.index _ hw.points]
  simp only [List.nil_append]
  rw [ups_keys _ hw.points]
  simp only
  rw [sealPass2_eq (ext := ext) (s := s) _ _ s.index 0 0 [] hw.points hw.sorted (by simp)
    (by simp) (by simp)]
  simp [sealed, Inner.new, List.map_map, Function.comp_def]

/-! ## The sealed table -/

/-- The mutation a sealed index entry stands for. -/
def Imm.res (m : Imm K R) : Option Nat → Option (Mut R)
  | none => some .del
  | some i => m.rows[i]?.map .put

/-- A sealed index entry points at its row. -/
def Imm.Points (ext : R → Option K) (m : Imm K R) (e : KT K × Option Nat) : Prop :=
  ∀ i, e.2 = some i → ∃ row, m.rows[i]? = some row ∧ ext row = some e.1.key ∧
    m.ts[i]? = some e.1.ts ∧ m.tomb[i]? = some false

/-- The columns of a sealed memtable are the rows `U` and the deleted keys `X` of its index, in index
order. -/
structure Imm.Tidy (ext : R → Option K) (m : Imm K R) (U : List (KT K × R)) (X : List (KT K)) :
    Prop where
  rows : m.rows = U.map (·.2)
  ts : m.ts = U.map (·.1.ts)
  key : ∀ p ∈ U, ext p.2 = some p.1.key
  dkeys : m.dkeys = X.map (·.key)
  dts : m.dts = X.map (·.ts)
  usorted : U.Pairwise (fun a b => a.1 < b.1)
  xsorted : X.Pairwise (· < ·)
  up : ∀ kt r, (kt, r) ∈ U ↔ ∃ i, (kt, some i) ∈ m.index ∧ m.rows[i]? = some r
  del : ∀ kt, kt ∈ X ↔ (kt, none) ∈ m.index

/-- The invariant of a sealed memtable. -/
structure Imm.WF (ext : R → Option K) (m : Imm K R) : Prop where
  sorted : SMap.Sorted m.index
  points : ∀ e ∈ m.index, Imm.Points ext m e
  tidy : ∃ U X, Imm.Tidy ext m U X
  ne : m.index ≠ []

/-- The versions stored in a sealed memtable. -/
def Imm.Content (m : Imm K R) (w : Ver K R) : Prop :=
  ∃ e, (⟨w.key, w.ts⟩, e) ∈ m.index ∧ Imm.res m e = some w.op

theorem sidx_keys : ∀ (ix : List (KT K × Loc)) (u : Nat), (sidx ix u).map (·.1) = ix.map (·.1)
  | [], _ => rfl
  | (kt, .up _ _) :: rest, u => by simp [sidx, sidx_keys rest]
  | (kt, .dl _ _) :: rest, u => by simp [sidx, sidx_keys rest]

theorem sidx_mem {ext : R → Option K} {s : Inner K R} :
    ∀ (ix : List (KT K × Loc)) (u : Nat), (∀ e ∈ ix, Points ext s e) →
      ∀ kt o, (kt, o) ∈ sidx ix u →
        (∃ b r, (kt, Loc.dl b r) ∈ ix ∧ o = none) ∨
        (∃ b r row j, (kt, Loc.up b r) ∈ ix ∧ getUp s b r = some (row, kt.ts) ∧
          ext row = some kt.key ∧ o = some (u + j) ∧ (ups s ix)[j]? = some (kt, row))
  | [], u, _, kt, o, hm => by simp [sidx] at hm
  | (kt', .up b r) :: rest, u, h, kt, o, hm => by
    obtain ⟨row, hg, he⟩ := h _ List.mem_cons_self
    simp only at hg he
    simp only [sidx, List.mem_cons, Prod.mk.injEq] at hm
    rcases hm with ⟨rfl, rfl⟩ | hm
    · exact .inr ⟨b, r, row, 0, List.mem_cons_self, hg, he, rfl, by simp [ups, hg]⟩
    · rcases sidx_mem rest (u + 1) (fun e he => h e (List.mem_cons_of_mem _ he)) kt o hm with
        ⟨b', r', h1, h2⟩ | ⟨b', r', row', j, h1, h2, h3, h4, h5⟩
      · exact .inl ⟨b', r', List.mem_cons_of_mem _ h1, h2⟩
      · exact .inr ⟨b', r', row', j + 1, List.mem_cons_of_mem _ h1, h2, h3,
          by rw [h4]; congr 1; omega, by simpa [ups, hg] using h5⟩
  | (kt', .dl b r) :: rest, u, h, kt, o, hm => by
    simp only [sidx, List.mem_cons, Prod.mk.injEq] at hm
    rcases hm with ⟨rfl, rfl⟩ | hm
    · exact .inl ⟨b, r, List.mem_cons_self, rfl⟩
    · rcases sidx_mem rest u (fun e he => h e (List.mem_cons_of_mem _ he)) kt o hm with
        ⟨b', r', h1, h2⟩ | ⟨b', r', row', j, h1, h2, h3, h4, h5⟩
      · exact .inl ⟨b', r', List.mem_cons_of_mem _ h1, h2⟩
      · exact .inr ⟨b', r', row', j, List.mem_cons_of_mem _ h1, h2, h3, h4,
          by simpa [ups] using h5⟩

theorem ups_sub {ext : R → Option K} {s : Inner K R} :
    ∀ (ix : List (KT K × Loc)), (∀ e ∈ ix, Points ext s e) →
      ((ups s ix).map (·.1)).Sublist (ix.map (·.1)) ∧ (∀ p ∈ ups s ix, ext p.2 = some p.1.key)
  | [], _ => by simp [ups]
  | (kt, .up b r) :: rest, h => by
    obtain ⟨row, hg, he⟩ := h _ List.mem_cons_self
    simp only at hg he
    obtain ⟨i1, i2⟩ := ups_sub rest (fun e he => h e (List.mem_cons_of_mem _ he))
    simp only [ups, hg, List.map_cons]
    refine ⟨i1.cons_cons _, ?_⟩
    intro p hp
    rcases List.mem_cons.1 hp with rfl | hp
    · exact he
    · exact i2 p hp
  | (kt, .dl b r) :: rest, h => by
    obtain ⟨i1, i2⟩ := ups_sub rest (fun e he => h e (List.mem_cons_of_mem _ he))
    simp only [ups, List.map_cons]
    exact ⟨i1.cons _, i2⟩

theorem dls_sub : ∀ (ix : List (KT K × Loc)), (dls ix).Sublist (ix.map (·.1))
  | [] => by simp [dls]
  | (_, .up _ _) :: rest => (dls_sub rest).cons _
  | (_, .dl _ _) :: rest => (dls_sub rest).cons_cons _

theorem sidx_del : ∀ (ix : List (KT K × Loc)) (u : Nat) (kt : KT K), kt ∈ dls ix ↔ (kt, none) ∈ sidx ix u
  | [], _, _ => by simp [dls, sidx]
  | (_, .up _ _) :: rest, u, kt => by simp [dls, sidx, sidx_del rest (u + 1) kt]
  | (_, .dl _ _) :: rest, u, kt => by simp [dls, sidx, sidx_del rest u kt]

theorem sidx_up {ext : R → Option K} {s : Inner K R} : ∀ (ix : List (KT K × Loc)) (u : Nat),
    (∀ e ∈ ix, Points ext s e) → ∀ (j : Nat) (kt : KT K) (r : R), (ups s ix)[j]? = some (kt, r) →
      (kt, some (u + j)) ∈ sidx ix u
  | [], _, _, j, kt, r, hj => by simp [ups] at hj
  | (kt', .up b r') :: rest, u, h, j, kt, r, hj => by
    obtain ⟨row, hg, _⟩ := h _ List.mem_cons_self
    simp only at hg
    simp only [ups, hg] at hj
    cases j with
    | zero =>
      simp only [List.getElem?_cons_zero, Option.some.injEq, Prod.mk.injEq] at hj
      obtain ⟨rfl, rfl⟩ := hj
      simp [sidx]
    | succ j =>
      simp only [List.getElem?_cons_succ] at hj
      have := sidx_up rest (u + 1) (fun e he => h e (List.mem_cons_of_mem _ he)) j kt r hj
      rw [show u + 1 + j = u + (j + 1) by omega] at this
      exact List.mem_cons_of_mem _ this
  | (kt', .dl b r') :: rest, u, h, j, kt, r, hj => by
    simp only [ups] at hj
    exact List.mem_cons_of_mem _
      (sidx_up rest u (fun e he => h e (List.mem_cons_of_mem _ he)) j kt r hj)

theorem sealed_tidy {ext : R → Option K} {s : Inner K R} (hw : WF ext s) :
    Imm.Tidy ext (sealed s) (ups s s.index) (dls s.index) := by
  obtain ⟨h1, h2⟩ := ups_sub s.index hw.points
  have hs : (s.index.map (·.1)).Pairwise (· < ·) := List.pairwise_map.2 hw.sorted
  refine ⟨rfl, rfl, h2, rfl, rfl, List.pairwise_map.1 (hs.sublist h1), hs.sublist (dls_sub _), ?_,
    fun kt => sidx_del _ _ _⟩
  intro kt r
  constructor
  · intro hm
    obtain ⟨j, hj⟩ := List.mem_iff_getElem?.1 hm
    refine ⟨j, ?_, by simp [sealed, hj]⟩
    simpa [sealed] using sidx_up s.index 0 hw.points j kt r hj
  · rintro ⟨i, hi, hr⟩
    rcases sidx_mem s.index 0 hw.points kt _ hi with ⟨_, _, _, h⟩ | ⟨b, r', row, j, _, _, _, h4, h5⟩
    · cases h
    · simp only [Nat.zero_add, Option.some.injEq] at h4
      subst h4
      simp only [sealed, List.getElem?_map, h5, Option.map_some, Option.some.injEq] at hr
      subst hr
      exact List.mem_of_getElem? h5

theorem sealed_wf {ext : R → Option K} {s : Inner K R} (hw : WF ext s) (hne : s.index ≠ []) :
    Imm.WF ext (sealed s) := by
  refine ⟨?_, ?_, ?_, ?_⟩
  · unfold SMap.Sorted
    rw [← List.pairwise_map (f := Prod.fst) (R := fun a b => a < b)]
    show List.Pairwise _ ((sidx s.index 0).map (·.1))
    rw [sidx_keys, List.pairwise_map]
    exact hw.sorted
  · rintro ⟨kt, o⟩ he i hi
    simp only at hi
    subst hi
    rcases sidx_mem s.index 0 hw.points kt _ he with ⟨_, _, _, h⟩ | ⟨b, r, row, j, h1, h2, h3, h4, h5⟩
    · cases h
    · simp only [Nat.zero_add, Option.some.injEq] at h4
      subst h4
      refine ⟨row, ?_, h3, ?_, ?_⟩ <;> simp [sealed, h5]
  · exact ⟨_, _, sealed_tidy hw⟩
  · intro e
    have := congrArg (List.map (·.1)) (show sidx s.index 0 = [] from e)
    rw [sidx_keys] at this
    exact hne (List.map_eq_nil_iff.1 this)

/-- A sealed memtable holds something. -/
theorem Imm.exists_content {ext : R → Option K} {m : Imm K R} (h : Imm.WF ext m) :
    ∃ w, Imm.Content m w := by
  obtain ⟨⟨kt, o⟩, he⟩ := List.exists_mem_of_ne_nil _ h.ne
  have hp := h.points _ he
  cases o with
  | none => exact ⟨⟨kt.key, kt.ts, .del⟩, none, he, rfl⟩
  | some i =>
    obtain ⟨row, h1, _⟩ := hp i rfl
    exact ⟨⟨kt.key, kt.ts, .put row⟩, some i, he, by simp [Imm.res, h1]⟩

theorem sealed_content {ext : R → Option K} {s : Inner K R} (hw : WF ext s) (w : Ver K R) :
    Imm.Content (sealed s) w ↔ Content s s.index w := by
  constructor
  · rintro ⟨o, hm, hr⟩
    rcases sidx_mem s.index 0 hw.points _ _ hm with ⟨b, r, h, rfl⟩ | ⟨b, r, row, j, h1, h2, h3, h4, h5⟩
    · exact ⟨_, h, by simpa [Imm.res, res] using hr⟩
    · simp only [Nat.zero_add] at h4
      subst h4
      refine ⟨_, h1, ?_⟩
      simp only [Imm.res, sealed, List.getElem?_map, h5] at hr
      simpa [res, h2] using hr
  · rintro ⟨loc, hm, hr⟩
    have hk : (⟨w.key, w.ts⟩ : KT K) ∈ (sidx s.index 0).map (·.1) := by
      rw [sidx_keys]; exact List.mem_map.2 ⟨_, hm, rfl⟩
    obtain ⟨⟨kt, o⟩, ho, e⟩ := List.mem_map.1 hk
    simp only at e
    subst e
    refine ⟨o, ho, ?_⟩
    rcases sidx_mem s.index 0 hw.points _ _ ho with ⟨b, r, h, rfl⟩ | ⟨b, r, row, j, h1, h2, h3, h4, h5⟩
    · have := SMap.sorted_unique hw.sorted hm h rfl
      simp only [Prod.mk.injEq, true_and] at this
      subst this
      simpa [Imm.res, res] using hr
    · have := SMap.sorted_unique hw.sorted hm h1 rfl
      simp only [Prod.mk.injEq, true_and] at this
      subst this
      simp only [Nat.zero_add] at h4
      subst h4
      simp only [res, h2] at hr
      simpa [Imm.res, sealed, h5] using hr

/-- A sealed index with the mutations looked up. -/
def Imm.resolve (m : Imm K R) (ix : List (KT K × Option Nat)) : List (KT K × Mut R) :=
  ix.map (fun e => (e.1, (Imm.res m e.2).getD .del))

theorem Imm.scanLoop_eq {ext : R → Option K} {m : Imm K R} {rts : Nat} :
    ∀ (ix : List (KT K × Option Nat)) (cur : Option K) (em : Bool),
      (∀ e ∈ ix, Imm.Points ext m e) →
      Mem.Imm.scanLoop m rts ix cur em =
        some ((scanG rts (Imm.resolve m ix) cur em).map (fun e => mkEntry e.1 e.2))
  | [], cur, em, _ => by simp [Mem.Imm.scanLoop, Imm.resolve, scanG]
  | (kt, o) :: rest, cur, em, h => by
    have ih := fun cur em => Imm.scanLoop_eq (ext := ext) (m := m) (rts := rts) rest cur em
      (fun e he => h e (List.mem_cons_of_mem _ he))
    have hp := h _ List.mem_cons_self
    simp only [Mem.Imm.scanLoop, Imm.resolve, List.map_cons, scanG]
    split
    · exact ih _ _
    · split
      · exact ih _ _
      · rename_i hts
        cases o with
        | none => simp [ih, Imm.res, mkEntry, Imm.resolve]
        | some i =>
          obtain ⟨row, h1, _, h3, h4⟩ := hp i rfl
          simp only at h3
          simp [ih, Imm.res, mkEntry, h1, h3, h4, Imm.resolve, hts]

theorem Imm.scanLoop_spec {ext : R → Option K} {m : Imm K R} (hw : Imm.WF ext m) {rts : Nat}
    {f : K → Bool} {g : KT K × Option Nat → Bool} (hg : ∀ e ∈ m.index, g e = f e.1.key) :
    ∃ out, Mem.Imm.scanLoop m rts (m.index.filter g) none false = some out ∧
      IsVersionScan (Imm.Content m) rts (fun k => f k = true) (out.map toVer) := by
  have hsub : ∀ e ∈ m.index.filter g, e ∈ m.index ∧ f e.1.key = true := by
    intro e he
    have := List.mem_filter.1 he
    exact ⟨this.1, by rw [← hg e this.1]; exact this.2⟩
  have hs : SMap.Sorted (Imm.resolve m (m.index.filter g)) := by
    unfold SMap.Sorted Imm.resolve
    rw [List.pairwise_map]
    exact List.Pairwise.filter _ hw.sorted
  refine ⟨_, Imm.scanLoop_eq _ none false (fun e he => hw.points e (hsub e he).1), ?_, ?_⟩
  · rw [List.map_map, List.pairwise_map]
    refine List.Pairwise.imp ?_ (scanG_sorted hs (by simp))
    intro a b hab
    simpa [toVer_mkEntry] using hab
  · intro w
    have hmemres : ∀ (kt : KT K) (mu : Mut R), (kt, mu) ∈ Imm.resolve m (m.index.filter g) ↔
        (f kt.key = true ∧ Imm.Content m ⟨kt.key, kt.ts, mu⟩) := by
      intro kt mu
      simp only [Imm.resolve, List.mem_map, Prod.mk.injEq]
      constructor
      · rintro ⟨e, he, rfl, rfl⟩
        refine ⟨(hsub e he).2, e.2, (hsub e he).1, ?_⟩
        have hp := hw.points e (hsub e he).1
        obtain ⟨kt, o⟩ := e
        cases o with
        | none => rfl
        | some i => obtain ⟨row, h1, _⟩ := hp i rfl; simp [Imm.res, h1]
      · rintro ⟨hf, o, hm, hr⟩
        refine ⟨(kt, o), List.mem_filter.2 ⟨hm, by rw [hg _ hm]; exact hf⟩, rfl, ?_⟩
        simp only at hr
        simp [hr]
    constructor
    · intro hw'
      obtain ⟨e, he, rfl⟩ := List.mem_map.1 hw'
      obtain ⟨⟨kt, mu⟩, hm, rfl⟩ := List.mem_map.1 he
      rw [scanG_mem hs (by simp)] at hm
      obtain ⟨h1, h2, _, h4⟩ := hm
      rw [toVer_mkEntry]
      have := (hmemres kt mu).1 h1
      refine ⟨this.1, this.2, h2, ?_⟩
      intro u hu hk ht
      have hu' : (⟨u.key, u.ts⟩, u.op) ∈ Imm.resolve m (m.index.filter g) :=
        (hmemres ⟨u.key, u.ts⟩ u.op).2 ⟨by simp at hk; rw [hk]; exact this.1, hu⟩
      exact h4 _ hu' hk ht
    · rintro ⟨hf, hc, ht, hn⟩
      refine List.mem_map.2 ⟨mkEntry ⟨w.key, w.ts⟩ w.op, ?_, by rw [toVer_mkEntry]⟩
      refine List.mem_map.2 ⟨(⟨w.key, w.ts⟩, w.op), ?_, rfl⟩
      rw [scanG_mem hs (by simp)]
      refine ⟨(hmemres _ _).2 ⟨hf, hc⟩, ht, by simp, ?_⟩
      intro q hq hk hqt
      have := (hmemres q.1 q.2).1 hq
      exact hn ⟨q.1.key, q.1.ts, q.2⟩ this.2 hk hqt

/-! ## A scan answer is unique -/

omit [LinearOrder K] in
theorem toVer_injective : Function.Injective (toVer : Entry K R → Ver K R) := by
  intro a b h
  cases a <;> cases b <;> simp [toVer] at h
  · rename_i k1 r1 k2 r2; cases k1; cases k2; simp_all
  · rename_i k1 k2; cases k1; cases k2; simp_all

theorem pairwise_key_ext {α : Type} (key : α → K) {l l' : List α}
    (h : l.Pairwise (fun a b => key a < key b)) (h' : l'.Pairwise (fun a b => key a < key b))
    (e : ∀ p, p ∈ l ↔ p ∈ l') : l = l' := by
  have := SMap.sorted_ext (l := l.map (fun a => (key a, a))) (l' := l'.map (fun a => (key a, a)))
    (by unfold SMap.Sorted; rw [List.pairwise_map]; exact h)
    (by unfold SMap.Sorted; rw [List.pairwise_map]; exact h')
    (by intro p; simp only [List.mem_map]; constructor <;> rintro ⟨a, ha, rfl⟩
        · exact ⟨a, (e a).1 ha, rfl⟩
        · exact ⟨a, (e a).2 ha, rfl⟩)
  have h2 := congrArg (List.map Prod.snd) this
  simpa [List.map_map, Function.comp_def] using h2

theorem versionScan_unique {H : Ver K R → Prop} {rts : Nat} {p : K → Prop}
    {l l' : List (Ver K R)} (h : IsVersionScan H rts p l) (h' : IsVersionScan H rts p l') :
    l = l' :=
  pairwise_key_ext (fun v => v.key) h.1 h'.1 (fun w => (h.2 w).trans (h'.2 w).symm)

end Tonbo.Lemmas.Mem
