import Verif.Lemmas.ReadErr

set_option linter.unusedSectionVars false

namespace Tonbo.Lemmas.ReadE
open Tonbo.Model Tonbo.Model.Mem
open Tonbo.Model.Merge (Prio Poll HE hkey pushNext decr)
open Tonbo.Model.ReadE Tonbo.Spec.ReadE

variable {K R Q E α : Type} [LinearOrder K]

/-! ## The merge without errors next to the merge with errors -/

/-- Streams that agree up to their first error. -/
def Agree (ss : List (Prio × List (Ev (Entry K R) E))) (cs : List (Prio × List (Option (Entry K R)))) : Prop :=
  List.Forall₂ (fun a b => a.1 = b.1 ∧ Compl a.2 b.2) ss cs

theorem agree_get {ss : List (Prio × List (Ev (Entry K R) E))} {cs : List (Prio × List (Option (Entry K R)))} (h : Agree ss cs)
    {i : Nat} {p : Prio} {s : List (Ev (Entry K R) E)} (hi : ss[i]? = some (p, s)) : ∃ c, cs[i]? = some (p, c) ∧ Compl s c := by
  induction h generalizing i with
  | nil => simp at hi
  | @cons a b ss cs hab _ ih =>
    cases i with
    | zero =>
      simp only [List.getElem?_cons_zero, Option.some.injEq] at hi
      subst hi
      obtain ⟨h1, h2⟩ := hab
      simp only at h1 h2
      subst h1
      exact ⟨b.2, rfl, h2⟩
    | succ i => exact ih hi

theorem agree_set {ss : List (Prio × List (Ev (Entry K R) E))} {cs : List (Prio × List (Option (Entry K R)))} (h : Agree ss cs)
    (i : Nat) (p : Prio) {s : List (Ev (Entry K R) E)} {c : List (Option (Entry K R))} (hc : Compl s c) :
    Agree (ss.set i (p, s)) (cs.set i (p, c)) := by
  induction h generalizing i with
  | nil => exact .nil
  | @cons a b ss cs hab hr ih =>
    cases i with
    | zero => exact .cons ⟨rfl, hc⟩ hr
    | succ i => exact .cons hab (ih i)

/-- The two machines in step. -/
structure Same (st : MSt K R E) (cl : Merge.St K R) : Prop where
  streams : Agree st.streams cl.streams
  heap : st.heap = cl.heap
  buf : st.buf = cl.buf
  limit : st.limit = cl.limit

/-- The same poll result, or an error on the side that has errors. -/
def SameRes : FRes K R E × MSt K R E → Poll (Option (Entry K R)) × Merge.St K R → Prop
  | (.pending, st), (.pending, cl) => Same st cl
  | (.ready none, _), (.ready none, _) => True
  | (.ready (some (.ok e)), st), (.ready (some e'), cl) => e = e' ∧ Same st cl
  | (.ready (some (.error _)), _), _ => True
  | _, _ => False

theorem pollLoop_same : ∀ (n : Nat) (st : MSt K R E) (m : Nat) (cl : Merge.St K R) (r : FRes K R E × MSt K R E)
    (r' : Poll (Option (Entry K R)) × Merge.St K R),
    Same st cl → pollLoop n st = some r → Merge.pollLoop m cl = some r' → SameRes r r' := by
  intro n
  induction n with
  | zero => intro st m cl r r' _ h; simp [pollLoop] at h
  | succ n ih =>
    intro st m cl r r' hs h h'
    cases m with
    | zero => simp [Merge.pollLoop] at h'
    | succ m =>
      simp only [pollLoop] at h
      simp only [Merge.pollLoop] at h'
      rw [← hs.heap, ← hs.buf] at h'
      rcases hh : st.heap with _ | ⟨⟨hk, i, e⟩, rest⟩
      · rw [hh] at h h'
        simp only [Option.some.injEq] at h h'
        subst h h'
        unfold drain Merge.drain
        rw [← hs.buf]
        cases hb : st.buf with
        | none => trivial
        | some b =>
          simp only
          split_ifs
          · trivial
          · exact ⟨rfl, hs.streams, hs.heap, rfl, by rw [hs.limit]⟩
      · rw [hh] at h h'
        simp only at h h'
        rcases hg : st.streams[i]? with _ | ⟨p, s⟩
        · rw [hg] at h; simp at h
        · obtain ⟨c, hc, hcs⟩ := agree_get hs.streams hg
          rw [hg] at h
          rw [hc] at h'
          simp only at h h'
          cases hcs with
          | nil =>
            simp only [pollStream, Merge.pollStream, pushNext] at h h'
            have hset := agree_set hs.streams i p (Compl.nil (α := Entry K R) (E := E))
            cases hb : st.buf with
            | none =>
              rw [hb] at h h'
              simp only at h h'
              refine ih _ m _ _ _ ?_ h h'; exact ⟨hset, rfl, rfl, hs.limit⟩
            | some b =>
              rw [hb] at h h'
              simp only at h h'
              split_ifs at h h' with c1 c2
              · refine ih _ m _ _ _ ?_ h h'; exact ⟨hset, rfl, rfl, hs.limit⟩
              · refine ih _ m _ _ _ ?_ h h'; exact ⟨hset, rfl, rfl, hs.limit⟩
              · simp only [Option.some.injEq] at h h'
                subst h h'
                exact ⟨rfl, hset, rfl, rfl, by rw [hs.limit]⟩
          | @pending s c hcs =>
            simp only [pollStream, Merge.pollStream, Option.some.injEq] at h h'
            subst h h'
            exact ⟨agree_set hs.streams i p hcs, rfl, rfl, hs.limit⟩
          | @item a s c hcs =>
            simp only [pollStream, Merge.pollStream] at h h'
            have hset := agree_set hs.streams i p hcs
            cases hb : st.buf with
            | none =>
              rw [hb] at h h'
              simp only at h h'
              refine ih _ m _ _ _ ?_ h h'; exact ⟨hset, rfl, rfl, hs.limit⟩
            | some b =>
              rw [hb] at h h'
              simp only at h h'
              split_ifs at h h' with c1 c2
              · refine ih _ m _ _ _ ?_ h h'; exact ⟨hset, rfl, rfl, hs.limit⟩
              · refine ih _ m _ _ _ ?_ h h'; exact ⟨hset, rfl, rfl, hs.limit⟩
              · simp only [Option.some.injEq] at h h'
                subst h h'
                exact ⟨rfl, hset, rfl, rfl, by rw [hs.limit]⟩
          | err =>
            simp only [pollStream, Option.some.injEq] at h
            subst h
            trivial

theorem poll_same {st : MSt K R E} {cl : Merge.St K R} {r : FRes K R E × MSt K R E} {r' : Poll (Option (Entry K R)) × Merge.St K R}
    (hs : Same st cl) (h : poll st = some r) (h' : Merge.poll cl = some r') : SameRes r r' := by
  unfold poll at h
  unfold Merge.poll at h'
  rw [← hs.limit] at h'
  split_ifs at h h'
  · simp only [Option.some.injEq] at h h'
    subst h h'
    trivial
  · exact pollLoop_same _ _ _ _ _ _ hs h h'

theorem trace_same : ∀ (n : Nat) (st : MSt K R E) (m : Nat) (cl : Merge.St K R) (evs : List (Ev (Entry K R) E))
    (tr : List (Option (Entry K R))), Same st cl → trace n st = some evs → Merge.trace m cl = some tr → Compl evs tr := by
  intro n
  induction n with
  | zero => intro st m cl evs tr _ h; simp [trace] at h
  | succ n ih =>
    intro st m cl evs tr hs h h'
    cases m with
    | zero => simp [Merge.trace] at h'
    | succ m =>
      simp only [trace] at h
      simp only [Merge.trace] at h'
      rcases hp : poll st with _ | r
      · rw [hp] at h; simp at h
      · rcases hq : Merge.poll cl with _ | r'
        · rw [hq] at h'; simp at h'
        · have hr := poll_same hs hp hq
          rw [hp] at h
          rw [hq] at h'
          rcases r with ⟨_ | _ | e | e, st'⟩ <;> rcases r' with ⟨_ | _ | e', cl'⟩ <;> simp only [SameRes] at hr
          · obtain ⟨e1, h1, rfl⟩ := Option.map_eq_some_iff.1 h
            obtain ⟨e2, h2, rfl⟩ := Option.map_eq_some_iff.1 h'
            exact .pending (ih _ _ _ _ _ hr h1 h2)
          · simp only [Option.some.injEq] at h h'
            subst h h'
            exact .nil
          · simp only [Option.some.injEq] at h; subst h; exact .err
          · simp only [Option.some.injEq] at h; subst h; exact .err
          · simp only [Option.some.injEq] at h; subst h; exact .err
          · obtain ⟨e1, h1, rfl⟩ := Option.map_eq_some_iff.1 h
            obtain ⟨e2, h2, rfl⟩ := Option.map_eq_some_iff.1 h'
            obtain ⟨rfl, hr⟩ := hr
            exact .item (ih _ _ _ _ _ hr h1 h2)

theorem nextReady_same {s : List (Ev (Entry K R) E)} {c : List (Option (Entry K R))} (h : Compl s c) {x : Option (Entry K R)}
    {s' : List (Ev (Entry K R) E)} (hn : nextReady s = .ok (x, s')) : (Merge.nextReady c).1 = x ∧ Compl s' (Merge.nextReady c).2 := by
  induction h with
  | nil =>
    simp only [nextReady, Except.ok.injEq, Prod.mk.injEq] at hn
    obtain ⟨rfl, rfl⟩ := hn
    exact ⟨rfl, .nil⟩
  | pending _ ih => exact ih hn
  | item hc =>
    simp only [nextReady, Except.ok.injEq, Prod.mk.injEq] at hn
    obtain ⟨rfl, rfl⟩ := hn
    exact ⟨rfl, hc⟩
  | err => simp [nextReady] at hn

theorem fromVec_same {ss : List (Prio × List (Ev (Entry K R) E))} {cs : List (Prio × List (Option (Entry K R)))} (h : Agree ss cs) :
    ∀ (i : Nat) (heap : List (HE K R)) (ss' : List (Prio × List (Ev (Entry K R) E))) (heap' : List (HE K R)),
      fromVecLoop i ss heap = .ok (ss', heap') →
        (Merge.fromVecLoop i cs heap).2 = heap' ∧ Agree ss' (Merge.fromVecLoop i cs heap).1 := by
  induction h with
  | nil =>
    intro i heap ss' heap' h
    simp only [fromVecLoop, Except.ok.injEq, Prod.mk.injEq] at h
    obtain ⟨rfl, rfl⟩ := h
    exact ⟨rfl, .nil⟩
  | @cons a b ss cs hab _ ih =>
    intro i heap ss' heap' h
    obtain ⟨p, s⟩ := a
    obtain ⟨q, c⟩ := b
    obtain ⟨hpq, hc⟩ := hab
    simp only at hpq hc
    subst hpq
    simp only [fromVecLoop] at h
    rcases hn : nextReady s with e | ⟨x, s'⟩
    · rw [hn] at h; simp at h
    · rw [hn] at h
      simp only at h
      obtain ⟨n1, n2⟩ := nextReady_same hc hn
      rcases hf : fromVecLoop (i + 1) ss (pushNext i p x heap) with e | ⟨ss1, h1⟩
      · rw [hf] at h; simp at h
      · rw [hf] at h
        simp only [Except.ok.injEq, Prod.mk.injEq] at h
        obtain ⟨rfl, rfl⟩ := h
        obtain ⟨i1, i2⟩ := ih _ _ _ _ hf
        simp only [Merge.fromVecLoop, n1]
        exact ⟨i1, .cons ⟨rfl, n2⟩ i2⟩

/-! ## The merge with errors ends, and reads everything -/

/-- Every entry of the heap names a stream, and every stream that is not at its end has an entry in the heap. -/
structure Fine (st : MSt K R E) : Prop where
  index : ∀ x ∈ st.heap, x.2.1 < st.streams.length ∧ ∃ p, x.1 = hkey x.2.1 p x.2.2
  there : ∀ (i : Nat) (p : Prio) (s : List (Ev (Entry K R) E)), st.streams[i]? = some (p, s) → s = [] ∨ ∃ x ∈ st.heap, x.2.1 = i

/-- No error to come. -/
def CleanM (st : MSt K R E) : Prop := ∀ ps ∈ st.streams, Clean ps.2

theorem sum_set {l : List (Prio × List (Ev (Entry K R) E))} {i : Nat} {p q : Prio} {s s' : List (Ev (Entry K R) E)}
    (h : l[i]? = some (p, s)) :
    ((l.set i (q, s')).map (·.2.length)).sum + s.length = (l.map (·.2.length)).sum + s'.length := by
  induction l generalizing i with
  | nil => simp at h
  | cons a l ih =>
    cases i with
    | zero => simp at h; subst h; simp; omega
    | succ i =>
      simp at h
      have := ih h
      simp only [List.set_cons_succ, List.map_cons, List.sum_cons]
      omega

theorem insert_length {α β : Type} [LinearOrder α] (k : α) (v : β) (l : List (α × β)) : (SMap.insert k v l).length ≤ l.length + 1 := by
  induction l with
  | nil => simp [SMap.insert]
  | cons a l ih =>
    simp only [SMap.insert]
    split_ifs
    · simp
    · simp
    · simpa using ih

theorem insert_self {α β : Type} [LinearOrder α] (k : α) (v : β) (l : List (α × β)) : (k, v) ∈ SMap.insert k v l := by
  induction l with
  | nil => simp [SMap.insert]
  | cons a l ih =>
    simp only [SMap.insert]
    split_ifs
    · simp
    · simp
    · exact List.mem_cons_of_mem _ ih

theorem insert_keeps {α β : Type} [LinearOrder α] (k : α) (v : β) {l : List (α × β)} {y : α × β} (h : y ∈ l) :
    y ∈ SMap.insert k v l ∨ y.1 = k := by
  induction l with
  | nil => simp at h
  | cons a l ih =>
    simp only [SMap.insert]
    split_ifs with h1 h2
    · exact .inl (List.mem_cons_of_mem _ h)
    · rcases List.mem_cons.1 h with rfl | h
      · exact .inr h2.symm
      · exact .inl (List.mem_cons_of_mem _ h)
    · rcases List.mem_cons.1 h with rfl | h
      · exact .inl List.mem_cons_self
      · rcases ih h with h | h
        · exact .inl (List.mem_cons_of_mem _ h)
        · exact .inr h

theorem clean_set {st : List (Prio × List (Ev (Entry K R) E))} {i : Nat} {p : Prio} {s s' : List (Ev (Entry K R) E)}
    (h : st[i]? = some (p, s)) (hc : Clean s' → Clean s) (h' : ∀ ps ∈ st.set i (p, s'), Clean ps.2) : ∀ ps ∈ st, Clean ps.2 := by
  intro ps hps
  obtain ⟨j, hj⟩ := List.mem_iff_getElem?.1 hps
  by_cases hij : i = j
  · subst hij
    rw [h] at hj
    cases hj
    refine hc (h' (p, s') (List.mem_iff_getElem?.2 ⟨i, ?_⟩))
    rw [List.getElem?_set_self (List.getElem?_eq_some_iff.1 h).1]
  · refine h' ps (List.mem_iff_getElem?.2 ⟨j, ?_⟩)
    rw [List.getElem?_set_ne hij]
    exact hj

/-- The head of the heap is replaced by the next item of its stream. -/
theorem fine_push {st : MSt K R E} (h : Fine st) {hk : Merge.HKey K} {i : Nat} {e : Entry K R} {rest : List (HE K R)}
    (hh : st.heap = (hk, i, e) :: rest) {p : Prio} {s : List (Ev (Entry K R) E)} (a : Entry K R) (b : Option (Entry K R)) (l : Option Nat) :
    Fine (⟨st.streams.set i (p, s), pushNext i p (some a) rest, b, l⟩ : MSt K R E) := by
  have hi : i < st.streams.length := (h.index (hk, i, e) (by rw [hh]; exact List.mem_cons_self)).1
  constructor
  · intro x hx
    simp only [List.length_set]
    rcases SMap.mem_insert_of_mem hx with rfl | hx
    · exact ⟨hi, p, rfl⟩
    · exact h.index x (by rw [hh]; exact List.mem_cons_of_mem _ hx)
  · intro j q s' hj
    by_cases hij : i = j
    · subst hij
      exact .inr ⟨_, insert_self _ _ _, rfl⟩
    · simp only at hj
      rw [List.getElem?_set_ne hij] at hj
      rcases h.there j q s' hj with h1 | ⟨x, hx, hxj⟩
      · exact .inl h1
      · right
        rw [hh] at hx
        rcases List.mem_cons.1 hx with rfl | hx
        · exact absurd hxj hij
        · rcases insert_keeps (hkey i p a) (i, a) hx with h2 | h2
          · exact ⟨x, h2, hxj⟩
          · obtain ⟨_, p', hp'⟩ := h.index x (by rw [hh]; exact List.mem_cons_of_mem _ hx)
            rw [hp'] at h2
            exact absurd ((Merge.hkey_inj h2).1.symm.trans hxj) hij

/-- The head of the heap is removed, its stream has ended. -/
theorem fine_pop {st : MSt K R E} (h : Fine st) {hk : Merge.HKey K} {i : Nat} {e : Entry K R} {rest : List (HE K R)}
    (hh : st.heap = (hk, i, e) :: rest) {p : Prio} (b : Option (Entry K R)) (l : Option Nat) :
    Fine (⟨st.streams.set i (p, []), rest, b, l⟩ : MSt K R E) := by
  constructor
  · intro x hx
    simp only [List.length_set]
    exact h.index x (by rw [hh]; exact List.mem_cons_of_mem _ hx)
  · intro j q s' hj
    by_cases hij : i = j
    · subst hij
      simp only at hj
      have hi : i < st.streams.length := (h.index (hk, i, e) (by rw [hh]; exact List.mem_cons_self)).1
      rw [List.getElem?_set_self hi] at hj
      cases hj
      exact .inl rfl
    · simp only at hj
      rw [List.getElem?_set_ne hij] at hj
      rcases h.there j q s' hj with h1 | ⟨x, hx, hxj⟩
      · exact .inl h1
      · rw [hh] at hx
        rcases List.mem_cons.1 hx with rfl | hx
        · exact absurd hxj hij
        · exact .inr ⟨x, hx, hxj⟩

/-- Work left, with the buffered entry. -/
def mu (st : MSt K R E) : Nat := st.size + st.buf.toList.length

/-- What one poll does. -/
def MergePost (st : MSt K R E) : FRes K R E × MSt K R E → Prop
  | (.pending, st') => Fine st' ∧ mu st' < mu st ∧ (CleanM st' → CleanM st) ∧ st'.limit = st.limit
  | (.ready none, _) => CleanM st
  | (.ready (some (.error _)), _) => True
  | (.ready (some (.ok _)), st') => Fine st' ∧ mu st' < mu st ∧ (CleanM st' → CleanM st) ∧ st'.limit = decr st.limit

theorem mergePost_mono {st st1 : MSt K R E} {r : FRes K R E × MSt K R E} (h : MergePost st1 r) (hm : mu st1 ≤ mu st)
    (hc : CleanM st1 → CleanM st) (hl : st1.limit = st.limit) : MergePost st r := by
  rcases r with ⟨_ | _ | _ | e, st'⟩
  · exact ⟨h.1, by have := h.2.1; omega, fun c => hc (h.2.2.1 c), h.2.2.2.trans hl⟩
  · exact hc h
  · trivial
  · exact ⟨h.1, by have := h.2.1; omega, fun c => hc (h.2.2.1 c), by rw [h.2.2.2, hl]⟩

theorem pollLoop_total : ∀ (n : Nat) (st : MSt K R E), Fine st → st.size < n → ∃ r, pollLoop n st = some r ∧ MergePost st r := by
  intro n
  induction n with
  | zero => intro st _ h; omega
  | succ n ih =>
    intro st hf hn
    simp only [pollLoop]
    rcases hh : st.heap with _ | ⟨⟨hk, i, e⟩, rest⟩
    · refine ⟨_, rfl, ?_⟩
      have hcl : CleanM st := by
        intro ps hps
        obtain ⟨j, hj⟩ := List.mem_iff_getElem?.1 hps
        rcases hf.there j ps.1 ps.2 hj with h1 | ⟨x, hx, _⟩
        · rw [h1]; exact clean_nil
        · rw [hh] at hx; simp at hx
      unfold drain
      cases hb : st.buf with
      | none => exact hcl
      | some b =>
        simp only
        split_ifs
        · exact hcl
        · refine ⟨⟨hf.index, hf.there⟩, ?_, id, rfl⟩
          simp only [mu, hb]
          exact Nat.lt_succ_self _
    · obtain ⟨hi, _⟩ := hf.index (hk, i, e) (by rw [hh]; exact List.mem_cons_self)
      simp only at hi
      obtain ⟨⟨p, s⟩, hg⟩ : ∃ x, st.streams[i]? = some x := ⟨_, List.getElem?_eq_getElem hi⟩
      simp only [hg]
      cases s with
      | nil =>
        have hsz : ∀ b l, MSt.size (⟨st.streams.set i (p, []), rest, b, l⟩ : MSt K R E) < st.size := by
          intro b l
          have := sum_set (q := p) (s' := []) hg
          simp only [MSt.size, hh, List.length_cons]
          simp only [List.length_nil] at this
          omega
        have hcl : ∀ b l, CleanM (⟨st.streams.set i (p, []), rest, b, l⟩ : MSt K R E) → CleanM st :=
          fun b l h => clean_set hg id h
        simp only [pollStream]
        cases hb : st.buf with
        | none =>
          simp only
          obtain ⟨r, h1, h2⟩ := ih _ (fine_pop hf hh (p := p) (some e) st.limit) (by have := hsz (some e) st.limit; omega)
          refine ⟨r, h1, mergePost_mono h2 ?_ (hcl _ _) rfl⟩
          have := hsz (some e) st.limit
          simp only [mu, hb]
          simp
          omega
        | some b =>
          simp only
          split_ifs
          · obtain ⟨r, h1, h2⟩ := ih _ (fine_pop hf hh (p := p) (some b) st.limit) (by have := hsz (some b) st.limit; omega)
            refine ⟨r, h1, mergePost_mono h2 ?_ (hcl _ _) rfl⟩
            have := hsz (some b) st.limit
            simp only [mu, hb]
            simp
            omega
          · obtain ⟨r, h1, h2⟩ := ih _ (fine_pop hf hh (p := p) (some e) st.limit) (by have := hsz (some e) st.limit; omega)
            refine ⟨r, h1, mergePost_mono h2 ?_ (hcl _ _) rfl⟩
            have := hsz (some e) st.limit
            simp only [mu, hb]
            simp
            omega
          · refine ⟨_, rfl, fine_pop hf hh (p := p) _ _, ?_, hcl _ _, rfl⟩
            have := hsz (some e) (decr st.limit)
            simp only [mu, hb]
            simp
            omega
      | cons a s =>
        have hlen := sum_set (q := p) (s' := s) hg
        simp only [List.length_cons] at hlen
        cases a with
        | pending =>
          refine ⟨_, rfl, ⟨?_, ?_⟩, ?_, fun h => clean_set hg (fun h => clean_cons h (by simp)) h, rfl⟩
          · intro x hx
            simp only [List.length_set]
            exact hf.index x (by rw [hh]; exact hx)
          · intro j q s' hj
            by_cases hij : i = j
            · subst hij
              exact .inr ⟨(hk, i, e), List.mem_cons_self, rfl⟩
            · simp only at hj
              rw [List.getElem?_set_ne hij] at hj
              have := hf.there j q s' hj
              rw [hh] at this
              exact this
          · simp only [mu, MSt.size, hh]
            omega
        | err x => exact ⟨_, rfl, trivial⟩
        | item a =>
          have hsz : ∀ b l, MSt.size (⟨st.streams.set i (p, s), pushNext i p (some a) rest, b, l⟩ : MSt K R E) < st.size := by
            intro b l
            have h1 := insert_length (hkey i p a) (i, a) rest
            simp only [MSt.size, pushNext, hh, List.length_cons]
            omega
          have hcl : ∀ b l, CleanM (⟨st.streams.set i (p, s), pushNext i p (some a) rest, b, l⟩ : MSt K R E) → CleanM st :=
            fun b l h => clean_set hg (fun h => clean_cons h (by simp)) h
          simp only [pollStream]
          cases hb : st.buf with
          | none =>
            simp only
            obtain ⟨r, h1, h2⟩ := ih _ (fine_push hf hh (p := p) (s := s) a (some e) st.limit) (by have := hsz (some e) st.limit; omega)
            refine ⟨r, h1, mergePost_mono h2 ?_ (hcl _ _) rfl⟩
            have := hsz (some e) st.limit
            simp only [mu, hb]
            simp
            omega
          | some b =>
            simp only
            split_ifs
            · obtain ⟨r, h1, h2⟩ := ih _ (fine_push hf hh (p := p) (s := s) a (some b) st.limit) (by have := hsz (some b) st.limit; omega)
              refine ⟨r, h1, mergePost_mono h2 ?_ (hcl _ _) rfl⟩
              have := hsz (some b) st.limit
              simp only [mu, hb]
              simp
              omega
            · obtain ⟨r, h1, h2⟩ := ih _ (fine_push hf hh (p := p) (s := s) a (some e) st.limit) (by have := hsz (some e) st.limit; omega)
              refine ⟨r, h1, mergePost_mono h2 ?_ (hcl _ _) rfl⟩
              have := hsz (some e) st.limit
              simp only [mu, hb]
              simp
              omega
            · refine ⟨_, rfl, fine_push hf hh (p := p) (s := s) a _ _, ?_, hcl _ _, rfl⟩
              have := hsz (some e) (decr st.limit)
              simp only [mu, hb]
              simp
              omega

theorem trace_total : ∀ (n : Nat) (st : MSt K R E), Fine st → mu st < n →
    ∃ evs, trace n st = some evs ∧ (st.limit = none → Clean evs → CleanM st) := by
  intro n
  induction n with
  | zero => intro st _ h; omega
  | succ n ih =>
    intro st hf hn
    simp only [trace, poll]
    by_cases hl : st.limit = some 0
    · rw [if_pos hl]
      exact ⟨[], rfl, fun h => by rw [hl] at h; cases h⟩
    · rw [if_neg hl]
      obtain ⟨r, h1, h2⟩ := pollLoop_total (st.size + 1) st hf (Nat.lt_succ_self _)
      rw [h1]
      rcases r with ⟨_ | _ | _ | e, st'⟩
      · obtain ⟨g1, g2, g3, g4⟩ := h2
        obtain ⟨evs, i1, i2⟩ := ih st' g1 (by omega)
        exact ⟨.pending :: evs, by simp only [i1, Option.map_some], fun hn hc => g3 (i2 (by rw [g4, hn]) (clean_tail hc))⟩
      · exact ⟨[], rfl, fun _ _ => h2⟩
      · exact ⟨_, rfl, fun _ hc => (not_clean hc).elim⟩
      · obtain ⟨g1, g2, g3, g4⟩ := h2
        obtain ⟨evs, i1, i2⟩ := ih st' g1 (by omega)
        exact ⟨.item e :: evs, by simp only [i1, Option.map_some], fun hn hc => g3 (i2 (by rw [g4, hn]; rfl) (clean_tail hc))⟩

theorem nextReady_some {s : List (Ev (Entry K R) E)} {x : Option (Entry K R)} {s' : List (Ev (Entry K R) E)}
    (h : nextReady s = .ok (x, s')) : (x = none → s' = []) ∧ (Clean s' → Clean s) := by
  induction s with
  | nil =>
    simp only [nextReady, Except.ok.injEq, Prod.mk.injEq] at h
    obtain ⟨rfl, rfl⟩ := h
    exact ⟨fun _ => rfl, id⟩
  | cons a s ih =>
    cases a with
    | pending => exact ⟨(ih h).1, fun hc => clean_cons ((ih h).2 hc) (by simp)⟩
    | item a =>
      simp only [nextReady, Except.ok.injEq, Prod.mk.injEq] at h
      obtain ⟨rfl, rfl⟩ := h
      exact ⟨fun h => (by cases h), fun hc => clean_cons hc (by simp)⟩
    | err e => simp [nextReady] at h

/-- The start: what `Fine` says about the streams from index `i` on. -/
theorem fromVec_fine : ∀ (ss : List (Prio × List (Ev (Entry K R) E))) (i : Nat) (heap : List (HE K R))
    (ss' : List (Prio × List (Ev (Entry K R) E))) (heap' : List (HE K R)), fromVecLoop i ss heap = .ok (ss', heap') →
    (∀ x ∈ heap, x.2.1 < i ∧ ∃ p, x.1 = hkey x.2.1 p x.2.2) →
      ss'.length = ss.length ∧ (∀ x ∈ heap', x.2.1 < i + ss.length ∧ ∃ p, x.1 = hkey x.2.1 p x.2.2) ∧ (∀ x ∈ heap, x ∈ heap') ∧
        (∀ (j : Nat) (p : Prio) (s : List (Ev (Entry K R) E)), ss'[j]? = some (p, s) → s = [] ∨ ∃ x ∈ heap', x.2.1 = i + j) ∧
        ((∀ ps ∈ ss', Clean ps.2) → ∀ ps ∈ ss, Clean ps.2) := by
  intro ss
  induction ss with
  | nil =>
    intro i heap ss' heap' h hh
    simp only [fromVecLoop, Except.ok.injEq, Prod.mk.injEq] at h
    obtain ⟨rfl, rfl⟩ := h
    exact ⟨rfl, by simpa using hh, fun x hx => hx, fun j p s hj => by simp at hj, fun _ ps hps => by simp at hps⟩
  | cons a ss ih =>
    intro i heap ss' heap' h hh
    obtain ⟨p, s⟩ := a
    simp only [fromVecLoop] at h
    rcases hn : nextReady s with e | ⟨x, s'⟩
    · rw [hn] at h; simp at h
    · rw [hn] at h
      simp only at h
      rcases hf : fromVecLoop (i + 1) ss (pushNext i p x heap) with e | ⟨ss1, h1⟩
      · rw [hf] at h; simp at h
      · rw [hf] at h
        simp only [Except.ok.injEq, Prod.mk.injEq] at h
        obtain ⟨rfl, rfl⟩ := h
        obtain ⟨n1, n2⟩ := nextReady_some hn
        have hpush : ∀ y ∈ pushNext i p x heap, y.2.1 < i + 1 ∧ ∃ q, y.1 = hkey y.2.1 q y.2.2 := by
          intro y hy
          cases x with
          | none => exact ⟨Nat.lt_succ_of_lt (hh y hy).1, (hh y hy).2⟩
          | some e =>
            rcases SMap.mem_insert_of_mem hy with rfl | hy
            · exact ⟨Nat.lt_succ_self _, p, rfl⟩
            · exact ⟨Nat.lt_succ_of_lt (hh y hy).1, (hh y hy).2⟩
        have hkeep : ∀ y ∈ heap, y ∈ pushNext i p x heap := by
          intro y hy
          cases x with
          | none => exact hy
          | some e =>
            rcases insert_keeps (hkey i p e) (i, e) hy with h2 | h2
            · exact h2
            · obtain ⟨hlt, q, hq⟩ := hh y hy
              rw [hq] at h2
              have := (Merge.hkey_inj h2).1
              omega
        obtain ⟨j1, j2, j3, j4, j5⟩ := ih _ _ _ _ hf hpush
        refine ⟨by simp [j1], ?_, fun y hy => j3 y (hkeep y hy), ?_, ?_⟩
        · intro y hy
          have := j2 y hy
          exact ⟨by simp only [List.length_cons]; omega, this.2⟩
        · intro j q t hj
          cases j with
          | zero =>
            simp only [List.getElem?_cons_zero, Option.some.injEq, Prod.mk.injEq] at hj
            obtain ⟨rfl, rfl⟩ := hj
            cases x with
            | none => exact .inl (n1 rfl)
            | some e => exact .inr ⟨_, j3 _ (insert_self _ _ _), rfl⟩
          | succ j =>
            rcases j4 j q t hj with h2 | ⟨y, hy, hyj⟩
            · exact .inl h2
            · exact .inr ⟨y, hy, by omega⟩
        · intro hc ps hps
          rcases List.mem_cons.1 hps with rfl | hps
          · exact n2 (hc (p, s') List.mem_cons_self)
          · exact j5 (fun q hq => hc q (List.mem_cons_of_mem _ hq)) ps hps

/-- The merge of streams whose reads may fail. -/
theorem mergeAll_same (ss : List (Prio × List (Ev (Entry K R) E))) (cs : List (Prio × List (Option (Entry K R)))) (h : Agree ss cs)
    (limit : Option Nat) {tr : List (Option (Entry K R))} (ht : Merge.mergeAll cs limit = some tr) :
    (∃ e, mergeAll ss limit = some (.error e)) ∨
      ∃ evs, mergeAll ss limit = some (.ok evs) ∧ Compl evs tr ∧ (limit = none → Clean evs → ∀ ps ∈ ss, Clean ps.2) := by
  unfold mergeAll
  rcases hf : fromVecLoop 0 ss [] with e | ⟨ss', heap⟩
  · exact .inl ⟨e, rfl⟩
  · right
    simp only
    obtain ⟨f1, f2⟩ := fromVec_same h 0 [] ss' heap hf
    obtain ⟨g1, g2, _, g4, g5⟩ := fromVec_fine ss 0 [] ss' heap hf (by simp)
    have hfine : Fine (⟨ss', heap, none, limit⟩ : MSt K R E) := by
      refine ⟨fun x hx => ?_, fun i p s hi => ?_⟩
      · have := g2 x hx
        rw [Nat.zero_add, ← g1] at this
        exact this
      · have := g4 i p s hi
        rw [Nat.zero_add] at this
        exact this
    obtain ⟨evs, t1, t2⟩ := trace_total ((MSt.mk ss' heap none limit).size + 2) (⟨ss', heap, none, limit⟩ : MSt K R E) hfine
      (by simp only [mu]; simp)
    refine ⟨evs, by rw [t1]; rfl, ?_, fun hl hc => g5 (t2 hl hc)⟩
    exact trace_same _ _ _ _ _ _ (⟨f2, f1.symm, rfl, rfl⟩ : Same _ (Merge.fromVec cs limit)) t1 ht

/-! ## The packager -/

theorem fill_same (eval : Option (R → Except E Bool)) (proj : R → Q) (eff : Nat) {up : List (Ev (Entry K R) E)}
    {c : List (Option (Entry K R))} (h : Compl up c) : ∀ buf : List Q,
    (∃ e b u, fill eval proj eff up buf = (.err e, b, u)) ∨
      ∃ s b u c', fill eval proj eff up buf = (s, b, u) ∧ Package.fill eval proj eff c buf = (s, b, c') ∧ Compl u c' := by
  induction h with
  | nil =>
    intro buf
    simp only [fill, Package.fill]
    split_ifs
    · exact .inr ⟨_, _, _, _, rfl, rfl, .nil⟩
    · exact .inr ⟨_, _, _, _, rfl, rfl, .nil⟩
  | pending hc ih =>
    intro buf
    simp only [fill, Package.fill]
    split_ifs
    · exact .inr ⟨_, _, _, _, rfl, rfl, hc⟩
    · exact .inr ⟨_, _, _, _, rfl, rfl, .pending hc⟩
  | @item a s c hc ih =>
    intro buf
    cases a with
    | tomb kt =>
      simp only [fill, Package.fill]
      split_ifs
      · exact ih buf
      · exact .inr ⟨_, _, _, _, rfl, rfl, .item hc⟩
    | row kt r =>
      simp only [fill, Package.fill]
      split_ifs
      · cases eval with
        | none => exact ih _
        | some ev =>
          simp only
          rcases ev r with e | _ | _
          · exact .inl ⟨_, _, _, rfl⟩
          · exact ih _
          · exact ih _
      · exact .inr ⟨_, _, _, _, rfl, rfl, .item hc⟩
  | @err e s c =>
    intro buf
    simp only [fill]
    split_ifs with hb
    · exact .inl ⟨_, _, _, rfl⟩
    · refine .inr ⟨.full, buf, .err e :: s, c, rfl, ?_, .err⟩
      cases c with
      | nil => simp only [Package.fill, if_neg hb]
      | cons a c =>
        cases a with
        | none => simp only [Package.fill, if_neg hb]
        | some a => cases a <;> simp only [Package.fill, if_neg hb]

/-- What one filling of a batch leaves behind. -/
structure Left (eff : Nat) (up : List (Ev (Entry K R) E)) (buf : List Q) (s : Package.Stop E) (b : List Q)
    (u : List (Ev (Entry K R) E)) : Prop where
  le : u.length ≤ up.length
  same : u.length = up.length → b = buf
  clean : (∀ e, s ≠ .err e) → Clean u → Clean up
  done : s = .done → u = []
  pending : s = .pending → u.length < up.length
  full : s = .full → eff ≤ b.length

theorem left_full {eff : Nat} {up : List (Ev (Entry K R) E)} {buf : List Q} (h : ¬ buf.length < eff) :
    Left (E := E) eff up buf .full buf up :=
  ⟨le_refl _, fun _ => rfl, fun _ h => h, fun h => (by cases h), fun h => (by cases h), fun _ => by omega⟩

theorem left_err {eff : Nat} {up : List (Ev (Entry K R) E)} {buf : List Q} (a : Ev (Entry K R) E) (e : E) :
    Left eff (a :: up) buf (.err e) buf up :=
  ⟨by simp, fun h => by simp at h, fun h => absurd rfl (h e), fun h => (by cases h), fun h => (by cases h), fun h => by cases h⟩

theorem left_cons {eff : Nat} {up : List (Ev (Entry K R) E)} {buf b0 : List Q} {s : Package.Stop E} {b : List Q}
    {u : List (Ev (Entry K R) E)} (h : Left eff up b0 s b u) (a : Ev (Entry K R) E) (ha : ∀ e, a ≠ .err e) :
    Left eff (a :: up) buf s b u := by
  obtain ⟨h1, h2, h3, h4, h5, h6⟩ := h
  refine ⟨?_, fun h => ?_, fun he hc => clean_cons (h3 he hc) ha, h4, fun h => ?_, h6⟩
  · simp only [List.length_cons]; omega
  · simp only [List.length_cons] at h; omega
  · have := h5 h
    simp only [List.length_cons]; omega

theorem fill_left (eval : Option (R → Except E Bool)) (proj : R → Q) (eff : Nat) : ∀ (up : List (Ev (Entry K R) E)) (buf : List Q),
    Left eff up buf (fill eval proj eff up buf).1 (fill eval proj eff up buf).2.1 (fill eval proj eff up buf).2.2 := by
  intro up
  induction up with
  | nil =>
    intro buf
    simp only [fill]
    split_ifs with h
    · exact ⟨le_refl _, fun _ => rfl, fun _ h => h, fun _ => rfl, fun h => (by cases h), fun h => by cases h⟩
    · exact left_full h
  | cons a up ih =>
    intro buf
    cases a with
    | pending =>
      simp only [fill]
      split_ifs with h
      · exact ⟨by simp, fun h => by simp at h, fun _ hc => clean_cons hc (by simp), fun h => (by cases h), fun _ => by simp,
          fun h => by cases h⟩
      · exact left_full h
    | err e =>
      simp only [fill]
      split_ifs with h
      · exact left_err _ _
      · exact left_full h
    | item a =>
      cases a with
      | tomb kt =>
        simp only [fill]
        split_ifs with h
        · exact left_cons (ih buf) _ (by simp)
        · exact left_full h
      | row kt r =>
        simp only [fill]
        split_ifs with h
        · cases eval with
          | none => exact left_cons (ih _) _ (by simp)
          | some ev =>
            simp only
            rcases hev : ev r with e | _ | _
            · exact left_err _ _
            · exact left_cons (ih _) _ (by simp)
            · exact left_cons (ih _) _ (by simp)
        · exact left_full h

/-- What the caller of a scan gets, next to what they would get if no read failed. -/
theorem drive_same (eval : Option (R → Except E Bool)) (proj : R → Q) (batchSize : Nat) (hb : 0 < batchSize) (limit : Option Nat) :
    ∀ (n : Nat) (up : List (Ev (Entry K R) E)) (total : Nat) (m : Nat) (c : List (Option (Entry K R))) (bs : List (List Q)) (er : Option E),
      up.length < n → Compl up c →
      Package.drive eval proj batchSize limit m { up := c, buf := [], total := total } = some (bs, er) →
      ∃ bs' er', drive eval proj batchSize limit n ⟨up, [], total⟩ = some (bs', er') ∧ bs' <+: bs ∧
        (er' = none → bs' = bs ∧ er = none ∧ (limit = none → Clean up)) := by
  intro n
  induction n with
  | zero => intro up total m c bs er h; omega
  | succ n ih =>
    intro up total m c bs er hn hc hd
    cases m with
    | zero => simp [Package.drive] at hd
    | succ m =>
      simp only [Package.drive, Package.poll] at hd
      simp only [drive, pollP]
      by_cases hr : Package.reached limit total
      · rw [if_pos hr] at hd ⊢
        simp only [Option.some.injEq, Prod.mk.injEq] at hd
        obtain ⟨rfl, rfl⟩ := hd
        refine ⟨[], none, rfl, List.prefix_rfl, fun _ => ⟨rfl, rfl, fun h => ?_⟩⟩
        rw [h] at hr
        simp [Package.reached] at hr
      · rw [if_neg hr] at hd ⊢
        have heff : 0 < Package.effective batchSize limit total := by
          unfold Package.effective
          cases limit with
          | none => exact hb
          | some l => simp [Package.reached] at hr; simp; omega
        obtain ⟨l1, l2, l3, l4, l5, l6⟩ := fill_left eval proj (Package.effective batchSize limit total) up []
        rcases fill_same eval proj (Package.effective batchSize limit total) hc [] with ⟨e, b, u, h1⟩ | ⟨s, b, u, c', h1, h2, h3⟩
        · rw [h1]
          exact ⟨[], some e, rfl, List.nil_prefix, fun h => by cases h⟩
        · rw [h1] at l1 l2 l3 l4 l5 l6
          rw [h1]
          rw [h2] at hd
          simp only at l1 l2 l3 l4 l5 l6
          have batchCase : b ≠ [] → (∀ e, s ≠ .err e) →
              (Package.drive eval proj batchSize limit m { up := c', buf := [], total := total + b.length }).map
                (fun p => (b :: p.1, p.2)) = some (bs, er) →
              ∃ bs' er', (drive eval proj batchSize limit n ⟨u, [], total + b.length⟩).map (fun p => (b :: p.1, p.2)) = some (bs', er') ∧
                bs' <+: bs ∧ (er' = none → bs' = bs ∧ er = none ∧ (limit = none → Clean up)) := by
            intro hne hs hd
            obtain ⟨⟨bs1, er1⟩, hd1, hd2⟩ := Option.map_eq_some_iff.1 hd
            simp only [Prod.mk.injEq] at hd2
            obtain ⟨rfl, rfl⟩ := hd2
            have hlt : u.length < up.length := by
              rcases Nat.lt_or_eq_of_le l1 with h | h
              · exact h
              · exact absurd (l2 h) hne
            obtain ⟨bs', er', i1, i2, i3⟩ := ih u (total + b.length) m c' bs1 er1 (by omega) h3 hd1
            refine ⟨b :: bs', er', by rw [i1]; rfl, (List.prefix_cons_inj b).2 i2, fun he => ?_⟩
            obtain ⟨j1, j2, j3⟩ := i3 he
            exact ⟨by rw [j1], j2, fun hl => l3 hs (j3 hl)⟩
          cases s with
          | err e =>
            simp only at hd ⊢
            exact ⟨[], some e, rfl, List.nil_prefix, fun h => by cases h⟩
          | done =>
            simp only at hd ⊢
            by_cases hb0 : b = []
            · rw [if_pos hb0] at hd ⊢
              simp only [Option.some.injEq, Prod.mk.injEq] at hd
              obtain ⟨rfl, rfl⟩ := hd
              refine ⟨[], none, rfl, List.prefix_rfl, fun _ => ⟨rfl, rfl, fun _ => l3 (by simp) ?_⟩⟩
              rw [l4 rfl]; exact clean_nil
            · rw [if_neg hb0] at hd ⊢
              exact batchCase hb0 (by simp) hd
          | pending =>
            simp only at hd ⊢
            by_cases hb0 : b = []
            · rw [if_pos hb0] at hd ⊢
              have := l5 rfl
              obtain ⟨bs', er', i1, i2, i3⟩ := ih u total m c' bs er (by omega) h3 hd
              exact ⟨bs', er', i1, i2, fun he => ⟨(i3 he).1, (i3 he).2.1, fun hl => l3 (by simp) ((i3 he).2.2 hl)⟩⟩
            · rw [if_neg hb0] at hd ⊢
              exact batchCase hb0 (by simp) hd
          | full =>
            simp only at hd ⊢
            have hb0 : b ≠ [] := by
              rintro rfl
              have := l6 rfl
              simp at this
              omega
            rw [if_neg hb0] at hd ⊢
            exact batchCase hb0 (by simp) hd

/-- The whole scan. -/
theorem scanStreams_same (eval : Option (R → Except E Bool)) (proj : R → Q) (batchSize : Nat) (hb : 0 < batchSize) (limit : Option Nat)
    (ss : List (Prio × List (Ev (Entry K R) E))) (cs : List (Prio × List (Option (Entry K R)))) (h : Agree ss cs)
    {bs : List (List Q)} {er : Option E} (hd : Package.scanStreams eval proj batchSize limit cs = some (bs, er)) :
    ∃ bs' er', scanStreams eval proj batchSize limit ss = some (bs', er') ∧ bs' <+: bs ∧
      (er' = none → bs' = bs ∧ er = none ∧ (limit = none → ∀ ps ∈ ss, Clean ps.2)) := by
  unfold Package.scanStreams at hd
  unfold scanStreams
  by_cases hs : ss = []
  · subst hs
    cases h
    rw [if_pos rfl] at hd ⊢
    simp only [Option.some.injEq, Prod.mk.injEq] at hd
    obtain ⟨rfl, rfl⟩ := hd
    exact ⟨[], none, rfl, List.prefix_rfl, fun _ => ⟨rfl, rfl, fun _ ps hps => by simp at hps⟩⟩
  · have hcs : cs ≠ [] := by
      rintro rfl
      cases h
      exact hs rfl
    rw [if_neg hcs] at hd
    rw [if_neg hs]
    simp only at hd
    rcases hm : Merge.mergeAll cs (if eval.isSome then none else limit) with _ | tr
    · rw [hm] at hd; simp at hd
    · rw [hm] at hd
      simp only [Package.package] at hd
      rcases mergeAll_same ss cs h (if eval.isSome then none else limit) hm with ⟨e, h1⟩ | ⟨evs, h1, h2, h3⟩
      · rw [h1]
        exact ⟨[], some e, rfl, List.nil_prefix, fun h => by cases h⟩
      · rw [h1]
        simp only
        obtain ⟨bs', er', i1, i2, i3⟩ := drive_same eval proj batchSize hb (if eval.isSome then limit else none) (evs.length + 1) evs 0 _ tr
          bs er (Nat.lt_succ_self _) h2 hd
        refine ⟨bs', er', i1, i2, fun he => ⟨(i3 he).1, (i3 he).2.1, fun hl => h3 ?_ ((i3 he).2.2 ?_)⟩⟩
        · split_ifs
          · rfl
          · exact hl
        · split_ifs
          · exact hl
          · rfl

/-- Sources that read something. -/
theorem agree_of_reads {ss : List (Prio × List (Ev (Entry K R) E))} {ts : List (Prio × List (Entry K R))}
    (h : List.Forall₂ (fun a b => a.1 = b.1 ∧ Reads b.2 a.2) ss ts) :
    ∃ cs, Agree ss cs ∧ cs.map (fun ps => (ps.1, ps.2.filterMap id)) = ts := by
  induction h with
  | nil => exact ⟨[], .nil, rfl⟩
  | @cons a b ss ts hab _ ih =>
    obtain ⟨cs, h1, h2⟩ := ih
    obtain ⟨c, h3, h4⟩ := compl_of_reads hab.2
    refine ⟨(a.1, c) :: cs, .cons ⟨rfl, h3⟩ h1, ?_⟩
    rw [List.map_cons, h2, h4, hab.1]

/-! ## Where errors come from -/

theorem nextFlat_from (vis : α → Bool) : ∀ l : List (Ev α E),
    (∀ e, (nextFlat vis l).1 = .ready (some (.error e)) → .err e ∈ l) ∧ ∀ a ∈ (nextFlat vis l).2, a ∈ l
  | [] => ⟨fun e h => by simp [nextFlat] at h, fun a h => h⟩
  | .pending :: s => ⟨fun e h => by simp [nextFlat] at h, fun a h => List.mem_cons_of_mem _ h⟩
  | .err e :: s => by
    refine ⟨fun e' h => ?_, fun a h => List.mem_cons_of_mem _ h⟩
    simp only [nextFlat, Poll.ready.injEq, Option.some.injEq, Except.error.injEq] at h
    rw [h]
    exact List.mem_cons_self
  | .item a :: s => by
    obtain ⟨h1, h2⟩ := nextFlat_from vis s
    simp only [nextFlat]
    split_ifs
    · exact ⟨fun e h => by simp at h, fun a h => List.mem_cons_of_mem _ h⟩
    · exact ⟨fun e h => List.mem_cons_of_mem _ (h1 e h), fun a h => List.mem_cons_of_mem _ (h2 a h)⟩

theorem nextEntry_from (vis : α → Bool) (iter : List (Except E α)) (s : List (Ev (List (Except E α)) E))
    {r : Poll (Option (Except E α))} {i' : List (Except E α)} {s' : List (Ev (List (Except E α)) E)}
    (h : nextEntry vis iter s = (r, i', s')) :
    (∀ e, r = .ready (some (.error e)) → .err e ∈ iter.map toEv ++ rows s) ∧ ∀ a ∈ i'.map toEv ++ rows s', a ∈ iter.map toEv ++ rows s := by
  have h1 := nextFlat_from vis (iter.map toEv ++ rows s)
  rw [nextEntry_flat, h] at h1
  exact h1

/-- The file holds the error `e`. -/
def HeldF (e : E) (st : FSt K R E) : Prop := .err e ∈ fD st ∨ .err e ∈ fX st

theorem peekRow_from (rts : Nat) (st : FSt K R E) {r : Option (FRes K R E)} {st' : FSt K R E} (h : peekRow rts st = (r, st')) :
    (∀ e, r = some (.ready (some (.error e))) → HeldF e st) ∧ ∀ e, HeldF e st' → HeldF e st := by
  unfold peekRow at h
  cases hp : st.peekData with
  | some a =>
    rw [hp] at h
    simp only [Prod.mk.injEq] at h
    obtain ⟨rfl, rfl⟩ := h
    exact ⟨fun e h => by simp at h, fun e h => h⟩
  | none =>
    rw [hp] at h
    simp only at h
    rcases hn : nextEntry (fun p : KT K × R => decide (p.1.ts ≤ rts)) st.dataIter st.data with ⟨_ | _ | _ | a, i, s⟩
    all_goals
      obtain ⟨n1, n2⟩ := nextEntry_from _ _ _ hn
      rw [hn] at h
      simp only [Prod.mk.injEq] at h
      obtain ⟨rfl, rfl⟩ := h
      refine ⟨fun e h => ?_, fun e h => h.imp (n2 _) id⟩
      simp only [Option.some.injEq, reduceCtorEq, Poll.ready.injEq, Except.error.injEq] at h
      try exact .inl (n1 e (by rw [h]))

theorem peekTomb_from (rts : Nat) (st : FSt K R E) {r : Option (FRes K R E)} {st' : FSt K R E} (h : peekTomb rts st = (r, st')) :
    (∀ e, r = some (.ready (some (.error e))) → HeldF e st) ∧ ∀ e, HeldF e st' → HeldF e st := by
  unfold peekTomb at h
  cases hp : st.peekDel with
  | some a =>
    rw [hp] at h
    simp only [Prod.mk.injEq] at h
    obtain ⟨rfl, rfl⟩ := h
    exact ⟨fun e h => by simp at h, fun e h => h⟩
  | none =>
    rw [hp] at h
    simp only at h
    rcases hn : nextEntry (fun p : KT K => decide (p.ts ≤ rts)) st.delIter st.dels with ⟨_ | _ | _ | a, i, s⟩
    all_goals
      obtain ⟨n1, n2⟩ := nextEntry_from _ _ _ hn
      rw [hn] at h
      simp only [Prod.mk.injEq] at h
      obtain ⟨rfl, rfl⟩ := h
      refine ⟨fun e h => ?_, fun e h => h.imp id (n2 _)⟩
      simp only [Option.some.injEq, reduceCtorEq, Poll.ready.injEq, Except.error.injEq] at h
      try exact .inr (n1 e (by rw [h]))

theorem choose_from (st : FSt K R E) (e : E) (h : HeldF e (choose st).2) : HeldF e st := by
  unfold choose at h
  rcases hp : st.peekData with _ | ⟨kt, r⟩ <;> rcases hq : st.peekDel with _ | dt <;> rw [hp, hq] at h <;> simp only at h
  · exact h
  · exact h
  · exact h
  · split_ifs at h <;> exact h

theorem fileLoop_from (rts : Nat) : ∀ (n : Nat) (st : FSt K R E) (r : FRes K R E) (st' : FSt K R E), fileLoop rts n st = some (r, st') →
    (∀ e, r = .ready (some (.error e)) → HeldF e st) ∧ ∀ e, HeldF e st' → HeldF e st := by
  intro n
  induction n with
  | zero => intro st r st' h; simp [fileLoop] at h
  | succ n ih =>
    intro st r st' h
    simp only [fileLoop] at h
    rcases hq : peekRow rts st with ⟨_ | q, st1⟩
    · obtain ⟨_, p2⟩ := peekRow_from rts st hq
      rw [hq] at h
      simp only at h
      rcases hq2 : peekTomb rts st1 with ⟨_ | q, st2⟩
      · obtain ⟨_, t2⟩ := peekTomb_from rts st1 hq2
        rw [hq2] at h
        simp only at h
        have c2 := fun e => choose_from st2 e
        rcases hq3 : choose st2 with ⟨_ | a, st3⟩
        · rw [hq3] at h c2
          simp only [Option.some.injEq, Prod.mk.injEq] at h
          obtain ⟨rfl, rfl⟩ := h
          exact ⟨fun e h => by simp at h, fun e h => p2 e (t2 e (c2 e h))⟩
        · rw [hq3] at h c2
          simp only at h
          by_cases he : (Sst.process a.kt.key st3.cur st3.em).1
          · rw [if_pos he] at h
            simp only [Option.some.injEq, Prod.mk.injEq] at h
            obtain ⟨rfl, rfl⟩ := h
            exact ⟨fun e h => by simp at h, fun e h => p2 e (t2 e (c2 e h))⟩
          · rw [if_neg he] at h
            obtain ⟨i1, i2⟩ := ih _ _ _ h
            exact ⟨fun e h => p2 e (t2 e (c2 e (i1 e h))), fun e h => p2 e (t2 e (c2 e (i2 e h)))⟩
      · obtain ⟨t1, t2⟩ := peekTomb_from rts st1 hq2
        rw [hq2] at h
        simp only [Option.some.injEq, Prod.mk.injEq] at h
        obtain ⟨rfl, rfl⟩ := h
        exact ⟨fun e h => p2 e (t1 e (by rw [h])), fun e h => p2 e (t2 e h)⟩
    · obtain ⟨p1, p2⟩ := peekRow_from rts st hq
      rw [hq] at h
      simp only [Option.some.injEq, Prod.mk.injEq] at h
      obtain ⟨rfl, rfl⟩ := h
      exact ⟨fun e h => p1 e (by rw [h]), p2⟩

theorem fileTrace_from (rts : Nat) : ∀ (n : Nat) (st : FSt K R E) (evs : List (Ev (Entry K R) E)), fileTrace rts n st = some evs →
    ∀ e, .err e ∈ evs → HeldF e st := by
  intro n
  induction n with
  | zero => intro st evs h; simp [fileTrace] at h
  | succ n ih =>
    intro st evs h e he
    simp only [fileTrace] at h
    rcases hp : pollFile rts st with _ | ⟨r, st'⟩
    · rw [hp] at h; simp at h
    · obtain ⟨p1, p2⟩ := fileLoop_from rts _ _ _ _ hp
      rw [hp] at h
      rcases r with _ | _ | x | a
      · obtain ⟨e1, h1, rfl⟩ := Option.map_eq_some_iff.1 h
        exact p2 e (ih _ _ h1 e (by simpa using he))
      · simp only [Option.some.injEq] at h
        subst h
        simp at he
      · simp only [Option.some.injEq] at h
        subst h
        simp only [List.mem_singleton, Ev.err.injEq] at he
        exact p1 e (by rw [he])
      · obtain ⟨e1, h1, rfl⟩ := Option.map_eq_some_iff.1 h
        exact p2 e (ih _ _ h1 e (by simpa using he))

theorem readFile_from {rts : Nat} {data : List (Ev (List (Except E (KT K × R))) E)} {dels : List (Ev (List (Except E (KT K))) E)}
    {evs : List (Ev (Entry K R) E)} (h : readFile rts data dels = some evs) {e : E} (he : .err e ∈ evs) :
    .err e ∈ rows data ∨ .err e ∈ rows dels := fileTrace_from rts _ _ _ h e he

/-- One of the streams holds the error `e`. -/
def Held (e : E) (ss : List (Prio × List (Ev (Entry K R) E))) : Prop := ∃ ps ∈ ss, .err e ∈ ps.2

theorem held_set {ss : List (Prio × List (Ev (Entry K R) E))} {i : Nat} {p : Prio} {s s' : List (Ev (Entry K R) E)}
    (hi : ss[i]? = some (p, s)) (hs : ∀ a ∈ s', a ∈ s) {e : E} (h : Held e (ss.set i (p, s'))) : Held e ss := by
  obtain ⟨ps, h1, h2⟩ := h
  rcases List.mem_or_eq_of_mem_set h1 with h1 | rfl
  · exact ⟨ps, h1, h2⟩
  · exact ⟨(p, s), List.mem_of_getElem? hi, hs _ h2⟩

theorem pollStream_from {s : List (Ev (Entry K R) E)} {r : FRes K R E} {s' : List (Ev (Entry K R) E)} (h : pollStream s = (r, s')) :
    (∀ e, r = .ready (some (.error e)) → .err e ∈ s) ∧ ∀ a ∈ s', a ∈ s := by
  cases s with
  | nil =>
    simp only [pollStream, Prod.mk.injEq] at h
    obtain ⟨rfl, rfl⟩ := h
    exact ⟨fun e h => by simp at h, fun a h => h⟩
  | cons a s =>
    cases a with
    | pending =>
      simp only [pollStream, Prod.mk.injEq] at h
      obtain ⟨rfl, rfl⟩ := h
      exact ⟨fun e h => by simp at h, fun a h => List.mem_cons_of_mem _ h⟩
    | item a =>
      simp only [pollStream, Prod.mk.injEq] at h
      obtain ⟨rfl, rfl⟩ := h
      exact ⟨fun e h => by simp at h, fun a h => List.mem_cons_of_mem _ h⟩
    | err x =>
      simp only [pollStream, Prod.mk.injEq] at h
      obtain ⟨rfl, rfl⟩ := h
      refine ⟨fun e h => ?_, fun a h => List.mem_cons_of_mem _ h⟩
      simp only [Poll.ready.injEq, Option.some.injEq, Except.error.injEq] at h
      rw [h]
      exact List.mem_cons_self

theorem pollLoop_from : ∀ (n : Nat) (st : MSt K R E) (r : FRes K R E) (st' : MSt K R E), pollLoop n st = some (r, st') →
    (∀ e, r = .ready (some (.error e)) → Held e st.streams) ∧ ∀ e, Held e st'.streams → Held e st.streams := by
  intro n
  induction n with
  | zero => intro st r st' h; simp [pollLoop] at h
  | succ n ih =>
    intro st r st' h
    simp only [pollLoop] at h
    rcases hh : st.heap with _ | ⟨⟨hk, i, e⟩, rest⟩
    · rw [hh] at h
      simp only [Option.some.injEq] at h
      unfold drain at h
      cases hb : st.buf with
      | none =>
        rw [hb] at h
        simp only [Prod.mk.injEq] at h
        obtain ⟨rfl, rfl⟩ := h
        exact ⟨fun e h => by simp at h, fun e h => h⟩
      | some b =>
        rw [hb] at h
        simp only at h
        split_ifs at h
        all_goals
          simp only [Prod.mk.injEq] at h
          obtain ⟨rfl, rfl⟩ := h
          exact ⟨fun e h => by simp at h, fun e h => h⟩
    · rw [hh] at h
      simp only at h
      rcases hg : st.streams[i]? with _ | ⟨p, s⟩
      · rw [hg] at h; simp at h
      · rw [hg] at h
        simp only at h
        rcases hs : pollStream s with ⟨q, s'⟩
        obtain ⟨p1, p2⟩ := pollStream_from hs
        rw [hs] at h
        have up : ∀ e, Held e (st.streams.set i (p, s')) → Held e st.streams := fun e => held_set hg p2
        rcases q with _ | _ | x | a
        · simp only [Option.some.injEq, Prod.mk.injEq] at h
          obtain ⟨rfl, rfl⟩ := h
          exact ⟨fun e h => by simp at h, up⟩
        · simp only at h
          cases hb : st.buf with
          | none =>
            rw [hb] at h
            obtain ⟨i1, i2⟩ := ih _ _ _ h
            exact ⟨fun e h => up e (i1 e h), fun e h => up e (i2 e h)⟩
          | some b =>
            rw [hb] at h
            simp only at h
            split_ifs at h
            · obtain ⟨i1, i2⟩ := ih _ _ _ h
              exact ⟨fun e h => up e (i1 e h), fun e h => up e (i2 e h)⟩
            · obtain ⟨i1, i2⟩ := ih _ _ _ h
              exact ⟨fun e h => up e (i1 e h), fun e h => up e (i2 e h)⟩
            · simp only [Option.some.injEq, Prod.mk.injEq] at h
              obtain ⟨rfl, rfl⟩ := h
              exact ⟨fun e h => by simp at h, up⟩
        · simp only [Option.some.injEq, Prod.mk.injEq] at h
          obtain ⟨rfl, rfl⟩ := h
          exact ⟨fun e h => ⟨(p, s), List.mem_of_getElem? hg, p1 e h⟩, up⟩
        · simp only at h
          cases hb : st.buf with
          | none =>
            rw [hb] at h
            obtain ⟨i1, i2⟩ := ih _ _ _ h
            exact ⟨fun e h => up e (i1 e h), fun e h => up e (i2 e h)⟩
          | some b =>
            rw [hb] at h
            simp only at h
            split_ifs at h
            · obtain ⟨i1, i2⟩ := ih _ _ _ h
              exact ⟨fun e h => up e (i1 e h), fun e h => up e (i2 e h)⟩
            · obtain ⟨i1, i2⟩ := ih _ _ _ h
              exact ⟨fun e h => up e (i1 e h), fun e h => up e (i2 e h)⟩
            · simp only [Option.some.injEq, Prod.mk.injEq] at h
              obtain ⟨rfl, rfl⟩ := h
              exact ⟨fun e h => by simp at h, up⟩

theorem trace_from : ∀ (n : Nat) (st : MSt K R E) (evs : List (Ev (Entry K R) E)), trace n st = some evs →
    ∀ e, .err e ∈ evs → Held e st.streams := by
  intro n
  induction n with
  | zero => intro st evs h; simp [trace] at h
  | succ n ih =>
    intro st evs h e he
    simp only [trace] at h
    rcases hp : poll st with _ | ⟨r, st'⟩
    · rw [hp] at h; simp at h
    · have hpl : (∀ e, r = .ready (some (.error e)) → Held e st.streams) ∧ ∀ e, Held e st'.streams → Held e st.streams := by
        unfold poll at hp
        split_ifs at hp
        · simp only [Option.some.injEq, Prod.mk.injEq] at hp
          obtain ⟨rfl, rfl⟩ := hp
          exact ⟨fun e h => by simp at h, fun e h => h⟩
        · exact pollLoop_from _ _ _ _ hp
      obtain ⟨p1, p2⟩ := hpl
      rw [hp] at h
      rcases r with _ | _ | x | a
      · obtain ⟨e1, h1, rfl⟩ := Option.map_eq_some_iff.1 h
        exact p2 e (ih _ _ h1 e (by simpa using he))
      · simp only [Option.some.injEq] at h
        subst h
        simp at he
      · simp only [Option.some.injEq] at h
        subst h
        simp only [List.mem_singleton, Ev.err.injEq] at he
        exact p1 e (by rw [he])
      · obtain ⟨e1, h1, rfl⟩ := Option.map_eq_some_iff.1 h
        exact p2 e (ih _ _ h1 e (by simpa using he))

theorem nextReady_from : ∀ (s : List (Ev (Entry K R) E)),
    match nextReady s with
    | .error e => .err e ∈ s
    | .ok (_, s') => ∀ a ∈ s', a ∈ s
  | [] => fun a h => h
  | .pending :: s => by
    have := nextReady_from s
    simp only [nextReady]
    rcases hq : nextReady s with e | ⟨x, s'⟩
    · rw [hq] at this
      exact List.mem_cons_of_mem _ this
    · rw [hq] at this
      exact fun a h => List.mem_cons_of_mem _ (this a h)
  | .item a :: s => fun a h => List.mem_cons_of_mem _ h
  | .err e :: s => List.mem_cons_self

theorem fromVec_from : ∀ (ss : List (Prio × List (Ev (Entry K R) E))) (i : Nat) (heap : List (HE K R)),
    match fromVecLoop i ss heap with
    | .error e => Held e ss
    | .ok (ss', _) => ∀ e, Held e ss' → Held e ss
  | [], _, _ => fun e h => h
  | (p, s) :: ss, i, heap => by
    have hn := nextReady_from s
    simp only [fromVecLoop]
    rcases hq : nextReady s with e | ⟨x, s'⟩
    · rw [hq] at hn
      exact ⟨(p, s), List.mem_cons_self, hn⟩
    · rw [hq] at hn
      simp only at hn ⊢
      have ih := fromVec_from ss (i + 1) (pushNext i p x heap)
      rcases hf : fromVecLoop (i + 1) ss (pushNext i p x heap) with e | ⟨ss1, h1⟩
      · rw [hf] at ih
        obtain ⟨ps, g1, g2⟩ := ih
        exact ⟨ps, List.mem_cons_of_mem _ g1, g2⟩
      · rw [hf] at ih
        rintro e ⟨ps, g1, g2⟩
        rcases List.mem_cons.1 g1 with rfl | g1
        · exact ⟨(p, s), List.mem_cons_self, hn _ g2⟩
        · obtain ⟨qs, k1, k2⟩ := ih e ⟨ps, g1, g2⟩
          exact ⟨qs, List.mem_cons_of_mem _ k1, k2⟩

theorem fill_from (eval : Option (R → Except E Bool)) (proj : R → Q) (eff : Nat) : ∀ (up : List (Ev (Entry K R) E)) (buf : List Q)
    (s : Package.Stop E) (b : List Q) (u : List (Ev (Entry K R) E)), fill eval proj eff up buf = (s, b, u) →
    (∀ e, s = .err e → .err e ∈ up ∨ ∃ ev r, eval = some ev ∧ ev r = .error e) ∧ ∀ a ∈ u, a ∈ up := by
  intro up
  induction up with
  | nil =>
    intro buf s b u h
    simp only [fill] at h
    split_ifs at h
    all_goals
      simp only [Prod.mk.injEq] at h
      obtain ⟨rfl, rfl, rfl⟩ := h
      exact ⟨fun e h => by simp at h, fun a h => h⟩
  | cons a up ih =>
    intro buf s b u h
    have go : ∀ buf', fill eval proj eff up buf' = (s, b, u) →
        (∀ e, s = .err e → .err e ∈ a :: up ∨ ∃ ev r, eval = some ev ∧ ev r = .error e) ∧ ∀ x ∈ u, x ∈ a :: up := by
      intro buf' h
      obtain ⟨i1, i2⟩ := ih buf' s b u h
      exact ⟨fun e h => (i1 e h).imp (List.mem_cons_of_mem _) id, fun x hx => List.mem_cons_of_mem _ (i2 x hx)⟩
    have full : (Package.Stop.full, buf, a :: up) = (s, b, u) →
        (∀ e, s = .err e → .err e ∈ a :: up ∨ ∃ ev r, eval = some ev ∧ ev r = .error e) ∧ ∀ x ∈ u, x ∈ a :: up := by
      intro h
      simp only [Prod.mk.injEq] at h
      obtain ⟨rfl, rfl, rfl⟩ := h
      exact ⟨fun e h => by simp at h, fun a h => h⟩
    cases a with
    | pending =>
      simp only [fill] at h
      split_ifs at h
      · simp only [Prod.mk.injEq] at h
        obtain ⟨rfl, rfl, rfl⟩ := h
        exact ⟨fun e h => by simp at h, fun a h => List.mem_cons_of_mem _ h⟩
      · exact full h
    | err x =>
      simp only [fill] at h
      split_ifs at h
      · simp only [Prod.mk.injEq] at h
        obtain ⟨rfl, rfl, rfl⟩ := h
        refine ⟨fun e h => .inl ?_, fun a h => List.mem_cons_of_mem _ h⟩
        simp only [Package.Stop.err.injEq] at h
        rw [h]
        exact List.mem_cons_self
      · exact full h
    | item a =>
      cases a with
      | tomb kt =>
        simp only [fill] at h
        split_ifs at h
        · exact go _ h
        · exact full h
      | row kt r =>
        simp only [fill] at h
        split_ifs at h
        · cases eval with
          | none => exact go _ h
          | some ev =>
            simp only at h
            rcases hev : ev r with x | _ | _
            · rw [hev] at h
              simp only [Prod.mk.injEq] at h
              obtain ⟨rfl, rfl, rfl⟩ := h
              refine ⟨fun e h => .inr ⟨ev, r, rfl, ?_⟩, fun a h => List.mem_cons_of_mem _ h⟩
              simp only [Package.Stop.err.injEq] at h
              rw [hev, h]
            · rw [hev] at h; exact go _ h
            · rw [hev] at h; exact go _ h
        · exact full h

theorem drive_from (eval : Option (R → Except E Bool)) (proj : R → Q) (batchSize : Nat) (limit : Option Nat) :
    ∀ (n : Nat) (st : PSt K R Q E) (bs : List (List Q)) (e : E), drive eval proj batchSize limit n st = some (bs, some e) →
      .err e ∈ st.up ∨ ∃ ev r, eval = some ev ∧ ev r = .error e := by
  intro n
  induction n with
  | zero => intro st bs e h; simp [drive] at h
  | succ n ih =>
    intro st bs e h
    simp only [drive, pollP] at h
    split_ifs at h
    · simp at h
    · rcases hf : fill eval proj (Package.effective batchSize limit st.total) st.up st.buf with ⟨s, b, u⟩
      obtain ⟨f1, f2⟩ := fill_from eval proj _ _ _ _ _ _ hf
      rw [hf] at h
      have go : ∀ bf t bs, drive eval proj batchSize limit n ⟨u, bf, t⟩ = some (bs, some e) →
          .err e ∈ st.up ∨ ∃ ev r, eval = some ev ∧ ev r = .error e := fun bf t bs h => (ih _ bs e h).imp (f2 _) id
      have batch : ∀ bf t, (drive eval proj batchSize limit n ⟨u, bf, t⟩).map (fun p => (b :: p.1, p.2)) = some (bs, some e) →
          .err e ∈ st.up ∨ ∃ ev r, eval = some ev ∧ ev r = .error e := by
        intro bf t h
        obtain ⟨⟨bs1, e1⟩, h1, h2⟩ := Option.map_eq_some_iff.1 h
        simp only [Prod.mk.injEq] at h2
        rw [h2.2] at h1
        exact go _ _ _ h1
      cases s with
      | err x =>
        simp only [Option.some.injEq, Prod.mk.injEq] at h
        rw [← h.2]
        exact f1 x rfl
      | done =>
        simp only at h
        by_cases hb : b = []
        · rw [if_pos hb] at h; simp at h
        · rw [if_neg hb] at h; exact batch _ _ h
      | pending =>
        simp only at h
        by_cases hb : b = []
        · rw [if_pos hb] at h; exact go _ _ _ h
        · rw [if_neg hb] at h; exact batch _ _ h
      | full =>
        simp only at h
        by_cases hb : b = []
        · rw [if_pos hb] at h; exact go _ _ _ h
        · rw [if_neg hb] at h; exact batch _ _ h

theorem scanStreams_from {eval : Option (R → Except E Bool)} {proj : R → Q} {batchSize : Nat} {limit : Option Nat}
    {ss : List (Prio × List (Ev (Entry K R) E))} {bs : List (List Q)} {e : E}
    (h : scanStreams eval proj batchSize limit ss = some (bs, some e)) : Held e ss ∨ ∃ ev r, eval = some ev ∧ ev r = .error e := by
  unfold scanStreams at h
  by_cases hs : ss = []
  · rw [if_pos hs] at h; simp at h
  · rw [if_neg hs] at h
    simp only [mergeAll] at h
    have hv := fromVec_from ss 0 []
    rcases hf : fromVecLoop 0 ss [] with x | ⟨ss', heap⟩
    · rw [hf] at h hv
      simp only [Option.some.injEq, Prod.mk.injEq] at h
      rw [← h.2]
      exact .inl hv
    · rw [hf] at h hv
      simp only at h hv
      rcases ht : trace ((MSt.mk ss' heap none (if eval.isSome then none else limit)).size + 2)
          (MSt.mk ss' heap none (if eval.isSome then none else limit)) with _ | evs
      · rw [ht] at h; simp at h
      · rw [ht] at h
        simp only [Option.map_some] at h
        exact (drive_from eval proj _ _ _ _ _ _ h).imp (fun hm => hv e (trace_from _ _ _ ht e hm)) id

end Tonbo.Lemmas.ReadE
