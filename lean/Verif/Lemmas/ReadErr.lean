import Verif.Spec.ReadView
import Verif.Lemmas.Merge
import Verif.Lemmas.Package
import Verif.Lemmas.SstScan

set_option linter.unusedSectionVars false

namespace Tonbo.Lemmas.ReadE
open Tonbo.Model Tonbo.Model.Mem
open Tonbo.Model.Merge (Prio Poll HE hkey pushNext decr)
open Tonbo.Model.ReadE Tonbo.Spec.ReadE

variable {K R Q E α : Type}

/-! ## Readings -/

/-- Poll results without errors that agree with `s` up to its first error. -/
inductive Compl : List (Ev α E) → List (Option α) → Prop
  | nil : Compl [] []
  | pending {s c} : Compl s c → Compl (.pending :: s) (none :: c)
  | item {a s c} : Compl s c → Compl (.item a :: s) (some a :: c)
  | err {e s c} : Compl (.err e :: s) c

theorem compl_of_reads {xs : List α} {s : List (Ev α E)} (h : Reads xs s) : ∃ c, Compl s c ∧ c.filterMap id = xs := by
  induction h with
  | nil => exact ⟨[], .nil, rfl⟩
  | pending _ ih => obtain ⟨c, h1, h2⟩ := ih; exact ⟨none :: c, .pending h1, by simpa using h2⟩
  | item _ ih => obtain ⟨c, h1, h2⟩ := ih; exact ⟨some _ :: c, .item h1, by simpa using h2⟩
  | @err xs e s => exact ⟨xs.map some, .err, by simp [List.filterMap_map]⟩

theorem clean_cons {a : Ev α E} {s : List (Ev α E)} (h : Clean s) (ha : ∀ e, a ≠ .err e) : Clean (a :: s) := by
  intro e hm
  rcases List.mem_cons.1 hm with hm | hm
  · exact ha e hm.symm
  · exact h e hm

theorem clean_tail {a : Ev α E} {s : List (Ev α E)} (h : Clean (a :: s)) : Clean s := fun e hm => h e (List.mem_cons_of_mem _ hm)

theorem clean_nil : Clean ([] : List (Ev α E)) := fun _ h => by simp at h

theorem not_clean {e : E} {s : List (Ev α E)} (h : Clean (.err e :: s)) : False := h e List.mem_cons_self

theorem rows_length : ∀ s : List (Ev (List (Except E α)) E), (rows s).length = weight s
  | [] => rfl
  | .pending :: s => by simp [rows, weight, rows_length s, Nat.add_comm]
  | .err e :: s => by simp [rows, weight, rows_length s, Nat.add_comm]
  | .item b :: s => by simp [rows, weight, rows_length s]

/-! ## Entries of one stream -/

/-- `nextEntry` on rows. -/
def nextFlat (vis : α → Bool) : List (Ev α E) → Poll (Option (Except E α)) × List (Ev α E)
  | [] => (.ready none, [])
  | .pending :: s => (.pending, s)
  | .err e :: s => (.ready (some (.error e)), s)
  | .item a :: s => if vis a then (.ready (some (.ok a)), s) else nextFlat vis s

theorem nextFlat_rows (vis : α → Bool) : ∀ (iter : List (Except E α)) (s : List (Ev α E)),
    nextFlat vis (iter.map toEv ++ s) =
      match skipRows vis iter with
      | (some r, rest) => (.ready (some r), rest.map toEv ++ s)
      | (none, _) => nextFlat vis s
  | [], s => rfl
  | .error e :: iter, s => rfl
  | .ok a :: iter, s => by
    simp only [List.map_cons, toEv, List.cons_append, nextFlat, skipRows]
    by_cases h : vis a
    · rw [if_pos h, if_pos h]
    · rw [if_neg h, if_neg h]
      exact nextFlat_rows vis iter s

theorem nextEntry_flat (vis : α → Bool) : ∀ (s : List (Ev (List (Except E α)) E)) (iter : List (Except E α)),
    nextFlat vis (iter.map toEv ++ rows s) =
      ((nextEntry vis iter s).1, (nextEntry vis iter s).2.1.map toEv ++ rows (nextEntry vis iter s).2.2) := by
  intro s
  induction s with
  | nil =>
    intro iter
    rw [nextFlat_rows]
    unfold nextEntry
    rcases skipRows vis iter with ⟨_ | r, rest⟩
    · rfl
    · rfl
  | cons a s ih =>
    intro iter
    rw [nextFlat_rows]
    unfold nextEntry
    rcases skipRows vis iter with ⟨_ | r, rest⟩
    · cases a with
      | pending => rfl
      | err e => rfl
      | item b => exact ih b
    · rfl

/-- What polling does to a reading. -/
def Polled (vis : α → Bool) (xs : List α) (l : List (Ev α E)) : Poll (Option (Except E α)) × List (Ev α E) → Prop
  | (.pending, l') => ∃ xs', Reads xs' l' ∧ xs'.filter vis = xs.filter vis ∧ l'.length < l.length ∧ (Clean l' → Clean l)
  | (.ready none, l') => xs.filter vis = [] ∧ l' = [] ∧ Clean l
  | (.ready (some (.error _)), _) => True
  | (.ready (some (.ok a)), l') =>
    ∃ xs', Reads xs' l' ∧ xs.filter vis = a :: xs'.filter vis ∧ l'.length < l.length ∧ (Clean l' → Clean l)

theorem nextFlat_spec (vis : α → Bool) {xs : List α} {l : List (Ev α E)} (h : Reads xs l) : Polled vis xs l (nextFlat vis l) := by
  induction h with
  | nil => exact ⟨rfl, rfl, clean_nil⟩
  | @pending xs s h _ => exact ⟨xs, h, rfl, by simp, fun hc => clean_cons hc (by simp)⟩
  | err => trivial
  | @item x xs s h ih =>
    simp only [nextFlat]
    by_cases hv : vis x
    · rw [if_pos hv]
      exact ⟨xs, h, by rw [List.filter_cons, if_pos hv], by simp, fun hc => clean_cons hc (by simp)⟩
    · rw [if_neg hv]
      have hf : (x :: xs).filter vis = xs.filter vis := by rw [List.filter_cons, if_neg hv]
      rcases hr : nextFlat vis s with ⟨_ | _ | _ | a, l'⟩
      · rw [hr] at ih
        obtain ⟨xs', h1, h2, h3, h4⟩ := ih
        exact ⟨xs', h1, by rw [hf, h2], by simp; omega, fun hc => clean_cons (h4 hc) (by simp)⟩
      · rw [hr] at ih
        obtain ⟨h1, h2, h3⟩ := ih
        exact ⟨by rw [hf, h1], h2, clean_cons h3 (by simp)⟩
      · trivial
      · rw [hr] at ih
        obtain ⟨xs', h1, h2, h3, h4⟩ := ih
        exact ⟨xs', h1, by rw [hf, h2], by simp; omega, fun hc => clean_cons (h4 hc) (by simp)⟩

/-! ## One file -/

section File
variable [LinearOrder K]

/-- What the data stream of a scan will return. -/
def fD (st : FSt K R E) : List (Ev (KT K × R) E) := st.dataIter.map toEv ++ rows st.data

/-- What its sidecar will return. -/
def fX (st : FSt K R E) : List (Ev (KT K) E) := st.delIter.map toEv ++ rows st.dels

theorem size_eq (st : FSt K R E) :
    st.size = (fD st).length + (fX st).length + st.peekData.toList.length + st.peekDel.toList.length := by
  simp [FSt.size, fD, fX, rows_length]
  omega

/-- Rows that may be seen. -/
abbrev visD (rts : Nat) : KT K × R → Bool := fun p => decide (p.1.ts ≤ rts)

/-- Deletions that may be seen. -/
abbrev visX (rts : Nat) : KT K → Bool := fun p => decide (p.ts ≤ rts)

/-- The entries still to come. -/
def Rel (rts : Nat) (st : FSt K R E) (d : List (KT K × R)) (x : List (KT K)) : Prop :=
  (∃ xs, Reads xs (fD st) ∧ d = st.peekData.toList ++ xs.filter (visD rts)) ∧
    ∃ xs, Reads xs (fX st) ∧ x = st.peekDel.toList ++ xs.filter (visX rts)

/-- No error to come. -/
def CleanF (st : FSt K R E) : Prop := Clean (fD st) ∧ Clean (fX st)

/-- What peeking does: `Polled` for the state. -/
def Peeked (rts : Nat) (d : List (KT K × R)) (x : List (KT K)) (st : FSt K R E) : Option (FRes K R E) × FSt K R E → Prop
  | (some .pending, st1) => Rel rts st1 d x ∧ st1.size < st.size ∧ (CleanF st1 → CleanF st) ∧ st1.cur = st.cur ∧ st1.em = st.em
  | (some (.ready (some (.error _))), _) => True
  | (some (.ready _), _) => False
  | (none, st1) => Rel rts st1 d x ∧ st1.size ≤ st.size ∧ (CleanF st1 → CleanF st) ∧ st1.cur = st.cur ∧ st1.em = st.em

theorem peekRow_spec {rts : Nat} {st : FSt K R E} {d : List (KT K × R)} {x : List (KT K)} (h : Rel rts st d x) :
    Peeked rts d x st (peekRow rts st) ∧
      ((peekRow rts st).1 = none → (peekRow rts st).2.peekData = none → d = [] ∧ fD (peekRow rts st).2 = []) := by
  unfold peekRow
  cases hp : st.peekData with
  | some a => exact ⟨⟨h, le_refl _, id, rfl, rfl⟩, fun _ h' => by rw [hp] at h'; cases h'⟩
  | none =>
    obtain ⟨⟨xs, h1, h2⟩, hx⟩ := h
    have hf := nextEntry_flat (visD rts) st.data st.dataIter
    have hs := nextFlat_spec (visD rts) h1
    change nextFlat (visD rts) (fD st) = _ at hf
    rw [hf] at hs
    have hsz := size_eq st
    rw [hp] at hsz h2
    rcases hr : nextEntry (visD rts) st.dataIter st.data with ⟨_ | _ | _ | a, i, s⟩
    · rw [hr] at hs
      obtain ⟨xs', g1, g2, g3, g4⟩ := hs
      refine ⟨⟨⟨⟨xs', g1, ?_⟩, hx⟩, ?_, fun hc => ⟨g4 hc.1, hc.2⟩, rfl, rfl⟩, fun h' => by cases h'⟩
      · rw [h2, g2]
      · rw [size_eq, hsz]
        change (i.map toEv ++ rows s).length + (fX st).length + 0 + st.peekDel.toList.length < (fD st).length + _ + 0 + st.peekDel.toList.length
        simp only at g3
        omega
    · rw [hr] at hs
      obtain ⟨g1, g2, g3⟩ := hs
      rw [g1] at h2
      refine ⟨⟨⟨⟨[], ?_, ?_⟩, hx⟩, ?_, fun hc => ⟨g3, hc.2⟩, rfl, rfl⟩, fun _ _ => ⟨?_, ?_⟩⟩
      · show Reads [] (i.map toEv ++ rows s)
        simp only at g2
        rw [g2]; exact .nil
      · rw [h2]; rfl
      · rw [size_eq, hsz]
        change (i.map toEv ++ rows s).length + (fX st).length + 0 + _ ≤ (fD st).length + _ + 0 + _
        simp only at g2
        rw [g2]
        simp
      · rw [h2]; rfl
      · exact g2
    · exact ⟨trivial, fun h' => by cases h'⟩
    · rw [hr] at hs
      obtain ⟨xs', g1, g2, g3, g4⟩ := hs
      refine ⟨⟨⟨⟨xs', g1, ?_⟩, hx⟩, ?_, fun hc => ⟨g4 hc.1, hc.2⟩, rfl, rfl⟩, fun _ h' => by cases h'⟩
      · rw [h2, g2]; rfl
      · rw [size_eq, hsz]
        change (i.map toEv ++ rows s).length + (fX st).length + 1 + st.peekDel.toList.length ≤ (fD st).length + _ + 0 + st.peekDel.toList.length
        simp only at g3
        omega

theorem peekTomb_spec {rts : Nat} {st : FSt K R E} {d : List (KT K × R)} {x : List (KT K)} (h : Rel rts st d x) :
    Peeked rts d x st (peekTomb rts st) ∧
      ((peekTomb rts st).1 = none → ((peekTomb rts st).2.peekDel = none → x = [] ∧ fX (peekTomb rts st).2 = []) ∧
        (peekTomb rts st).2.peekData = st.peekData ∧ fD (peekTomb rts st).2 = fD st) := by
  unfold peekTomb
  cases hp : st.peekDel with
  | some a => exact ⟨⟨h, le_refl _, id, rfl, rfl⟩, fun _ => ⟨fun h' => by rw [hp] at h'; (cases h'), rfl, rfl⟩⟩
  | none =>
    obtain ⟨hd, ⟨xs, h1, h2⟩⟩ := h
    have hf := nextEntry_flat (visX rts) st.dels st.delIter
    have hs := nextFlat_spec (visX rts) h1
    change nextFlat (visX rts) (fX st) = _ at hf
    rw [hf] at hs
    have hsz := size_eq st
    rw [hp] at hsz h2
    rcases hr : nextEntry (visX rts) st.delIter st.dels with ⟨_ | _ | _ | a, i, s⟩
    · rw [hr] at hs
      obtain ⟨xs', g1, g2, g3, g4⟩ := hs
      refine ⟨⟨⟨hd, ⟨xs', g1, ?_⟩⟩, ?_, fun hc => ⟨hc.1, g4 hc.2⟩, rfl, rfl⟩, fun h' => by cases h'⟩
      · rw [h2, g2]
      · rw [size_eq, hsz]
        change (fD st).length + (i.map toEv ++ rows s).length + st.peekData.toList.length + 0 < _ + (fX st).length + st.peekData.toList.length + 0
        simp only at g3
        omega
    · rw [hr] at hs
      obtain ⟨g1, g2, g3⟩ := hs
      rw [g1] at h2
      refine ⟨⟨⟨hd, ⟨[], ?_, ?_⟩⟩, ?_, fun hc => ⟨hc.1, g3⟩, rfl, rfl⟩, fun _ => ⟨fun _ => ⟨?_, ?_⟩, rfl, rfl⟩⟩
      · show Reads [] (i.map toEv ++ rows s)
        simp only at g2
        rw [g2]; exact .nil
      · rw [h2]; rfl
      · rw [size_eq, hsz]
        change (fD st).length + (i.map toEv ++ rows s).length + _ + 0 ≤ _ + (fX st).length + _ + 0
        simp only at g2
        rw [g2]
        simp
      · rw [h2]; rfl
      · exact g2
    · exact ⟨trivial, fun h' => by cases h'⟩
    · rw [hr] at hs
      obtain ⟨xs', g1, g2, g3, g4⟩ := hs
      refine ⟨⟨⟨hd, ⟨xs', g1, ?_⟩⟩, ?_, fun hc => ⟨hc.1, g4 hc.2⟩, rfl, rfl⟩, fun _ => ⟨fun h' => by (cases h'), rfl, rfl⟩⟩
      · rw [h2, g2]; rfl
      · rw [size_eq, hsz]
        change (fD st).length + (i.map toEv ++ rows s).length + st.peekData.toList.length + 1 ≤ _ + (fX st).length + st.peekData.toList.length + 0
        simp only at g3
        omega

theorem choose_spec {rts : Nat} {st : FSt K R E} {d : List (KT K × R)} {x : List (KT K)} (h : Rel rts st d x)
    (hd : st.peekData = none → d = []) (hx : st.peekDel = none → x = []) :
    match choose st with
    | (none, st') => d = [] ∧ x = [] ∧ st' = st ∧ st.peekData = none ∧ st.peekDel = none
    | (some e, st') => ∃ d' x', (∀ c b, Rel rts { st' with cur := c, em := b } d' x') ∧ st'.size < st.size ∧ st'.cur = st.cur ∧
        st'.em = st.em ∧ fD st' = fD st ∧ fX st' = fX st ∧
        ∀ m cur em, Sst.scanLoop (m + 1) d x cur em =
          Sst.emitIf (Sst.process e.kt.key cur em).1 e
            (Sst.scanLoop m d' x' (Sst.process e.kt.key cur em).2.1 (Sst.process e.kt.key cur em).2.2) := by
  obtain ⟨⟨xs, h1, h2⟩, ys, h3, h4⟩ := h
  unfold choose
  have hsz := size_eq st
  rcases hp : st.peekData with _ | ⟨kt, r⟩ <;> rcases hq : st.peekDel with _ | dt
  · exact ⟨hd hp, hx hq, rfl, rfl, rfl⟩
  · rw [hd hp] at h2 ⊢
    rw [hq] at h4 hsz
    rw [hp] at h2 hsz
    refine ⟨[], ys.filter (visX rts), fun c b => ⟨⟨xs, h1, by rw [h2]⟩, ys, h3, rfl⟩, ?_, rfl, rfl, rfl, rfl, ?_⟩
    · rw [hsz, size_eq]
      change (fD st).length + (fX st).length + 0 + 0 < (fD st).length + (fX st).length + 0 + 1
      omega
    · intro m cur em
      rw [h4]
      rfl
  · rw [hx hq] at h4 ⊢
    rw [hp] at h2 hsz
    rw [hq] at h4 hsz
    refine ⟨xs.filter (visD rts), [], fun c b => ⟨⟨xs, h1, rfl⟩, ys, h3, by rw [h4]⟩, ?_, rfl, rfl, rfl, rfl, ?_⟩
    · rw [hsz, size_eq]
      change (fD st).length + (fX st).length + 0 + 0 < (fD st).length + (fX st).length + 1 + 0
      omega
    · intro m cur em
      rw [h2]
      rfl
  · rw [hp] at h2 hsz
    rw [hq] at h4 hsz
    have e2 : d = (kt, r) :: xs.filter (visD rts) := h2
    have e4 : x = dt :: ys.filter (visX rts) := h4
    simp only
    split_ifs with c1 c2 c3
    · refine ⟨xs.filter (visD rts), x, fun c b => ⟨⟨xs, h1, rfl⟩, ys, h3, by rw [e4]; rfl⟩, ?_, rfl, rfl, rfl, rfl, ?_⟩
      · rw [hsz, size_eq]
        change (fD st).length + (fX st).length + 0 + 1 < (fD st).length + (fX st).length + 1 + 1
        omega
      · intro m cur em
        rw [e2, e4]
        simp only [Sst.scanLoop, if_pos c1, Entry.kt]
    · refine ⟨d, ys.filter (visX rts), fun c b => ⟨⟨xs, h1, by rw [e2]; rfl⟩, ys, h3, rfl⟩, ?_, rfl, rfl, rfl, rfl, ?_⟩
      · rw [hsz, size_eq]
        change (fD st).length + (fX st).length + 1 + 0 < (fD st).length + (fX st).length + 1 + 1
        omega
      · intro m cur em
        rw [e2, e4]
        simp only [Sst.scanLoop, if_neg c1, if_pos c2, Entry.kt]
    · refine ⟨xs.filter (visD rts), ys.filter (visX rts), fun c b => ⟨⟨xs, h1, rfl⟩, ys, h3, rfl⟩, ?_, rfl, rfl, rfl, rfl, ?_⟩
      · rw [hsz, size_eq]
        change (fD st).length + (fX st).length + 0 + 0 < (fD st).length + (fX st).length + 1 + 1
        omega
      · intro m cur em
        rw [e2, e4]
        simp only [Sst.scanLoop, if_neg c1, if_neg c2, if_pos c3, Entry.kt]
    · refine ⟨xs.filter (visD rts), ys.filter (visX rts), fun c b => ⟨⟨xs, h1, rfl⟩, ys, h3, rfl⟩, ?_, rfl, rfl, rfl, rfl, ?_⟩
      · rw [hsz, size_eq]
        change (fD st).length + (fX st).length + 0 + 0 < (fD st).length + (fX st).length + 1 + 1
        omega
      · intro m cur em
        rw [e2, e4]
        simp only [Sst.scanLoop, if_neg c1, if_neg c2, if_neg c3, Entry.kt]

/-- What one poll of a file does. -/
def FilePost (rts : Nat) (out : List (Entry K R)) (st : FSt K R E) : FRes K R E × FSt K R E → Prop
  | (.pending, st') => ∃ d x m, Rel rts st' d x ∧ Sst.scanLoop m d x st'.cur st'.em = some out ∧ st'.size < st.size ∧ (CleanF st' → CleanF st)
  | (.ready none, _) => out = [] ∧ CleanF st
  | (.ready (some (.error _)), _) => True
  | (.ready (some (.ok e)), st') => ∃ out' d x m, out = e :: out' ∧ Rel rts st' d x ∧ Sst.scanLoop m d x st'.cur st'.em = some out' ∧
      st'.size < st.size ∧ (CleanF st' → CleanF st)

theorem filePost_mono {rts : Nat} {out : List (Entry K R)} {st st1 : FSt K R E} {r : FRes K R E × FSt K R E}
    (h : FilePost rts out st1 r) (hs : st1.size ≤ st.size) (hc : CleanF st1 → CleanF st) : FilePost rts out st r := by
  rcases r with ⟨_ | _ | _ | e, st'⟩
  · obtain ⟨d, x, m, h1, h2, h3, h4⟩ := h
    exact ⟨d, x, m, h1, h2, by omega, fun c => hc (h4 c)⟩
  · exact ⟨h.1, hc h.2⟩
  · trivial
  · obtain ⟨out', d, x, m, h1, h2, h3, h4, h5⟩ := h
    exact ⟨out', d, x, m, h1, h2, h3, by omega, fun c => hc (h5 c)⟩

theorem fileLoop_spec (rts : Nat) : ∀ (n : Nat) (st : FSt K R E) (d : List (KT K × R)) (x : List (KT K)) (out : List (Entry K R)) (m : Nat),
    Rel rts st d x → st.size < n → Sst.scanLoop m d x st.cur st.em = some out →
      ∃ r, fileLoop rts n st = some r ∧ FilePost rts out st r := by
  intro n
  induction n with
  | zero => intro st d x out m _ h; omega
  | succ n ih =>
    intro st d x out m hr hn hout
    simp only [fileLoop]
    obtain ⟨p1, p2⟩ := peekRow_spec hr
    rcases hq : peekRow rts st with ⟨_ | r, st1⟩
    · rw [hq] at p1 p2
      obtain ⟨r1, z1, c1, cu1, em1⟩ := p1
      simp only
      obtain ⟨t1, t2⟩ := peekTomb_spec r1
      rcases hq2 : peekTomb rts st1 with ⟨_ | r, st2⟩
      · rw [hq2] at t1 t2
        obtain ⟨r2, z2, c2, cu2, em2⟩ := t1
        obtain ⟨t3, t4, t5⟩ := t2 rfl
        simp only at t3 t4 t5 ⊢
        replace p2 := p2 rfl
        simp only at p2
        have hc := choose_spec r2 (fun h => (p2 (by rw [← t4]; exact h)).1) (fun h => (t3 h).1)
        rcases hq3 : choose st2 with ⟨_ | e, st3⟩
        · rw [hq3] at hc
          obtain ⟨rfl, rfl, rfl, g1, g2⟩ := hc
          refine ⟨_, rfl, ?_, c1 (c2 ⟨?_, ?_⟩)⟩
          · cases m with
            | zero => simp [Sst.scanLoop] at hout
            | succ m => simpa [Sst.scanLoop] using hout.symm
          · rw [t5, (p2 (by rw [← t4]; exact g1)).2]; exact clean_nil
          · rw [(t3 g2).2]; exact clean_nil
        · rw [hq3] at hc
          obtain ⟨d', x', g1, g2, g3, g4, g5, g6, g7⟩ := hc
          cases m with
          | zero => simp [Sst.scanLoop] at hout
          | succ m =>
            rw [g7, ← cu1, ← em1, ← cu2, ← em2, ← g3, ← g4] at hout
            simp only [Sst.emitIf] at hout
            have hcl : ∀ c b, CleanF { st3 with cur := c, em := b } → CleanF st := by
              intro c b hc
              refine c1 (c2 ⟨?_, ?_⟩)
              · rw [← g5]; exact hc.1
              · rw [← g6]; exact hc.2
            have hsz : ∀ c b, FSt.size { st3 with cur := c, em := b } < st.size := by
              intro c b
              change st3.size < _
              omega
            simp only
            by_cases he : (Sst.process e.kt.key st3.cur st3.em).1
            · rw [if_pos he] at hout ⊢
              obtain ⟨out', ho, rfl⟩ := Option.map_eq_some_iff.1 hout
              exact ⟨_, rfl, out', d', x', m, rfl, g1 _ _, ho, hsz _ _, hcl _ _⟩
            · rw [if_neg he] at hout ⊢
              obtain ⟨r, i1, i2⟩ := ih _ d' x' out m (g1 _ _) (lt_of_lt_of_le (hsz _ _) (Nat.le_of_lt_succ hn)) hout
              exact ⟨r, i1, filePost_mono i2 (le_of_lt (hsz _ _)) (hcl _ _)⟩
      · rw [hq2] at t1
        rcases r with _ | _ | _ | e
        · obtain ⟨r2, z2, c2, cu2, em2⟩ := t1
          exact ⟨_, rfl, d, x, m, r2, by rw [cu2, em2, cu1, em1]; exact hout, by omega, fun c => c1 (c2 c)⟩
        · exact t1.elim
        · exact ⟨_, rfl, trivial⟩
        · exact t1.elim
    · rw [hq] at p1
      rcases r with _ | _ | _ | e
      · obtain ⟨r2, z2, c2, cu2, em2⟩ := p1
        exact ⟨_, rfl, d, x, m, r2, by rw [cu2, em2]; exact hout, by omega, c2⟩
      · exact p1.elim
      · exact ⟨_, rfl, trivial⟩
      · exact p1.elim

theorem fileTrace_spec (rts : Nat) : ∀ (n : Nat) (st : FSt K R E) (d : List (KT K × R)) (x : List (KT K)) (out : List (Entry K R)) (m : Nat),
    Rel rts st d x → st.size < n → Sst.scanLoop m d x st.cur st.em = some out →
      ∃ evs, fileTrace rts n st = some evs ∧ Reads out evs ∧ (Clean evs → CleanF st) := by
  intro n
  induction n with
  | zero => intro st d x out m _ h; omega
  | succ n ih =>
    intro st d x out m hr hn hout
    obtain ⟨r, h1, h2⟩ := fileLoop_spec rts (st.size + 1) st d x out m hr (Nat.lt_succ_self _) hout
    simp only [fileTrace, pollFile, h1]
    rcases r with ⟨_ | _ | _ | e, st'⟩
    · obtain ⟨d', x', m', g1, g2, g3, g4⟩ := h2
      obtain ⟨evs, i1, i2, i3⟩ := ih st' d' x' out m' g1 (by omega) g2
      exact ⟨_, by simp [i1], .pending i2, fun hc => g4 (i3 (clean_tail hc))⟩
    · obtain ⟨rfl, g⟩ := h2
      exact ⟨[], rfl, .nil, fun _ => g⟩
    · exact ⟨_, rfl, .err, fun hc => (not_clean hc).elim⟩
    · obtain ⟨out', d', x', m', rfl, g1, g2, g3, g4⟩ := h2
      obtain ⟨evs, i1, i2, i3⟩ := ih st' d' x' out' m' g1 (by omega) g2
      exact ⟨_, by simp [i1], .item i2, fun hc => g4 (i3 (clean_tail hc))⟩

theorem readFile_spec (f : Sst.File K R) (keep : R → Bool) (rts : Nat) {out : List (Entry K R)} (ho : Sst.scan f keep rts = some out)
    {data : List (Ev (List (Except E (KT K × R))) E)} {dels : List (Ev (List (Except E (KT K))) E)}
    (hd : Reads (f.data.filter (fun p => keep p.2)) (rows data)) (hx : Reads f.dels (rows dels)) :
    ∃ evs, readFile rts data dels = some evs ∧ Reads out evs ∧ (Clean evs → Clean (rows data) ∧ Clean (rows dels)) := by
  unfold Sst.scan at ho
  have hf : f.data.filter (fun e => keep e.2 && decide (e.1.ts ≤ rts)) = (f.data.filter (fun p => keep p.2)).filter (visD rts) := by
    rw [List.filter_filter]
    congr 1
    funext e
    rw [Bool.and_comm]
  simp only [hf] at ho
  obtain ⟨evs, h1, h2, h3⟩ := fileTrace_spec rts _ (FSt.new data dels) _ _ out _
    (⟨⟨_, hd, rfl⟩, _, hx, rfl⟩ : Rel rts (FSt.new data dels) _ _) (Nat.lt_succ_self _) ho
  exact ⟨evs, h1, h2, h3⟩

end File

end Tonbo.Lemmas.ReadE
