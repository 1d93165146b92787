import Verif.Lemmas.DurableLog
import Verif.Lemmas.LsmContent
import Verif.Spec.CalmView

/-!
# The invariant of calm histories
-/

set_option linter.unusedSectionVars false

namespace Tonbo.Lemmas.Durable
open Tonbo.Model Tonbo.Model.Manifest Tonbo.Model.Lsm Tonbo.Model.Durable Tonbo.Spec Tonbo.Spec.Durable
open Tonbo.Model.Wal (Event Batch Sch)
open Tonbo.Spec.Wal (GoodPayload payloadWrites bodyOf payloadOf finishes)
open Tonbo.Lemmas.Lsm (Inv Cont doneRuns At Lst)
open Tonbo.Lemmas.Replay (Fine)

variable {A K R : Type} [LinearOrder K]

/-! ## References to segments -/

/-- A list of segments recorded as needed keeps segment `g`: the least of the list becomes the floor. -/
def Covers (refs : List WalRef) (g : Nat) : Prop := refs = [] ∨ ∃ r ∈ refs, r.seq ≤ g

/-- All of the lists do. -/
def AllCov (Ls : List (List WalRef)) (g : Nat) : Prop := ∀ refs ∈ Ls, Covers refs g

/-- The segment of the reference, or a later one, holds something, and from there on no frame has a
smaller number. -/
def RefGood (E : List (Ent A)) (r : WalRef) : Prop :=
  (∃ x ∈ E, r.seq ≤ x.1) ∧ ∀ x ∈ E, r.seq ≤ x.1 → r.first ≤ x.2.1

/-- Segments and frames ascend. -/
def Ord (E : List (Ent A)) : Prop := E.Pairwise (fun a b => a.1 ≤ b.1 ∧ a.2.1 < b.2.1)

theorem pairwise_cases {α : Type} {r : α → α → Prop} : ∀ {l : List α}, l.Pairwise r → ∀ a ∈ l, ∀ b ∈ l,
    a = b ∨ r a b ∨ r b a
  | [], _, a, ha, _, _ => by cases ha
  | x :: l, h, a, ha, b, hb => by
    obtain ⟨h1, h2⟩ := List.pairwise_cons.1 h
    rcases List.mem_cons.1 ha with rfl | ha
    · rcases List.mem_cons.1 hb with rfl | hb
      · exact .inl rfl
      · exact .inr (.inl (h1 b hb))
    · rcases List.mem_cons.1 hb with hb | hb
      · subst hb; exact .inr (.inr (h1 a (by assumption)))
      · exact pairwise_cases h2 a ha b hb

theorem ord_seg {E : List (Ent A)} (h : Ord E) : E.Pairwise (fun a b => a.1 ≤ b.1) := h.imp And.left

theorem ord_frames {E : List (Ent A)} (h : Ord E) {a b : Ent A} (ha : a ∈ E) (hb : b ∈ E) (hlt : a.1 < b.1) :
    a.2.1 < b.2.1 := by
  rcases pairwise_cases h a ha b hb with rfl | h1 | h1
  · omega
  · exact h1.2
  · have := h1.1; omega

theorem mem_entries {segs : List (LSeg A)} {x : Ent A} :
    x ∈ entries segs ↔ ∃ g ∈ segs, ∃ p ∈ g.frames, x = (g.seq, p.1, p.2) := by
  unfold entries
  simp only [List.mem_flatMap, List.mem_map]
  constructor
  · rintro ⟨g, hg, p, hp, rfl⟩; exact ⟨g, hg, p, hp, rfl⟩
  · rintro ⟨g, hg, p, hp, rfl⟩; exact ⟨g, hg, p, hp, rfl⟩

theorem seg_unique {segs : List (LSeg A)} (h : segs.Pairwise (fun a b => a.seq < b.seq)) {g g' : LSeg A}
    (hg : g ∈ segs) (hg' : g' ∈ segs) (he : g.seq = g'.seq) : g = g' := by
  rcases pairwise_cases h g hg g' hg' with h1 | h1 | h1
  · exact h1
  · omega
  · omega

theorem entries_frames {segs : List (LSeg A)} {g : LSeg A} (hg : g ∈ segs) :
    (g.frames.map (fun p => (g.seq, p.1, p.2))).Sublist (entries segs) := by
  unfold entries
  rw [List.flatMap_def]
  exact List.sublist_flatten_of_mem (List.mem_map_of_mem hg)

theorem frames_asc {segs : List (LSeg A)} (h : Ord (entries segs)) {g : LSeg A} (hg : g ∈ segs) :
    g.frames.Pairwise (fun a b => a.1 < b.1) := by
  have := (List.Pairwise.sublist (entries_frames hg) h)
  rw [List.pairwise_map] at this
  exact this.imp And.right

theorem refOf_some {g : LSeg A} {r : WalRef} (h : refOf g = some r) :
    ∃ a b, g.frames.head? = some a ∧ g.frames.getLast? = some b ∧ r = ⟨g.seq, g.seq, a.1, b.1⟩ := by
  unfold refOf at h
  cases h1 : g.frames.head? with
  | none => rw [h1] at h; cases h
  | some a =>
    cases h2 : g.frames.getLast? with
    | none => rw [h1, h2] at h; cases h
    | some b =>
      rw [h1, h2] at h
      cases h
      exact ⟨a, b, rfl, rfl, rfl⟩

theorem head_le {l : List (Nat × Event A)} (h : l.Pairwise (fun a b => a.1 < b.1)) {a : Nat × Event A}
    (ha : l.head? = some a) : ∀ p ∈ l, a.1 ≤ p.1 := by
  cases l with
  | nil => cases ha
  | cons x l =>
    simp only [List.head?_cons, Option.some.injEq] at ha
    subst ha
    intro p hp
    rcases List.mem_cons.1 hp with rfl | hp
    · exact Nat.le_refl _
    · exact Nat.le_of_lt ((List.pairwise_cons.1 h).1 p hp)

theorem le_last {l : List (Nat × Event A)} (h : l.Pairwise (fun a b => a.1 < b.1)) {a : Nat × Event A}
    (ha : l.getLast? = some a) : ∀ p ∈ l, p.1 ≤ a.1 := by
  obtain ⟨ys, rfl⟩ := List.getLast?_eq_some_iff.1 ha
  intro p hp
  rcases List.mem_append.1 hp with hp | hp
  · exact Nat.le_of_lt ((List.pairwise_append.1 h).2.2 p hp a (by simp))
  · rw [List.mem_singleton.1 hp]

/-- Every reference that is collected is good. -/
theorem collect_good {segs : List (LSeg A)} (ho : Ord (entries segs)) (ha : segs.Pairwise (fun a b => a.seq < b.seq))
    {floor : Option WalRef} {live : Option Nat} {r : WalRef} (hr : r ∈ Durable.collect segs floor live) :
    RefGood (entries segs) r := by
  unfold Durable.collect at hr
  obtain ⟨g, hg, hgr⟩ := List.mem_filterMap.1 (List.mem_of_mem_filter hr)
  obtain ⟨a, b, h1, h2, rfl⟩ := refOf_some hgr
  have hma : a ∈ g.frames := List.mem_of_head? h1
  have hxa : ((g.seq, a.1, a.2) : Ent A) ∈ entries segs := mem_entries.2 ⟨g, hg, a, hma, rfl⟩
  refine ⟨⟨_, hxa, Nat.le_refl _⟩, ?_⟩
  intro x hx hle
  simp only at hle ⊢
  rcases Nat.lt_or_eq_of_le hle with hlt | heq
  · exact Nat.le_of_lt (ord_frames ho hxa hx hlt)
  · obtain ⟨g', hg', p, hp, rfl⟩ := mem_entries.1 hx
    have : g = g' := seg_unique ha hg hg' heq
    subst this
    exact head_le (frames_asc ho hg) h1 p hp

/-- A frame from the live ones on keeps its segment. -/
theorem collect_covers {segs : List (LSeg A)} (ho : Ord (entries segs)) {floor : Option WalRef} {l : Nat}
    {x : Ent A} (hx : x ∈ entries segs) (hl : l ≤ x.2.1) : Covers (Durable.collect segs floor (some l)) x.1 := by
  obtain ⟨g, hg, p, hp, rfl⟩ := mem_entries.1 hx
  simp only at hl ⊢
  have hne : g.frames ≠ [] := List.ne_nil_of_mem hp
  obtain ⟨a, h1⟩ : ∃ a, g.frames.head? = some a := by
    cases hf : g.frames with
    | nil => exact absurd hf hne
    | cons a _ => exact ⟨a, rfl⟩
  obtain ⟨b, h2⟩ : ∃ b, g.frames.getLast? = some b := ⟨_, List.getLast?_eq_some_getLast hne⟩
  have hlast := le_last (frames_asc ho hg) h2 p hp
  refine .inr ⟨⟨g.seq, g.seq, a.1, b.1⟩, ?_, Nat.le_refl _⟩
  unfold Durable.collect
  refine List.mem_filter.2 ⟨List.mem_filterMap.2 ⟨g, hg, ?_⟩, ?_⟩
  · unfold refOf
    rw [h1, h2]
  · unfold required
    simp only [Bool.or_eq_true, decide_eq_true_eq]
    left
    omega

theorem refGood_append {E : List (Ent A)} {r : WalRef} (h : RefGood E r) {x : Ent A}
    (hx : ∀ y ∈ E, y.2.1 < x.2.1) : RefGood (E ++ [x]) r := by
  obtain ⟨⟨y, hy, hle⟩, h2⟩ := h
  refine ⟨⟨y, List.mem_append_left _ hy, hle⟩, ?_⟩
  intro z hz hrz
  rcases List.mem_append.1 hz with hz | hz
  · exact h2 z hz hrz
  · rw [List.mem_singleton.1 hz]
    have := h2 y hy hle
    have := hx y hy
    omega

theorem refGood_since {E : List (Ent A)} {r f : WalRef} (h : RefGood E r) (hf : RefGood E f) :
    RefGood (since f.seq E) r := by
  obtain ⟨⟨y, hy, hle⟩, h2⟩ := h
  obtain ⟨⟨z, hz, hfz⟩, _⟩ := hf
  refine ⟨?_, fun x hx => h2 x (List.mem_of_mem_filter hx)⟩
  by_cases hfy : f.seq ≤ y.1
  · exact ⟨y, List.mem_filter.2 ⟨hy, by simpa using hfy⟩, hle⟩
  · exact ⟨z, List.mem_filter.2 ⟨hz, by simpa using hfz⟩, by omega⟩

theorem covers_last {E : List (Ent A)} {refs : List WalRef} (h : ∀ r ∈ refs, RefGood E r) {g : Nat}
    (hg : ∀ x ∈ E, x.1 ≤ g) : Covers refs g := by
  cases refs with
  | nil => exact .inl rfl
  | cons r refs =>
    obtain ⟨⟨y, hy, hle⟩, _⟩ := h r List.mem_cons_self
    exact .inr ⟨r, List.mem_cons_self, Nat.le_trans hle (hg y hy)⟩

/-! ## What has to stay in the log -/

/-- Every version of `l` is logged at or above the range `r`, in a segment that all lists keep. -/
def RunOk (c : Ctx A K R) (E : List (Ent A)) (Ls : List (List WalRef)) (r : Option (Nat × Nat))
    (l : List (Ver K R)) : Prop :=
  ∀ v ∈ l, ∃ lo hi g n, r = some (lo, hi) ∧ lo ≤ n ∧ LoggedAt c.ext c.sch E v g n ∧ AllCov Ls g

/-- A payload of a writer is in the log, not committed yet. -/
def Placed (E : List (Ent A)) (Ls : List (List WalRef)) (w : Writer K R) (e : Event A) : Prop :=
  ∃ lo hi g n, w.span = some (lo, hi) ∧ lo ≤ n ∧ OpenAt E (BitVec.ofNat 64 w.id) e g n ∧ AllCov Ls g

/-- The versions of the deletions. -/
def delPart (c : Ctx A K R) (w : Writer K R) : List (Ver K R) :=
  if w.hasDel then batchWrites c.ext w.delOp else []

/-- The versions of the rows. -/
def upPart (c : Ctx A K R) (w : Writer K R) : List (Ver K R) :=
  if w.hasUp then batchWrites c.ext w.putOp else []

theorem writes_eq (c : Ctx A K R) (w : Writer K R) : w.writes c = upPart c w ++ delPart c w := rfl

/-- What a writer in flight needs of the log. -/
def PayOk (c : Ctx A K R) (E : List (Ent A)) (Ls : List (List WalRef)) (w : Writer K R) : Prop :=
  match w.phase with
  | .del => w.hasUp = true → Placed E Ls w (w.upEvent c)
  | .commit => (w.hasUp = true → Placed E Ls w (w.upEvent c)) ∧ (w.hasDel = true → Placed E Ls w (w.delEvent c))
  | .record => RunOk c E Ls w.span (w.writes c)
  | .applyUp => RunOk c E Ls w.span (w.writes c)
  | .applyDel => RunOk c E Ls w.span (delPart c w)
  | _ => True

/-- All that is needed. -/
structure Safe (c : Ctx A K R) (E : List (Ent A)) (Ls : List (List WalRef)) (range : Option (Nat × Nat))
    (rngs : List (Option (Nat × Nat))) (logs : List (List (Ver K R))) (cur : List (Ver K R))
    (ws : List (Writer K R)) : Prop where
  runs : List.Forall₂ (RunOk c E Ls) rngs logs
  cur : RunOk c E Ls range cur
  pay : ∀ w ∈ ws, PayOk c E Ls w

theorem runOk_mono {c : Ctx A K R} {E E' : List (Ent A)} {Ls Ls' : List (List WalRef)} {r : Option (Nat × Nat)}
    {l : List (Ver K R)} (h : RunOk c E Ls r l)
    (hm : ∀ v g n, LoggedAt c.ext c.sch E v g n → AllCov Ls g → LoggedAt c.ext c.sch E' v g n ∧ AllCov Ls' g) :
    RunOk c E' Ls' r l := by
  intro v hv
  obtain ⟨lo, hi, g, n, h1, h2, h3, h4⟩ := h v hv
  obtain ⟨h5, h6⟩ := hm v g n h3 h4
  exact ⟨lo, hi, g, n, h1, h2, h5, h6⟩

theorem placed_mono {E E' : List (Ent A)} {Ls Ls' : List (List WalRef)} {w : Writer K R} {e : Event A}
    (h : Placed E Ls w e)
    (hm : ∀ g n, OpenAt E (BitVec.ofNat 64 w.id) e g n → AllCov Ls g →
      OpenAt E' (BitVec.ofNat 64 w.id) e g n ∧ AllCov Ls' g) : Placed E' Ls' w e := by
  obtain ⟨lo, hi, g, n, h1, h2, h3, h4⟩ := h
  obtain ⟨h5, h6⟩ := hm g n h3 h4
  exact ⟨lo, hi, g, n, h1, h2, h5, h6⟩

theorem payOk_mono {c : Ctx A K R} {E E' : List (Ent A)} {Ls Ls' : List (List WalRef)} {w : Writer K R}
    (h : PayOk c E Ls w)
    (hm : ∀ v g n, LoggedAt c.ext c.sch E v g n → AllCov Ls g → LoggedAt c.ext c.sch E' v g n ∧ AllCov Ls' g)
    (ho : ∀ e g n, OpenAt E (BitVec.ofNat 64 w.id) e g n → AllCov Ls g →
      OpenAt E' (BitVec.ofNat 64 w.id) e g n ∧ AllCov Ls' g) : PayOk c E' Ls' w := by
  unfold PayOk at h ⊢
  cases hp : w.phase with
  | del => simp only [hp] at h ⊢; exact fun hu => placed_mono (h hu) (ho _)
  | commit =>
    simp only [hp] at h ⊢
    exact ⟨fun hu => placed_mono (h.1 hu) (ho _), fun hu => placed_mono (h.2 hu) (ho _)⟩
  | record => simp only [hp] at h ⊢; exact runOk_mono h hm
  | applyUp => simp only [hp] at h ⊢; exact runOk_mono h hm
  | applyDel => simp only [hp] at h ⊢; exact runOk_mono h hm
  | _ => simp only

theorem safe_mono {c : Ctx A K R} {E E' : List (Ent A)} {Ls Ls' : List (List WalRef)} {range : Option (Nat × Nat)}
    {rngs : List (Option (Nat × Nat))} {logs : List (List (Ver K R))} {cur : List (Ver K R)} {ws : List (Writer K R)}
    (h : Safe c E Ls range rngs logs cur ws)
    (hm : ∀ v g n, LoggedAt c.ext c.sch E v g n → AllCov Ls g → LoggedAt c.ext c.sch E' v g n ∧ AllCov Ls' g)
    (ho : ∀ w ∈ ws, ∀ e g n, OpenAt E (BitVec.ofNat 64 w.id) e g n → AllCov Ls g →
      OpenAt E' (BitVec.ofNat 64 w.id) e g n ∧ AllCov Ls' g) : Safe c E' Ls' range rngs logs cur ws :=
  ⟨h.runs.imp (fun _ _ hr => runOk_mono hr hm), runOk_mono h.cur hm, fun w hw => payOk_mono (h.pay w hw) hm (ho w hw)⟩

/-- Weaker lists. -/
theorem safe_lists {c : Ctx A K R} {E : List (Ent A)} {Ls Ls' : List (List WalRef)} {range : Option (Nat × Nat)}
    {rngs : List (Option (Nat × Nat))} {logs : List (List (Ver K R))} {cur : List (Ver K R)} {ws : List (Writer K R)}
    (h : Safe c E Ls range rngs logs cur ws) (hl : ∀ g, AllCov Ls g → AllCov Ls' g) :
    Safe c E Ls' range rngs logs cur ws :=
  safe_mono h (fun _ g _ h1 h2 => ⟨h1, hl g h2⟩) (fun _ _ _ g _ h1 h2 => ⟨h1, hl g h2⟩)

/-! ## The invariant -/

/-- The lists that count for everything in memory. -/
def base (c : Ctx A K R) (s : Sys A K R) : List (List WalRef) :=
  (floorOf c s).toList :: s.writers.map (·.refs)

/-- The log. -/
structure LogOk (c : Ctx A K R) (s : Sys A K R) : Prop where
  ne : s.segs ≠ []
  asc : s.segs.Pairwise (fun a b => a.seq < b.seq)
  next : ∀ g ∈ s.segs, g.seq < s.nextSeg
  frame1 : 1 ≤ s.nextFrame
  ord : Ord (entries s.segs)
  lt : ∀ x ∈ entries s.segs, 1 ≤ x.2.1 ∧ x.2.1 < s.nextFrame ∧ evId x.2.2 < s.nextId
  good : AllTxns (fun ts e => GoodPayload c.ext c.sch ts e ∧
    ∀ w ∈ lastOnly (payloadWrites c.ext c.sch ts e), w ∈ s.committed) (evs (entries s.segs))

/-- A phase up to the listing of segments. -/
def early : Phase → Bool
  | .publish | .prune | .ack => false
  | _ => true

/-- A phase before the commit record is written. -/
def uncommitted : Phase → Bool
  | .begin | .up | .del | .commit => true
  | _ => false

/-- A phase after the last call on the memory. -/
def applied : Phase → Bool
  | .look | .publish | .prune | .ack => true
  | _ => false

/-- A writer in flight. -/
structure WOk (c : Ctx A K R) (s : Sys A K R) (log : List (Ver K R)) (w : Writer K R) : Prop where
  mode : w.mode ≠ .fast
  rows : w.mode = .plain → w.rows ≠ []
  keyed : ∀ r ∈ w.rows, c.ext r ≠ none
  dec : Decodes c w.rows w.keys (BitVec.ofNat 64 w.ts)
  ts : w.ts < 2 ^ 64
  id : w.id < 2 ^ 64
  idLt : w.id < s.nextId
  body : uncommitted w.phase = true → ∀ e ∈ bodyOf (BitVec.ofNat 64 w.id) (evs (entries s.segs)),
    (e = w.upEvent c ∧ w.hasUp = true) ∨ (e = w.delEvent c ∧ w.hasDel = true)
  range : w.phase = .applyUp ∨ w.phase = .applyDel → ∀ sp, w.span = some sp →
    ∃ lo hi, s.range = some (lo, hi) ∧ lo ≤ sp.1
  live : w.isTxn = true → early w.phase = true → ∀ lo hi, (some (lo, hi) ∈ s.range :: s.ranges.drop (doneRuns s.db)) →
    ∃ l, w.live = some l ∧ l ≤ lo
  com : uncommitted w.phase = false → ∀ v ∈ w.writes c, v ∈ s.committed
  half : w.phase = .applyDel → ∀ v ∈ upPart c w, v ∈ log
  all : applied w.phase = true → ∀ v ∈ w.writes c, v ∈ log

/-- The writers in flight: their numbers differ, and a transaction is alone. -/
structure WsOk (ws : List (Writer K R)) : Prop where
  ids : ws.Pairwise (fun a b => a.id ≠ b.id)
  alone : ∀ w ∈ ws, w.isTxn = true → ws.length ≤ 1
  plain : ∀ w ∈ ws, w.isTxn = false → w.refs = []

/-- The state of a calm history. -/
structure D (c : Ctx A K R) (s : Sys A K R) (n : Nat) (log : List (Ver K R)) (logs : List (List (Ver K R)))
    (cur : List (Ver K R)) : Prop where
  open_ : s.dead = false
  inv : Inv c.ext c.x c.table n s.db
  cont : Cont c.ext c.table n s.db log False logs cur
  acked : ∀ w ∈ s.acked, w ∈ log
  sub : ∀ w ∈ log, w ∈ s.committed
  fine : ∃ cap t, 0 < cap ∧ Fine c.ext cap t ∧ t.mem = s.db.runs.mem
  len : s.ranges.length = logs.length
  lg : LogOk c s
  refs : ∀ refs ∈ base c s, ∀ r ∈ refs, RefGood (entries s.segs) r
  one : WsOk s.writers
  writer : ∀ w ∈ s.writers, WOk c s log w
  safe : Safe c (entries s.segs) (base c s) s.range (s.ranges.drop (doneRuns s.db)) (logs.drop (doneRuns s.db)) cur
    s.writers
  flush : ∀ p k, s.db.flushing = .written p k → ∃ d refs, p = ⟨none, flushEdits d (some refs), [], [d], none⟩ ∧
    (∀ r ∈ refs, RefGood (entries s.segs) r) ∧
    Safe c (entries s.segs) (refs :: base c s) s.range (s.ranges.drop k) (logs.drop k) cur s.writers

/-! ## Small facts -/

theorem one_writer {ws : List (Writer K R)} (h : ws.length ≤ 1) {w : Writer K R} (hw : w ∈ ws) : ws = [w] := by
  match ws, h with
  | [x], _ => rw [List.mem_singleton.1 hw]

theorem wsOk_nil : WsOk ([] : List (Writer K R)) := ⟨.nil, by simp, by simp⟩

/-- The writers but this one. -/
theorem wsOk_other {ws : List (Writer K R)} (h : WsOk ws) {i : Nat} {w w' : Writer K R} (hw : ws[i]? = some w)
    {x : Writer K R} (hx : x ∈ ws.set i w') :
    x = w' ∨ (x ∈ ws ∧ x.id ≠ w.id ∧ x.isTxn = false ∧ w.isTxn = false) := by
  obtain ⟨hi, hwi⟩ := List.getElem?_eq_some_iff.1 hw
  obtain ⟨j, hj, hxj⟩ := List.mem_iff_getElem.1 hx
  rw [List.getElem_set] at hxj
  by_cases hij : i = j
  · rw [if_pos hij] at hxj
    exact .inl hxj.symm
  · rw [if_neg hij] at hxj
    rw [List.length_set] at hj
    have hxm : x ∈ ws := by rw [← hxj]; exact List.getElem_mem hj
    have hwm : w ∈ ws := by rw [← hwi]; exact List.getElem_mem hi
    have htwo : ¬ ws.length ≤ 1 := by omega
    refine .inr ⟨hxm, ?_, ?_, ?_⟩
    · rw [← hxj, ← hwi]
      rcases Nat.lt_or_gt_of_ne hij with hlt | hlt
      · exact fun e => List.pairwise_iff_getElem.1 h.ids i j hi hj hlt e.symm
      · exact List.pairwise_iff_getElem.1 h.ids j i hj hi hlt
    · cases ht : x.isTxn with
      | false => rfl
      | true => exact absurd (h.alone x hxm ht) htwo
    · cases ht : w.isTxn with
      | false => rfl
      | true => exact absurd (h.alone w hwm ht) htwo

/-- The writers after one of them has made a step. -/
theorem wsOk_set {ws : List (Writer K R)} (h : WsOk ws) {i : Nat} {w w' : Writer K R} (hw : ws[i]? = some w)
    (hid : w'.id = w.id) (hm : w'.mode = w.mode) (hp : w'.isTxn = false → w'.refs = []) : WsOk (ws.set i w') := by
  obtain ⟨hi, hwi⟩ := List.getElem?_eq_some_iff.1 hw
  have hid' : w'.id = ws[i].id := by rw [hwi]; exact hid
  refine ⟨?_, ?_, ?_⟩
  · rw [List.pairwise_iff_getElem]
    intro a b ha hb hab
    rw [List.length_set] at ha hb
    have := List.pairwise_iff_getElem.1 h.ids a b ha hb hab
    rw [List.getElem_set, List.getElem_set]
    by_cases h1 : i = a
    · have h2 : ¬ i = b := by omega
      subst h1
      rw [if_pos rfl, if_neg h2, hid']
      exact this
    · by_cases h2 : i = b
      · subst h2
        rw [if_neg h1, if_pos rfl, hid']
        exact this
      · rw [if_neg h1, if_neg h2]
        exact this
  · intro x hx ht
    rw [List.length_set]
    rcases wsOk_other h hw hx with rfl | ⟨_, _, h2, _⟩
    · refine h.alone w (List.mem_of_getElem? hw) ?_
      unfold Writer.isTxn at ht ⊢
      rw [← hm]
      exact ht
    · rw [h2] at ht
      cases ht
  · intro x hx ht
    rcases wsOk_other h hw hx with rfl | ⟨h1, _⟩
    · exact hp ht
    · exact h.plain x h1 ht

/-- The writers after one of them has gone. -/
theorem wsOk_erase {ws : List (Writer K R)} (h : WsOk ws) (i : Nat) : WsOk (ws.eraseIdx i) := by
  have hs := List.eraseIdx_sublist ws i
  exact ⟨h.ids.sublist hs, fun w hw ht => Nat.le_trans hs.length_le (h.alone w (hs.subset hw) ht),
    fun w hw ht => h.plain w (hs.subset hw) ht⟩

theorem refs_set {ws : List (Writer K R)} {i : Nat} {w w' : Writer K R} (hw : ws[i]? = some w) (hr : w'.refs = w.refs) :
    (ws.set i w').map (·.refs) = ws.map (·.refs) := by
  obtain ⟨hi, hwi⟩ := List.getElem?_eq_some_iff.1 hw
  rw [List.map_set, hr, ← hwi]
  apply List.ext_getElem
  · simp
  · intro j h1 h2
    rw [List.getElem_set]
    split
    · rename_i h3
      subst h3
      simp
    · rfl

theorem last_seg {c : Ctx A K R} {s : Sys A K R} (h : LogOk c s) : ∃ g, s.segs.getLast? = some g ∧ g ∈ s.segs ∧
    ∀ x ∈ entries s.segs, x.1 ≤ g.seq := by
  have h1 := List.getLast?_eq_some_getLast h.ne
  refine ⟨_, h1, List.getLast_mem h.ne, ?_⟩
  intro x hx
  obtain ⟨g, hg, p, hp, rfl⟩ := mem_entries.1 hx
  simp only
  obtain ⟨ys, hys⟩ := List.getLast?_eq_some_iff.1 h1
  have hasc := h.asc
  rw [hys] at hg hasc
  rcases List.mem_append.1 hg with hg | hg
  · exact Nat.le_of_lt ((List.pairwise_append.1 hasc).2.2 g hg _ (by simp))
  · rw [List.mem_singleton.1 hg]

theorem floor_at {ext : R → Option K} {x : Exec K R} {t n : Nat} {db : Db K R} {v : Version (Planner.Info K)}
    (h : Inv ext x t n db) (hat : At db.kv t n v) : (walFloor db.kv t).toOption.join = v.floor := by
  obtain ⟨hd, hok⟩ := h.reg
  have h1 := hok.walFloor
  rw [hok.floorN v hat] at h1
  unfold walFloor
  rw [h1]
  cases v.floor with
  | none => rfl
  | some w => rfl

/-- A list that becomes the segments of the version becomes the floor. -/
theorem floor_of_refs {v : Version (Planner.Info K)} (hv : VersionOk v) {refs : List WalRef} (hp : v.wal.Perm refs) :
    (∀ g, Covers refs g → Covers v.floor.toList g) ∧ ∀ r ∈ v.floor.toList, r ∈ refs := by
  cases hf : v.floor with
  | none => exact ⟨fun _ _ => .inl rfl, by simp⟩
  | some f =>
    obtain ⟨h1, h2⟩ := hv.floor f hf
    constructor
    · intro g hg
      right
      refine ⟨f, by simp, ?_⟩
      rcases hg with rfl | ⟨r, hr, hle⟩
      · have := hp.mem_iff.1 h1
        cases this
      · have := h2 r (hp.mem_iff.2 hr)
        omega
    · intro r hr
      simp only [Option.toList_some, List.mem_singleton] at hr
      subst hr
      exact hp.mem_iff.1 h1

end Tonbo.Lemmas.Durable
