import Verif.Model.Durable
import Verif.Spec.CalmView
import Verif.Lemmas.ProjScan
import Verif.Lemmas.TxnMem

/-! # Rows in memory and in the log are rows that were written, across crashes -/

set_option linter.unusedSectionVars false

namespace Tonbo.Lemmas.DurableRows
open Tonbo.Model Tonbo.Model.Mem Tonbo.Model.Lsm Tonbo.Model.Durable Tonbo.Spec.Durable
open Tonbo.Model.Wal (Event Batch Pend RState applyUpsert applyDelete applyOne applyPayload replayEvent replay addResult
  setPend pushPend)

variable {A K R : Type} [LinearOrder K] {P : R → Prop}

/-- Every row of a mutable table. -/
def InnerRows (P : R → Prop) (m : Inner K R) : Prop := ∀ a ∈ m.batches, ∀ r ∈ a.rows, P r

/-- Every row in memory. -/
def MemRows (P : R → Prop) (t : Runs K R) : Prop := InnerRows P t.mem ∧ ∀ m ∈ t.runs, ∀ r ∈ m.rows, P r

/-- Every row of the outcome of a call. -/
def ResRows (P : R → Prop) (q : Except Mem.Err (Option (Imm K R)) × Inner K R) : Prop :=
  InnerRows P q.2 ∧ ∀ x, q.1 = .ok (some x) → ∀ r ∈ x.rows, P r

theorem seal_res {ext : R → Option K} {s : Inner K R} (h : InnerRows P s) : ResRows P (sealInner ext s) := by
  rcases hs : sealInner ext s with ⟨o, m⟩
  cases o with
  | ok o =>
    obtain ⟨h1, h2⟩ := Lemmas.Proj.seal_rows h hs
    exact ⟨h1, fun x hx => h2 x (by cases hx; rfl)⟩
  | error e =>
    refine ⟨?_, fun x hx => by cases hx⟩
    unfold sealInner at hs
    simp only at hs
    split at hs
    · cases hs
    · split at hs
      · cases hs; exact h
      · split at hs
        · cases hs; exact fun a ha => by cases ha
        · split at hs
          · cases hs; exact fun a ha => by cases ha
          · cases hs

theorem try_rows {ext : R → Option K} {s : Inner K R} {rows : List R} {ts : List Nat} (h : InnerRows P s)
    (hr : ∀ r ∈ rows, P r) : match tryInsertBatch ext s rows ts with
      | .ok s' => InnerRows P s' | .err _ s' => InnerRows P s' | .full => True := by
  have happ : InnerRows P { s with batches := s.batches ++ [⟨rows, ts⟩] } := by
    intro a ha
    rcases List.mem_append.1 ha with ha | ha
    · exact h a ha
    · rw [List.mem_singleton.1 ha]; exact hr
  unfold tryInsertBatch
  split
  · rename_i s' heq
    split at heq
    · cases heq
    · simp only at heq
      split at heq
      · cases heq
      · cases heq; exact happ
  · rename_i s' heq
    split at heq
    · cases heq
    · simp only at heq
      split at heq
      · cases heq; exact happ
      · cases heq
  · trivial

theorem tryDel_rows {s : Inner K R} {b : List (Option K × Option Nat)} (h : InnerRows P s) :
    match tryInsertDelete s b with
      | .ok s' => InnerRows P s' | .err _ s' => InnerRows P s' | .full => True := by
  unfold tryInsertDelete
  by_cases hb : b = []
  · rw [if_pos hb]; exact h
  · rw [if_neg hb]
    cases b.mapM (·.2) with
    | none => exact h
    | some ts =>
      by_cases hc : s.cap ≤ s.dels.length
      · simp only [if_pos hc]
      · simp only [if_neg hc]
        cases b.mapM (·.1) with
        | none => exact h
        | some ks => exact h

theorem insert_res {ext : R → Option K} {s : Inner K R} {rows : List R} {ts : List (Option Nat)} (h : InnerRows P s)
    (hr : ∀ r ∈ rows, P r) : ResRows P (insertBatchMvcc ext s rows ts) := by
  have no : ∀ {q : Inner K R} {e : Mem.Err}, InnerRows P q → ResRows P ((.error e, q) : Except Mem.Err (Option (Imm K R)) × _) :=
    fun hq => ⟨hq, fun x hx => by cases hx⟩
  unfold insertBatchMvcc
  split
  · exact no h
  · split
    · exact no h
    · rename_i ts' _
      have h1 := try_rows (ext := ext) (ts := ts') h hr
      split
      · rename_i heq; rw [heq] at h1; exact ⟨h1, fun x hx => by cases hx⟩
      · rename_i heq; rw [heq] at h1; exact no h1
      · have h2 := seal_res (ext := ext) h
        split
        · rename_i heq; rw [heq] at h2; exact no h2.1
        · rename_i sealed s' heq
          rw [heq] at h2
          have h3 := try_rows (ext := ext) (ts := ts') h2.1 hr
          split
          · rename_i heq3; rw [heq3] at h3; exact ⟨h3, fun x hx => h2.2 x hx⟩
          · rename_i heq3; rw [heq3] at h3; exact no h3
          · exact no h2.1

theorem delete_res {ext : R → Option K} {s : Inner K R} {b : List (Option K × Option Nat)} (h : InnerRows P s) :
    ResRows P (insertDeleteBatch ext s b) := by
  have no : ∀ {q : Inner K R} {e : Mem.Err}, InnerRows P q → ResRows P ((.error e, q) : Except Mem.Err (Option (Imm K R)) × _) :=
    fun hq => ⟨hq, fun x hx => by cases hx⟩
  unfold insertDeleteBatch
  have h1 := tryDel_rows (b := b) h
  split
  · rename_i heq; rw [heq] at h1; exact ⟨h1, fun x hx => by cases hx⟩
  · rename_i heq; rw [heq] at h1; exact no h1
  · have h2 := seal_res (ext := ext) h
    split
    · rename_i heq; rw [heq] at h2; exact no h2.1
    · rename_i sealed s' heq
      rw [heq] at h2
      have h3 := tryDel_rows (b := b) h2.1
      split
      · rename_i heq3; rw [heq3] at h3; exact ⟨h3, fun x hx => h2.2 x hx⟩
      · rename_i heq3; rw [heq3] at h3; exact no h3
      · exact no h2.1

theorem addRun_rows {rs : List (Imm K R)} {o : Option (Imm K R)} (h : ∀ m ∈ rs, ∀ r ∈ m.rows, P r)
    (ho : ∀ x, o = some x → ∀ r ∈ x.rows, P r) : ∀ m ∈ addRun rs o, ∀ r ∈ m.rows, P r := by
  intro m hm
  cases o with
  | none => exact h m hm
  | some y =>
    rcases List.mem_append.1 hm with hm | hm
    · exact h m hm
    · rw [List.mem_singleton.1 hm]; exact ho y rfl

/-- A call, whatever its result. -/
theorem call_rows {ext : R → Option K} {t : Runs K R} {op : Mem.Op K R} (h : MemRows P t)
    (hop : ∀ rows, op = .put rows → ∀ q ∈ rows, P q.1) : MemRows P (t.call ext op).2 := by
  have hres : ResRows P (Mem.memCall ext t.mem op) := by
    cases op with
    | put rows =>
      refine insert_res h.1 fun r hr => ?_
      obtain ⟨q, hq, rfl⟩ := List.mem_map.1 hr
      exact hop rows rfl q hq
    | del keys => exact delete_res h.1
    | freeze => exact seal_res h.1
  unfold Runs.call
  rcases hm : Mem.memCall ext t.mem op with ⟨o, m⟩
  rw [hm] at hres
  cases o with
  | error e => exact ⟨hres.1, h.2⟩
  | ok o => exact ⟨hres.1, addRun_rows h.2 fun x hx => hres.2 x (by rw [hx])⟩

/-! ## Replay -/

/-- The rows that a batch decodes to. -/
def BatchRows (c : Ctx A K R) (P : R → Prop) (b : Batch A) : Prop := ∀ rows, c.sch.rows b = some rows → ∀ r ∈ rows, P r

/-- The rows of an event. -/
def EventRows (c : Ctx A K R) (P : R → Prop) : Event A → Prop
  | .append _ b _ _ => BatchRows c P b
  | _ => True

/-- The rows of a payload that waits for its commit. -/
def PendRows (c : Ctx A K R) (P : R → Prop) : Pend A → Prop
  | .upsert b _ => BatchRows c P b
  | .delete _ => True

theorem addResult_rows {t t' : Runs K R} {q : Except Mem.Err (Option (Imm K R)) × Inner K R} (h : MemRows P t)
    (hq : ResRows P q) (he : addResult t q = some t') : MemRows P t' := by
  obtain ⟨o, m⟩ := q
  cases o with
  | error e => cases he
  | ok o =>
    cases he
    exact ⟨hq.1, addRun_rows h.2 fun x hx => hq.2 x (by rw [hx])⟩

theorem applyPayload_rows {c : Ctx A K R} {pol : Nat → Bool} {ts : BitVec 64} {s s' : Runs K R × Nat} {p : Pend A}
    (h : MemRows P s.1) (hp : PendRows c P p) (he : applyPayload c.ext c.sch pol ts s p = some s') : MemRows P s'.1 := by
  unfold applyPayload at he
  cases ho : applyOne c.ext c.sch ts s.1 p with
  | none => rw [ho] at he; cases he
  | some t =>
    rw [ho] at he
    have ht : MemRows P t := by
      cases p with
      | upsert b col =>
        simp only [applyOne, applyUpsert] at ho
        split at ho
        · cases ho
        · rename_i rows hrows
          split at ho
          · cases ho
          · exact addResult_rows h (insert_res h.1 (hp rows hrows)) ho
      | delete b =>
        simp only [applyOne, applyDelete] at ho
        split at ho
        · cases ho
        · split at ho
          · cases ho
          · split at ho
            · cases ho
            · split at ho
              · cases ho
              · exact addResult_rows h (delete_res h.1) ho
    simp only at he
    split at he
    · obtain ⟨t', h1, h2⟩ := Option.map_eq_some_iff.1 he
      rw [← h2]
      exact addResult_rows ht (seal_res ht.1) h1
    · cases he; exact ht

theorem foldPayload_rows {c : Ctx A K R} {pol : Nat → Bool} {ts : BitVec 64} : ∀ (ps : List (Pend A))
    (s s' : Runs K R × Nat), MemRows P s.1 → (∀ p ∈ ps, PendRows c P p) →
    ps.foldlM (applyPayload c.ext c.sch pol ts) s = some s' → MemRows P s'.1
  | [], s, s', h, _, he => by cases he; exact h
  | p :: ps, s, s', h, hp, he => by
    rw [List.foldlM_cons] at he
    simp only [Option.bind_eq_bind, Option.bind_eq_some_iff] at he
    obtain ⟨s1, h1, h2⟩ := he
    exact foldPayload_rows ps s1 s' (applyPayload_rows h (hp p List.mem_cons_self) h1)
      (fun q hq => hp q (List.mem_cons_of_mem _ hq)) h2

/-- The rows of the state of a replay. -/
def ReplayRows (c : Ctx A K R) (P : R → Prop) (s : RState A K R) : Prop :=
  MemRows P s.mem ∧ ∀ id ps, s.pend id = some ps → ∀ p ∈ ps, PendRows c P p

theorem setPend_rows {c : Ctx A K R} {m : BitVec 64 → Option (List (Pend A))} {id : BitVec 64}
    {v : Option (List (Pend A))} (h : ∀ id ps, m id = some ps → ∀ p ∈ ps, PendRows c P p)
    (hv : ∀ ps, v = some ps → ∀ p ∈ ps, PendRows c P p) :
    ∀ i ps, setPend m id v i = some ps → ∀ p ∈ ps, PendRows c P p := by
  intro i ps hi
  unfold setPend at hi
  split at hi
  · exact hv ps hi
  · exact h i ps hi

theorem getD_rows {c : Ctx A K R} {m : BitVec 64 → Option (List (Pend A))} {id : BitVec 64}
    (h : ∀ id ps, m id = some ps → ∀ p ∈ ps, PendRows c P p) : ∀ p ∈ (m id).getD [], PendRows c P p := by
  intro p hp
  cases hm : m id with
  | none => rw [hm] at hp; cases hp
  | some ps => rw [hm] at hp; exact h id ps hm p hp

theorem pushPend_rows {c : Ctx A K R} {m : BitVec 64 → Option (List (Pend A))} {id : BitVec 64} {p : Pend A}
    (h : ∀ id ps, m id = some ps → ∀ p ∈ ps, PendRows c P p) (hp : PendRows c P p) :
    ∀ i ps, pushPend m id p i = some ps → ∀ p ∈ ps, PendRows c P p := by
  refine setPend_rows h fun ps he q hq => ?_
  cases he
  rcases List.mem_append.1 hq with hq | hq
  · exact getD_rows h q hq
  · rw [List.mem_singleton.1 hq]; exact hp

theorem replayEvent_rows {c : Ctx A K R} {pol : Nat → Bool} {s s' : RState A K R} {e : Event A}
    (h : ReplayRows c P s) (hev : EventRows c P e) (hs : replayEvent c.ext c.sch pol s e = some s') :
    ReplayRows c P s' := by
  cases e with
  | begin id =>
    cases hs
    exact ⟨h.1, setPend_rows h.2 fun ps he => by cases he; exact getD_rows h.2⟩
  | append id b t col => cases hs; exact ⟨h.1, pushPend_rows h.2 hev⟩
  | delete id b t => cases hs; exact ⟨h.1, pushPend_rows h.2 trivial⟩
  | abort id => cases hs; exact ⟨h.1, setPend_rows h.2 fun ps he => by cases he⟩
  | sealMarker => cases hs; exact h
  | commit id ts =>
    unfold replayEvent at hs
    simp only at hs
    have hp0 : ∀ i ps, setPend s.pend id none i = some ps → ∀ p ∈ ps, PendRows c P p :=
      setPend_rows h.2 fun ps he => by cases he
    cases hp : s.pend id with
    | none => rw [hp] at hs; cases hs; exact h
    | some ps =>
      rw [hp] at hs
      simp only at hs
      split at hs
      · cases hs; exact ⟨h.1, hp0⟩
      · cases hf : ps.foldlM (applyPayload c.ext c.sch pol ts) (s.mem, s.taken) with
        | none => rw [hf] at hs; cases hs
        | some q =>
          rw [hf] at hs
          cases hs
          exact ⟨foldPayload_rows ps (s.mem, s.taken) q h.1 (h.2 id ps hp) hf, hp0⟩

theorem replayFold_rows {c : Ctx A K R} {pol : Nat → Bool} : ∀ (evs : List (Event A)) (s s' : RState A K R),
    ReplayRows c P s → (∀ e ∈ evs, EventRows c P e) →
    evs.foldlM (replayEvent c.ext c.sch pol) s = some s' → ReplayRows c P s'
  | [], s, s', h, _, he => by cases he; exact h
  | e :: evs, s, s', h, hev, he => by
    rw [List.foldlM_cons] at he
    simp only [Option.bind_eq_bind, Option.bind_eq_some_iff] at he
    obtain ⟨s1, h1, h2⟩ := he
    exact replayFold_rows evs s1 s' (replayEvent_rows h (hev e List.mem_cons_self) h1)
      (fun q hq => hev q (List.mem_cons_of_mem _ hq)) h2

theorem replay_rows {c : Ctx A K R} {pol : Nat → Bool} {cap : Nat} {evs : List (Event A)} {t : Runs K R}
    {last : Option Nat} (hev : ∀ e ∈ evs, EventRows c P e)
    (h : replay c.ext c.sch pol (Runs.new cap) evs = some (t, last)) : MemRows P t := by
  unfold replay at h
  obtain ⟨rs, h1, h2⟩ := Option.map_eq_some_iff.1 h
  cases h2
  exact (replayFold_rows evs _ rs ⟨⟨(fun a ha => by cases ha), (fun m hm => by cases hm)⟩, fun id ps hp => by cases hp⟩
    hev h1).1

/-! ## Histories -/

/-- Rows in memory, in the log and with writers. -/
structure RowsOk (c : Ctx A K R) (P : R → Prop) (s : Sys A K R) : Prop where
  mem : MemRows P s.db.runs
  log : ∀ g ∈ s.segs, ∀ p ∈ g.frames, EventRows c P p.2
  writers : ∀ w ∈ s.writers, (∀ r ∈ w.rows, P r) ∧ c.sch.rows (c.enc.rows w.rows) = some w.rows ∧ w.ts < 2 ^ 64
  committed : ∀ v ∈ s.committed, v.ts < 2 ^ 64 ∧ ∀ r, v.op = .put r → c.ext r = some v.key ∧ P r

/-- What a write commits. -/
theorem writes_rows {c : Ctx A K R} {w : Writer K R} (h1 : ∀ r ∈ w.rows, P r) (h2 : w.ts < 2 ^ 64) :
    ∀ v ∈ w.writes c, v.ts < 2 ^ 64 ∧ ∀ r, v.op = .put r → c.ext r = some v.key ∧ P r := by
  intro v hv
  unfold Writer.writes at hv
  rcases List.mem_append.1 hv with hv | hv
  · split at hv
    · have hv := Lemmas.Mem.lastOnly_mem hv
      simp only [Writer.putOp, Spec.opWrites, Spec.putWrites, List.mem_filterMap, List.mem_map, Option.map_eq_some_iff] at hv
      obtain ⟨q, ⟨r, hr, rfl⟩, k, hk, rfl⟩ := hv
      exact ⟨h2, fun r' hr' => by cases hr'; exact ⟨hk, h1 r hr⟩⟩
    · cases hv
  · split at hv
    · have hv := Lemmas.Mem.lastOnly_mem hv
      simp only [Writer.delOp, Spec.opWrites, Spec.delWrites, List.mem_map] at hv
      obtain ⟨q, ⟨k, hk, rfl⟩, rfl⟩ := hv
      exact ⟨h2, fun r' hr' => by cases hr'⟩
    · cases hv

theorem pushLast_log {c : Ctx A K R} {segs : List (LSeg A)} {q : Nat × Event A}
    (h : ∀ g ∈ segs, ∀ p ∈ g.frames, EventRows c P p.2) (hq : EventRows c P q.2) :
    ∀ g ∈ pushLast segs q, ∀ p ∈ g.frames, EventRows c P p.2 := by
  unfold pushLast
  cases hl : segs.getLast? with
  | none => exact h
  | some g0 =>
    intro g hg p hp
    rcases List.mem_append.1 hg with hg | hg
    · exact h g (List.mem_of_mem_dropLast hg) p hp
    · rw [List.mem_singleton.1 hg] at hp
      rcases List.mem_append.1 hp with hp | hp
      · exact h g0 (List.mem_of_getLast? hl) p hp
      · rw [List.mem_singleton.1 hp]; exact hq

theorem moveRange_same (s : Sys A K R) (t : Runs K R) :
    (moveRange s t).db.runs = t ∧ (moveRange s t).segs = s.segs ∧ (moveRange s t).writers = s.writers ∧
      (moveRange s t).committed = s.committed := by
  unfold moveRange
  split <;> exact ⟨rfl, rfl, rfl, rfl⟩

theorem memCall_ok {c : Ctx A K R} {s : Sys A K R} {op : Mem.Op K R} (h : RowsOk c P s)
    (hop : ∀ rows, op = .put rows → ∀ q ∈ rows, P q.1) : RowsOk c P (Durable.memCall c s op).2 := by
  obtain ⟨e1, e2, e3, e4⟩ := moveRange_same s (s.db.runs.call c.ext op).2
  unfold Durable.memCall
  refine ⟨?_, ?_, ?_, ?_⟩
  · rw [e1]; exact call_rows h.mem hop
  · rw [e2]; exact h.log
  · rw [e3]; exact h.writers
  · rw [e4]; exact h.committed

theorem frame_ok {c : Ctx A K R} {s : Sys A K R} {w : Writer K R} {e : Event A} (h : RowsOk c P s)
    (he : EventRows c P e) : RowsOk c P (frame s w e).1 :=
  ⟨h.mem, pushLast_log h.log he, h.writers, h.committed⟩

theorem prune_ok {c : Ctx A K R} {s : Sys A K R} (h : RowsOk c P s) : RowsOk c P (prune c s) := by
  unfold prune
  split
  · exact h
  · exact ⟨h.mem, fun g hg => h.log g (List.mem_filter.1 hg).1, h.writers, h.committed⟩

theorem frameStep_ok {c : Ctx A K R} {s : Sys A K R} {w : Writer K R} {b : Bool} {e : Event A} {p : Phase}
    (h : RowsOk c P s) (he : EventRows c P e) : RowsOk c P (frameStep s w b e p).1 ∧
      ∀ w' ∈ (frameStep s w b e p).2, w'.rows = w.rows ∧ w'.ts = w.ts := by
  unfold frameStep
  split
  · exact ⟨frame_ok (w := w) h he, fun w' hw => by cases hw; exact ⟨rfl, rfl⟩⟩
  · exact ⟨h, fun w' hw => by cases hw; exact ⟨rfl, rfl⟩⟩

theorem applyStep_ok {c : Ctx A K R} {s : Sys A K R} {w : Writer K R} {b : Bool} {op : Mem.Op K R} {p : Phase}
    (h : RowsOk c P s) (hop : ∀ rows, op = .put rows → ∀ q ∈ rows, P q.1) : RowsOk c P (applyStep c s w b op p).1 ∧
      ∀ w' ∈ (applyStep c s w b op p).2, w'.rows = w.rows ∧ w'.ts = w.ts := by
  unfold applyStep
  split
  · refine ⟨memCall_ok h hop, fun w' hw => ?_⟩
    simp only at hw
    split at hw
    · cases hw; exact ⟨rfl, rfl⟩
    · cases hw
  · exact ⟨h, fun w' hw => by cases hw; exact ⟨rfl, rfl⟩⟩

theorem putOp_rows {w : Writer K R} (hw : ∀ r ∈ w.rows, P r) : ∀ rows, w.putOp = .put rows → ∀ q ∈ rows, P q.1 := by
  intro rows hr q hq
  simp only [Writer.putOp, Mem.Op.put.injEq] at hr
  subst hr
  obtain ⟨r, hr, rfl⟩ := List.mem_map.1 hq
  exact hw r hr

theorem delOp_rows {w : Writer K R} : ∀ rows, w.delOp = .put rows → ∀ q ∈ rows, P q.1 := by
  intro rows hr
  cases hr

theorem upEvent_rows {c : Ctx A K R} {w : Writer K R} (hw : ∀ r ∈ w.rows, P r)
    (hd : c.sch.rows (c.enc.rows w.rows) = some w.rows) : EventRows c P (w.upEvent c) := by
  intro rows hr
  rw [hd] at hr
  cases hr
  exact hw

theorem advance_ok {c : Ctx A K R} {s : Sys A K R} {w : Writer K R} (h : RowsOk c P s) (hw : w ∈ s.writers) :
    RowsOk c P (advance c s w).1 ∧ ∀ w' ∈ (advance c s w).2, w'.rows = w.rows ∧ w'.ts = w.ts := by
  obtain ⟨h1, h2, h3⟩ := h.writers w hw
  unfold advance
  cases w.phase with
  | begin => exact frameStep_ok h trivial
  | up => exact frameStep_ok h (upEvent_rows h1 h2)
  | del => exact frameStep_ok h trivial
  | commit =>
    have := frame_ok (w := w) (e := .commit (BitVec.ofNat 64 w.id) (BitVec.ofNat 64 w.ts)) h trivial
    refine ⟨⟨this.mem, this.log, this.writers, fun v hv => ?_⟩, fun w' hw => by cases hw; exact ⟨rfl, rfl⟩⟩
    rcases List.mem_append.1 hv with hv | hv
    · exact h.committed v hv
    · exact writes_rows h1 h3 v hv
  | record =>
    simp only
    split
    · exact ⟨h, fun w' hw => by cases hw; exact ⟨rfl, rfl⟩⟩
    · exact ⟨⟨h.mem, h.log, h.writers, h.committed⟩, fun w' hw => by cases hw; exact ⟨rfl, rfl⟩⟩
  | applyUp => exact applyStep_ok h (putOp_rows h1)
  | applyDel => exact applyStep_ok h delOp_rows
  | look => exact ⟨h, fun w' hw => by cases hw; exact ⟨rfl, rfl⟩⟩
  | publish =>
    simp only
    split
    · exact ⟨h, fun w' hw => by cases hw; exact ⟨rfl, rfl⟩⟩
    · split
      · exact ⟨⟨h.mem, h.log, h.writers, h.committed⟩, fun w' hw => by cases hw; exact ⟨rfl, rfl⟩⟩
      · exact ⟨⟨h.mem, h.log, h.writers, h.committed⟩, fun w' hw => by cases hw⟩
  | prune => exact ⟨prune_ok h, fun w' hw => by cases hw; exact ⟨rfl, rfl⟩⟩
  | ack => exact ⟨⟨h.mem, h.log, h.writers, h.committed⟩, fun w' hw => by cases hw⟩

theorem replayed_rows {c : Ctx A K R} {s : Sys A K R} (h : RowsOk c P s) :
    ∀ e ∈ replayed (floorOf c s) s.segs, EventRows c P e := by
  intro e he
  obtain ⟨g, hg, he⟩ := List.mem_flatMap.1 he
  obtain ⟨p, hp, rfl⟩ := List.mem_map.1 he
  exact h.log g hg p (List.mem_filter.1 hp).1

theorem crash_ok {c : Ctx A K R} {s : Sys A K R} {cap : Nat} {pol : Nat → Bool} {st : Option Wal.WState}
    (h : RowsOk c P s) : RowsOk c P (crash c s cap pol st) := by
  unfold crash
  split
  · exact ⟨h.mem, h.log, h.writers, h.committed⟩
  · split
    · exact ⟨h.mem, h.log, h.writers, h.committed⟩
    · rename_i hr
      exact ⟨replay_rows (replayed_rows h) hr, h.log, (fun w hw => by cases hw), h.committed⟩

theorem begin_ok {c : Ctx A K R} {s : Sys A K R} {w : Writer K R} (h : RowsOk c P s) (h1 : ∀ r ∈ w.rows, P r)
    (h2 : c.sch.rows (c.enc.rows w.rows) = some w.rows) (h3 : w.ts < 2 ^ 64) : RowsOk c P (Durable.begin c s w) := by
  have add : ∀ {q : Sys A K R} {ack : List (Spec.Ver K R)}, RowsOk c P q →
      RowsOk c P { q with acked := ack, writers := q.writers ++ [w] } := by
    intro q ack hq
    refine ⟨hq.mem, hq.log, fun v hv => ?_, hq.committed⟩
    rcases List.mem_append.1 hv with hv | hv
    · exact hq.writers v hv
    · rw [List.mem_singleton.1 hv]; exact ⟨h1, h2, h3⟩
  unfold Durable.begin
  split
  · have ha := (applyStep_ok (c := c) (w := w) (b := w.hasUp) (p := .begin) h (putOp_rows h1)).1
    simp only
    split
    · exact ha
    · have hb := (applyStep_ok (c := c) (w := w) (b := w.hasDel) (op := w.delOp) (p := .begin) ha delOp_rows).1
      split
      · exact hb
      · exact add hb
  · exact add h

/-- The rows that a history hands to the database. -/
def Handed (P : R → Prop) (ops : List (Durable.Op K R)) : Prop :=
  ∀ mode rows keys, Durable.Op.write mode rows keys ∈ ops → ∀ r ∈ rows, P r

theorem step_ok {c : Ctx A K R} {s : Sys A K R} {o : Durable.Op K R} (h : RowsOk c P s) (hc : Calm c s o)
    (ho : ∀ mode rows keys, o = .write mode rows keys → ∀ r ∈ rows, P r) : RowsOk c P (Durable.step c s o) := by
  unfold Durable.step
  split
  · exact h
  · cases o with
    | write mode rows keys =>
      exact begin_ok (s := { s with clock := s.clock + 1, nextId := s.nextId + 1 }) ⟨h.mem, h.log, h.writers, h.committed⟩
        (ho mode rows keys rfl) hc.2.2.2.2.1.1 hc.2.2.2.2.2.1
    | advance i =>
      simp only [stepLive]
      split
      · exact h
      · rename_i w hw
        have hwm := List.mem_of_getElem? hw
        obtain ⟨g1, g2⟩ := advance_ok h hwm
        refine ⟨g1.mem, g1.log, fun v hv => ?_, g1.committed⟩
        simp only at hv
        cases ha : (advance c s w).2 with
        | none =>
          rw [ha] at hv
          exact h.writers v (List.mem_of_mem_eraseIdx hv)
        | some w' =>
          rw [ha] at hv
          rcases List.mem_or_eq_of_mem_set hv with hv | hv
          · exact h.writers v hv
          · rw [hv, (g2 w' ha).1, (g2 w' ha).2]; exact h.writers w hwm
    | cancel i => exact ⟨h.mem, h.log, (fun v hv => h.writers v (List.mem_of_mem_eraseIdx hv)), h.committed⟩
    | rotate =>
      refine ⟨h.mem, fun g hg => ?_, h.writers, h.committed⟩
      rcases List.mem_append.1 hg with hg | hg
      · exact h.log g hg
      · rw [List.mem_singleton.1 hg]; exact fun p hp => by cases hp
    | freeze => exact memCall_ok h (fun rows hr => by cases hr)
    | flushBegin =>
      simp only [stepLive]
      split
      · exact ⟨h.mem, h.log, h.writers, h.committed⟩
      · exact h
    | flushWrite =>
      simp only [stepLive]
      split
      · exact h
      · rename_i n _
        refine ⟨?_, h.log, h.writers, h.committed⟩
        change MemRows P (flushWrite c.ext c.x s.db n _).runs
        rw [Lemmas.Txn.flushWrite_runs]
        exact h.mem
    | flushPublish =>
      refine ⟨?_, h.log, h.writers, h.committed⟩
      have := Lemmas.Txn.step_runs c.ext c.x c.table s.db .flushPublish rfl (fun op h => by cases h)
      change MemRows P (Lsm.step c.ext c.x c.table s.db .flushPublish).2.runs
      rw [this]
      exact h.mem
    | flushDrain =>
      refine ⟨?_, h.log, h.writers, h.committed⟩
      change MemRows P (flushDrain s.db).runs
      unfold flushDrain
      split
      · refine ⟨h.mem.1, fun m hm => ?_⟩
        simp only at hm
        split at hm
        · exact h.mem.2 m (List.mem_of_mem_drop hm)
        · cases hm
      · exact h.mem
    | prune => exact prune_ok h
    | start t head skip =>
      refine ⟨?_, h.log, h.writers, h.committed⟩
      have := Lemmas.Txn.step_runs c.ext c.x c.table s.db (.start t head skip) rfl (fun op h => by cases h)
      change MemRows P (Lsm.step c.ext c.x c.table s.db (.start t head skip)).2.runs
      rw [this]
      exact h.mem
    | finish i =>
      refine ⟨?_, h.log, h.writers, h.committed⟩
      have := Lemmas.Txn.step_runs c.ext c.x c.table s.db (.finish i) rfl (fun op h => by cases h)
      change MemRows P (Lsm.step c.ext c.x c.table s.db (.finish i)).2.runs
      rw [this]
      exact h.mem
    | crash cap pol st => exact crash_ok h

theorem run_ok {c : Ctx A K R} : ∀ (ops : List (Durable.Op K R)) (s : Sys A K R), RowsOk c P s → CalmRun c s ops →
    Handed P ops → RowsOk c P (Durable.run c s ops)
  | [], _, h, _, _ => h
  | o :: os, s, h, hc, hh =>
    run_ok os (Durable.step c s o)
      (step_ok h hc.1 fun mode rows keys e => hh mode rows keys (by rw [e]; exact List.mem_cons_self)) hc.2
      (fun mode rows keys hm => hh mode rows keys (List.mem_cons_of_mem _ hm))

theorem new_ok (c : Ctx A K R) (cap table sv : Nat) : RowsOk c P (Sys.new cap table sv) where
  mem := ⟨(fun a ha => by cases ha), (fun m hm => by cases hm)⟩
  log := by
    intro g hg
    rw [List.mem_singleton.1 hg]
    exact fun p hp => by cases hp
  writers := fun w hw => by cases hw
  committed := fun w hw => by cases hw

end Tonbo.Lemmas.DurableRows
