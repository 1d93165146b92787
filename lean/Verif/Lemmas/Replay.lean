import Verif.Spec.ReplayView
import Verif.Props.C02_C04_Memtable
import Mathlib.Data.List.Induction

/-!
# Replay against the meaning of the log
-/

set_option linter.unusedSectionVars false

namespace Tonbo.Lemmas.Replay
open Tonbo.Model Tonbo.Model.Wal Tonbo.Model.Mem Tonbo.Spec Tonbo.Spec.Wal

variable {A K R : Type} [LinearOrder K]

/-! ## The specification, one event more -/

theorem body_snoc (id : BitVec 64) (pre : List (Event A)) (e : Event A) :
    bodyOf id (pre ++ [e]) =
      if finishes id e then [] else bodyOf id pre ++ (if payloadOf id e then [e] else []) := by
  unfold bodyOf
  rw [List.reverse_append, List.reverse_singleton, List.singleton_append, List.takeWhile_cons]
  cases h : finishes id e with
  | true => simp
  | false =>
    simp only [Bool.not_false, if_true, List.reverse_cons, List.filter_append]
    congr 1
    cases hp : payloadOf id e <;> simp [hp]

theorem committed_snoc (pre : List (Event A)) (e : Event A) :
    committedTxns (pre ++ [e]) = committedTxns pre ++
      (match e with | .commit id ts => [(ts, bodyOf id pre)] | _ => []) := by
  unfold committedTxns
  rw [List.length_append, List.length_singleton, List.range_succ, List.filterMap_append]
  congr 1
  · apply List.filterMap_congr
    intro i hi
    have hi : i < pre.length := List.mem_range.1 hi
    rw [List.getElem?_append_left hi, List.take_append_of_le_length (by omega)]
  · simp only [List.filterMap_cons, List.filterMap_nil]
    rw [List.getElem?_append_right (by omega), Nat.sub_self, List.take_left]
    cases e <;> rfl

/-! ## Payloads -/

/-- What replay keeps of a payload event. -/
def toPend : Event A → Option (Pend A)
  | .append _ b _ col => some (.upsert b col)
  | .delete _ b _ => some (.delete b)
  | _ => none

/-- The writes of a kept payload. -/
def pendWrites (ext : R → Option K) (sch : Sch A K R) (ts : BitVec 64) : Pend A → List (Ver K R)
  | .upsert b _ => ((sch.rows b).getD []).filterMap (fun r => (ext r).map (fun k => ⟨k, ts.toNat, .put r⟩))
  | .delete b => ((sch.keys b).getD []).filterMap (fun k => k.map (fun k => ⟨k, ts.toNat, .del⟩))

theorem pendWrites_eq (ext : R → Option K) (sch : Sch A K R) (ts : BitVec 64) (id : BitVec 64)
    (es : List (Event A)) (h : ∀ e ∈ es, payloadOf id e = true) :
    (es.filterMap toPend).flatMap (pendWrites ext sch ts) = es.flatMap (payloadWrites ext sch ts) := by
  induction es with
  | nil => rfl
  | cons e es ih =>
    have he := h e (by simp)
    have ih := ih (fun x hx => h x (List.mem_cons_of_mem _ hx))
    cases e <;> simp_all [payloadOf, toPend, pendWrites, payloadWrites]

theorem checkColumn_some {ts : BitVec 64} {col : Col A} {vs : List (BitVec 64)}
    (h : checkColumn ts col = some vs) :
    vs = List.replicate vs.length ts ∧ col = .u64 (List.replicate vs.length (some ts)) := by
  cases col with
  | other _ _ _ => cases h
  | u64 ws =>
    simp only [checkColumn] at h
    split at h
    · cases h
    · split at h
      · cases h
      · rename_i h1 h2
        have hall : ∀ w ∈ ws, w = some ts := by
          intro w hw
          by_contra hne
          apply h2
          rw [List.any_eq_true]
          exact ⟨w, hw, by simpa using hne⟩
        have e : ws = List.replicate ws.length (some ts) := List.eq_replicate_iff.2 ⟨rfl, hall⟩
        have h : ws.filterMap id = vs := by simpa using h
        subst h
        have e2 : ws.filterMap id = List.replicate ws.length ts := by
          conv_lhs => rw [e]
          simp
        rw [e2]
        simp [← e]

theorem checkColumn_replicate (ts : BitVec 64) (n : Nat) :
    checkColumn (A := A) ts (.u64 (List.replicate n (some ts))) = some (List.replicate n ts) := by
  unfold checkColumn
  simp only
  rw [if_neg, if_neg]
  · simp
  · simp
  · simp

theorem zip_replicate {X Y : Type} (l : List X) (y : Y) : l.zip (List.replicate l.length y) = l.map (fun x => (x, y)) := by
  induction l with
  | nil => rfl
  | cons a l ih => simp [List.replicate_succ, ih]

theorem addResult_call {ext : R → Option K} {t t' : Runs K R} {op : Mem.Op K R}
    (h : addResult t (memCall ext t.mem op) = some t') : t.call ext op = (true, t') := by
  unfold Runs.call
  cases hm : memCall ext t.mem op with
  | mk r m =>
    rw [hm] at h
    cases r with
    | error e => cases h
    | ok o => simp only [addResult, Option.some.injEq] at h; rw [← h]

theorem call_addResult {ext : R → Option K} {t t' : Runs K R} {op : Mem.Op K R}
    (h : t.call ext op = (true, t')) : addResult t (memCall ext t.mem op) = some t' := by
  unfold Runs.call at h
  cases hm : memCall ext t.mem op with
  | mk r m =>
    rw [hm] at h
    cases r with
    | error e => simp at h
    | ok o => simp only [Prod.mk.injEq, true_and] at h; rw [← h]; rfl

/-- Keys that are all present. -/
theorem mapM_fst {ks : List (Option K)} {ts : List (Option Nat)} (hl : ks.length = ts.length)
    {l : List K} (h : (ks.zip ts).mapM (·.1) = some l) : ks = l.map some := by
  induction ks generalizing ts l with
  | nil => simp at h; subst h; rfl
  | cons k ks ih =>
    cases ts with
    | nil => cases hl
    | cons t ts =>
      simp only [List.zip_cons_cons, List.mapM_cons] at h
      cases k with
      | none => cases h
      | some k =>
        cases hm : (ks.zip ts).mapM (·.1) with
        | none => rw [hm] at h; cases h
        | some l' =>
          rw [hm] at h
          cases h
          rw [ih (by simpa using hl) hm]; rfl

theorem filterMap_some_map {X Y : Type} (f : X → Y) (l : List X) :
    (l.map some).filterMap (fun k : Option X => k.map f) = l.map f := by
  induction l with
  | nil => rfl
  | cons a l ih => simp [ih]

theorem tryDelete_keys {s s' : Inner K R} {batch : List (Option K × Option Nat)}
    (h : tryInsertDelete s batch = .ok s') : ∃ l, batch.mapM (·.1) = some l := by
  unfold tryInsertDelete at h
  split at h
  · rename_i hb; subst hb; exact ⟨[], rfl⟩
  · split at h
    · cases h
    · split at h
      · cases h
      · split at h
        · cases h
        · rename_i l hl; exact ⟨l, hl⟩

theorem insertDelete_keys {ext : R → Option K} {s s' : Inner K R} {o : Option (Imm K R)}
    {batch : List (Option K × Option Nat)} (h : insertDeleteBatch ext s batch = (.ok o, s')) :
    ∃ l, batch.mapM (·.1) = some l := by
  unfold insertDeleteBatch at h
  split at h
  · rename_i h1; exact tryDelete_keys h1
  · cases h
  · split at h
    · cases h
    · split at h
      · rename_i h1; exact tryDelete_keys h1
      · cases h
      · cases h

theorem applyUpsert_ok {ext : R → Option K} {sch : Sch A K R} {t t' : Runs K R} {b : Batch A} {col : Col A}
    {ts : BitVec 64} (h : applyUpsert ext sch t b col ts = some t') :
    ∃ op, t.call ext op = (true, t') ∧ opWrites ext op = pendWrites ext sch ts (.upsert b col) := by
  unfold applyUpsert at h
  cases hr : sch.rows b with
  | none => rw [hr] at h; cases h
  | some rows =>
    rw [hr] at h
    simp only at h
    cases hc : checkColumn ts col with
    | none => rw [hc] at h; cases h
    | some vs =>
      rw [hc] at h
      simp only at h
      obtain ⟨hvs, _⟩ := checkColumn_some hc
      by_cases hl : vs.length = rows.length
      · refine ⟨.put (rows.map (fun r => (r, ts.toNat))), addResult_call ?_, ?_⟩
        · simp only [memCall]
          rw [List.map_map, List.map_map]
          rw [hvs, hl, List.map_replicate] at h
          have e1 : rows.map ((fun p : R × Nat => p.1) ∘ fun r => (r, ts.toNat)) = rows := by
            simp [Function.comp_def]
          have e2 : rows.map ((fun p : R × Nat => some p.2) ∘ fun r => (r, ts.toNat)) =
              List.replicate rows.length (some ts.toNat) := by
            rw [List.eq_replicate_iff]; simp [Function.comp_def]
          rw [e1, e2]
          exact h
        · simp only [opWrites, putWrites, pendWrites, hr, Option.getD_some, List.filterMap_map]
          rfl
      · exfalso
        unfold insertBatchMvcc at h
        rw [if_pos (by simpa using hl)] at h
        cases h

theorem applyDelete_ok {ext : R → Option K} {sch : Sch A K R} {t t' : Runs K R} {b : Batch A}
    {ts : BitVec 64} (h : applyDelete ext sch t b ts = some t') :
    ∃ op, t.call ext op = (true, t') ∧ opWrites ext op = pendWrites ext sch ts (.delete b) := by
  unfold applyDelete at h
  cases hr : sch.keys b with
  | none => rw [hr] at h; cases h
  | some ks =>
    rw [hr] at h
    simp only at h
    cases hf : b.cols.find? (·.name == commitCol) with
    | none => rw [hf] at h; cases h
    | some f =>
      rw [hf] at h
      simp only at h
      cases hc : checkColumn ts f.col with
      | none => rw [hc] at h; cases h
      | some vs =>
        rw [hc] at h
        simp only at h
        split at h
        · cases h
        · rename_i hl
          have hl : ks.length = vs.length := by omega
          obtain ⟨hvs, _⟩ := checkColumn_some hc
          have hmap : vs.map (fun v => some v.toNat) = List.replicate ks.length (some ts.toNat) := by
            rw [hvs, List.map_replicate, hl]
          rw [hmap] at h
          cases hi : insertDeleteBatch ext t.mem (ks.zip (List.replicate ks.length (some ts.toNat))) with
          | mk r m =>
            cases r with
            | error e => rw [hi] at h; cases h
            | ok o =>
              obtain ⟨l, hm⟩ := insertDelete_keys hi
              have hks := mapM_fst (by simp) hm
              refine ⟨.del (l.map (fun k => (k, ts.toNat))), addResult_call ?_, ?_⟩
              · unfold memCall
                rw [zip_replicate, hks] at h
                simp only [List.map_map] at h ⊢
                exact h
              · simp only [opWrites, delWrites, pendWrites, hr, Option.getD_some, hks]
                rw [filterMap_some_map, List.map_map]
                rfl

theorem calls_append (ext : R → Option K) (a b : List (Mem.Op K R)) (t t1 t2 : Runs K R)
    (h1 : t.calls ext a = (true, t1)) (h2 : t1.calls ext b = (true, t2)) :
    t.calls ext (a ++ b) = (true, t2) := by
  induction a generalizing t with
  | nil => simp only [Runs.calls, Prod.mk.injEq, true_and] at h1; subst h1; exact h2
  | cons op a ih =>
    simp only [Runs.calls, Prod.mk.injEq, Bool.and_eq_true] at h1
    obtain ⟨⟨c1, c2⟩, c3⟩ := h1
    have := ih (t.call ext op).2 (by rw [← c2, ← c3])
    simp only [List.cons_append, Runs.calls, this, c1, Bool.and_true]

theorem calls_one {ext : R → Option K} {op : Mem.Op K R} {t t1 : Runs K R} (h : t.call ext op = (true, t1)) :
    t.calls ext [op] = (true, t1) := by
  simp [Runs.calls, h]

theorem applyPayload_ok {ext : R → Option K} {sch : Sch A K R} {pol : Nat → Bool} {ts : BitVec 64}
    {s s' : Runs K R × Nat} {p : Pend A} (h : applyPayload ext sch pol ts s p = some s') :
    ∃ ops, s.1.calls ext ops = (true, s'.1) ∧ ops.flatMap (opWrites ext) = pendWrites ext sch ts p ∧
      ops.flatMap (batchWrites ext) = lastOnly (pendWrites ext sch ts p) := by
  unfold applyPayload at h
  have key : ∀ t, applyOne ext sch ts s.1 p = some t →
      ∃ op, s.1.call ext op = (true, t) ∧ opWrites ext op = pendWrites ext sch ts p := by
    intro t ht
    cases p with
    | upsert b col => exact applyUpsert_ok ht
    | delete b => exact applyDelete_ok ht
  cases hm : applyOne ext sch ts s.1 p with
  | none => rw [hm] at h; cases h
  | some t =>
    rw [hm] at h
    simp only at h
    obtain ⟨op, h1, h2⟩ := key t hm
    split at h
    · cases ha : addResult t (sealInner ext t.mem) with
      | none => rw [ha] at h; cases h
      | some t' =>
        rw [ha] at h
        cases h
        refine ⟨[op, .freeze], calls_append ext [op] [.freeze] _ t _ (calls_one h1)
          (calls_one (addResult_call (op := .freeze) ha)), ?_, ?_⟩
        · rw [List.flatMap_cons, h2]
          simp [opWrites]
        · rw [List.flatMap_cons, batchWrites, h2]
          simp [batchWrites, opWrites, lastOnly]
    · cases h
      exact ⟨[op], calls_one h1, by simp [h2], by simp [batchWrites, h2]⟩

theorem applyPayloads_ok {ext : R → Option K} {sch : Sch A K R} {pol : Nat → Bool} {ts : BitVec 64}
    (ps : List (Pend A)) {s s' : Runs K R × Nat} (h : ps.foldlM (applyPayload ext sch pol ts) s = some s') :
    ∃ ops, s.1.calls ext ops = (true, s'.1) ∧
      ops.flatMap (opWrites ext) = ps.flatMap (pendWrites ext sch ts) ∧
      ops.flatMap (batchWrites ext) = ps.flatMap (fun p => lastOnly (pendWrites ext sch ts p)) := by
  induction ps generalizing s with
  | nil => simp only [List.foldlM_nil] at h; cases h; exact ⟨[], rfl, rfl, rfl⟩
  | cons p ps ih =>
    rw [List.foldlM_cons] at h
    cases hp : applyPayload ext sch pol ts s p with
    | none => rw [hp] at h; cases h
    | some s1 =>
      rw [hp] at h
      obtain ⟨o1, a1, b1, c1⟩ := applyPayload_ok hp
      obtain ⟨o2, a2, b2, c2⟩ := ih h
      exact ⟨o1 ++ o2, calls_append ext _ _ _ _ _ a1 a2, by simp [b1, b2], by simp [c1, c2]⟩

/-! ## The loop -/

/-- The largest of the timestamps of the transactions that carry payloads. -/
def lastOf (txns : List (BitVec 64 × List (Event A))) : Option Nat :=
  (txns.filter (fun p => !p.2.isEmpty)).foldl (fun m p => maxCommit m p.1.toNat) none

theorem lastOf_snoc (txns : List (BitVec 64 × List (Event A))) (p : BitVec 64 × List (Event A)) :
    lastOf (txns ++ [p]) = if p.2.isEmpty then lastOf txns else maxCommit (lastOf txns) p.1.toNat := by
  unfold lastOf
  rw [List.filter_append, List.foldl_append]
  cases h : p.2.isEmpty <;> simp [h]

theorem max_of_last (txns : List (BitVec 64 × List (Event A))) :
    (∀ p ∈ txns, p.2 ≠ [] → ∃ m, lastOf txns = some m ∧ p.1.toNat ≤ m) ∧
    (∀ m, lastOf txns = some m → ∃ p ∈ txns, p.2 ≠ [] ∧ p.1.toNat = m) := by
  induction txns using List.reverseRecOn with
  | nil => exact ⟨by simp, fun m h => by cases h⟩
  | append_singleton txns q ih =>
    obtain ⟨ih1, ih2⟩ := ih
    rw [lastOf_snoc]
    by_cases hq : q.2.isEmpty = true
    · rw [if_pos hq]
      constructor
      · intro p hp hne
        rcases List.mem_append.1 hp with hp | hp
        · exact ih1 p hp hne
        · rw [List.mem_singleton.1 hp] at hne
          exact absurd (List.isEmpty_iff.1 hq) hne
      · intro m hm
        obtain ⟨p, hp, h⟩ := ih2 m hm
        exact ⟨p, List.mem_append_left _ hp, h⟩
    · rw [if_neg hq]
      have hqn : q.2 ≠ [] := fun h => hq (by rw [h]; rfl)
      constructor
      · intro p hp hne
        rcases List.mem_append.1 hp with hp | hp
        · obtain ⟨m, hm, hle⟩ := ih1 p hp hne
          rw [hm]
          exact ⟨_, rfl, Nat.le_trans hle (Nat.le_max_left _ _)⟩
        · rw [List.mem_singleton.1 hp]
          cases lastOf txns with
          | none => exact ⟨_, rfl, Nat.le_refl _⟩
          | some m => exact ⟨_, rfl, Nat.le_max_right _ _⟩
      · intro m hm
        cases hl : lastOf txns with
        | none =>
          rw [hl] at hm
          cases hm
          exact ⟨q, by simp, hqn, rfl⟩
        | some m' =>
          rw [hl] at hm
          simp only [maxCommit, Option.some.injEq] at hm
          rcases Nat.le_total m' q.1.toNat with hle | hle
          · rw [Nat.max_eq_right hle] at hm
            exact ⟨q, by simp, hqn, hm⟩
          · rw [Nat.max_eq_left hle] at hm
            obtain ⟨p, hp, h1, h2⟩ := ih2 m' hl
            exact ⟨p, List.mem_append_left _ hp, h1, by rw [h2, hm]⟩

theorem body_payload {id : BitVec 64} {pre : List (Event A)} : ∀ e ∈ bodyOf id pre, payloadOf id e = true := by
  intro e he
  unfold bodyOf at he
  exact (List.mem_filter.1 he).2

theorem pend_empty_iff {id : BitVec 64} {es : List (Event A)} (h : ∀ e ∈ es, payloadOf id e = true) :
    (es.filterMap toPend).isEmpty = es.isEmpty := by
  cases es with
  | nil => rfl
  | cons e es =>
    have := h e (by simp)
    cases e <;> simp_all [payloadOf, toPend]

/-- What replay's loop maintains. -/
structure Loop (ext : R → Option K) (sch : Sch A K R) (t0 : Runs K R) (pre : List (Event A))
    (s : RState A K R) : Prop where
  pend : ∀ id, (s.pend id).getD [] = (bodyOf id pre).filterMap toPend
  mem : ∃ ops, t0.calls ext ops = (true, s.mem) ∧ ops.flatMap (opWrites ext) = logWrites ext sch pre ∧
    ops.flatMap (batchWrites ext) = logBatches ext sch pre
  last : s.last = lastOf (committedTxns pre)

theorem logWrites_snoc (ext : R → Option K) (sch : Sch A K R) (pre : List (Event A)) (e : Event A) :
    logWrites ext sch (pre ++ [e]) = logWrites ext sch pre ++
      (match e with | .commit id ts => (bodyOf id pre).flatMap (payloadWrites ext sch ts) | _ => []) := by
  unfold logWrites
  rw [committed_snoc, List.flatMap_append]
  congr 1
  cases e <;> simp

theorem logBatches_snoc (ext : R → Option K) (sch : Sch A K R) (pre : List (Event A)) (e : Event A) :
    logBatches ext sch (pre ++ [e]) = logBatches ext sch pre ++
      (match e with
        | .commit id ts => (bodyOf id pre).flatMap (fun e => lastOnly (payloadWrites ext sch ts e))
        | _ => []) := by
  unfold logBatches
  rw [committed_snoc, List.flatMap_append]
  congr 1
  cases e <;> simp

theorem pendBatches_eq (ext : R → Option K) (sch : Sch A K R) (ts : BitVec 64) (id : BitVec 64)
    (es : List (Event A)) (h : ∀ e ∈ es, payloadOf id e = true) :
    (es.filterMap toPend).flatMap (fun p => lastOnly (pendWrites ext sch ts p)) =
      es.flatMap (fun e => lastOnly (payloadWrites ext sch ts e)) := by
  induction es with
  | nil => rfl
  | cons e es ih =>
    have ih := ih (fun x hx => h x (List.mem_cons_of_mem _ hx))
    have := h e (by simp)
    cases e <;> simp_all [payloadOf, toPend, pendWrites, payloadWrites]

theorem loop_step {ext : R → Option K} {sch : Sch A K R} {pol : Nat → Bool} {t0 : Runs K R} {pre : List (Event A)}
    {s s' : RState A K R} {e : Event A} (hl : Loop ext sch t0 pre s)
    (h : replayEvent ext sch pol s e = some s') : Loop ext sch t0 (pre ++ [e]) s' := by
  obtain ⟨hp, ⟨ops, ho1, ho2, ho3⟩, hlast⟩ := hl
  cases e with
  | begin id =>
    simp only [replayEvent, Option.some.injEq] at h
    subst h
    refine ⟨fun i => ?_, ⟨ops, ho1, by rw [logWrites_snoc, ho2]; simp, by rw [logBatches_snoc, ho3]; simp⟩, by rw [committed_snoc]; simpa using hlast⟩
    simp only [body_snoc, finishes, payloadOf, if_false, Bool.false_eq_true, List.append_nil, setPend]
    split
    · rename_i hi; subst hi; simp [hp]
    · exact hp i
  | append id b hint col =>
    simp only [replayEvent, Option.some.injEq] at h
    subst h
    refine ⟨fun i => ?_, ⟨ops, ho1, by rw [logWrites_snoc, ho2]; simp, by rw [logBatches_snoc, ho3]; simp⟩, by rw [committed_snoc]; simpa using hlast⟩
    simp only [body_snoc, finishes, payloadOf, if_false, Bool.false_eq_true, pushPend, setPend]
    by_cases hi : i = id
    · subst hi; simp [hp, toPend]
    · simp [hi, Ne.symm hi, hp]
  | delete id b hint =>
    simp only [replayEvent, Option.some.injEq] at h
    subst h
    refine ⟨fun i => ?_, ⟨ops, ho1, by rw [logWrites_snoc, ho2]; simp, by rw [logBatches_snoc, ho3]; simp⟩, by rw [committed_snoc]; simpa using hlast⟩
    simp only [body_snoc, finishes, payloadOf, if_false, Bool.false_eq_true, pushPend, setPend]
    by_cases hi : i = id
    · subst hi; simp [hp, toPend]
    · simp [hi, Ne.symm hi, hp]
  | abort id =>
    simp only [replayEvent, Option.some.injEq] at h
    subst h
    refine ⟨fun i => ?_, ⟨ops, ho1, by rw [logWrites_snoc, ho2]; simp, by rw [logBatches_snoc, ho3]; simp⟩, by rw [committed_snoc]; simpa using hlast⟩
    simp only [body_snoc, finishes, payloadOf, setPend]
    by_cases hi : i = id
    · subst hi; simp
    · simp [hi, Ne.symm hi, hp]
  | sealMarker =>
    simp only [replayEvent, Option.some.injEq] at h
    subst h
    refine ⟨fun i => ?_, ⟨ops, ho1, by rw [logWrites_snoc, ho2]; simp, by rw [logBatches_snoc, ho3]; simp⟩, by rw [committed_snoc]; simpa using hlast⟩
    simp [body_snoc, finishes, payloadOf, hp]
  | commit id ts =>
    have hpend : ∀ i, (setPend s.pend id none i).getD [] =
        (bodyOf i (pre ++ [Event.commit id ts])).filterMap toPend := by
      intro i
      simp only [body_snoc, finishes, payloadOf, setPend]
      by_cases hi : i = id
      · subst hi; simp
      · simp [hi, Ne.symm hi, hp]
    have hlw := logWrites_snoc ext sch pre (Event.commit id ts)
    simp only at hlw
    have hlb := logBatches_snoc ext sch pre (Event.commit id ts)
    simp only at hlb
    have hcs := committed_snoc pre (Event.commit id ts)
    simp only at hcs
    have hbody := pendWrites_eq ext sch ts id (bodyOf id pre) body_payload
    have hbatch := pendBatches_eq ext sch ts id (bodyOf id pre) body_payload
    have hemp := pend_empty_iff (id := id) (es := bodyOf id pre) body_payload
    simp only [replayEvent] at h
    cases hid : s.pend id with
    | none =>
      rw [hid] at h
      simp only [Option.some.injEq] at h
      subst h
      have h0 : (bodyOf id pre).filterMap toPend = [] := by rw [← hp, hid]; rfl
      rw [h0] at hbody hemp
      have h1 : bodyOf id pre = [] := by
        cases hb : bodyOf id pre with
        | nil => rfl
        | cons x xs => rw [hb] at hemp; simp at hemp
      refine ⟨fun i => ?_, ⟨ops, ho1, by rw [hlw, ho2, h1]; simp, by rw [hlb, ho3, h1]; simp⟩, by rw [hcs, lastOf_snoc, h1]; simpa using hlast⟩
      rw [← hpend i]
      unfold setPend
      split
      · rename_i hi; rw [hi, hid]
      · rfl
    | some ps =>
      rw [hid] at h
      simp only at h
      have hps : ps = (bodyOf id pre).filterMap toPend := by rw [← hp, hid]; rfl
      split at h
      · rename_i he
        simp only [Option.some.injEq] at h
        subst h
        rw [hps, hemp] at he
        have h1 : bodyOf id pre = [] := List.isEmpty_iff.1 he
        exact ⟨hpend, ⟨ops, ho1, by rw [hlw, ho2, h1]; simp, by rw [hlb, ho3, h1]; simp⟩, by rw [hcs, lastOf_snoc, h1]; simpa using hlast⟩
      · rename_i he
        cases hf : ps.foldlM (applyPayload ext sch pol ts) (s.mem, s.taken) with
        | none => rw [hf] at h; cases h
        | some r =>
          rw [hf] at h
          simp only [Option.some.injEq] at h
          subst h
          obtain ⟨o2, a2, b2, c2⟩ := applyPayloads_ok ps hf
          refine ⟨hpend, ⟨ops ++ o2, calls_append ext _ _ _ _ _ ho1 a2, ?_, ?_⟩, ?_⟩
          · rw [List.flatMap_append, ho2, b2, hps, hbody, hlw]
          · rw [List.flatMap_append, ho3, c2, hps, hbatch, hlb]
          · rw [hcs, lastOf_snoc]
            rw [hps, hemp] at he
            simp only
            rw [if_neg he, hlast]

theorem loop_all {ext : R → Option K} {sch : Sch A K R} {pol : Nat → Bool} {t0 : Runs K R} (evs : List (Event A))
    {s : RState A K R} (h : evs.foldlM (replayEvent ext sch pol) ⟨t0, fun _ => none, none, 0⟩ = some s) :
    Loop ext sch t0 evs s := by
  induction evs using List.reverseRecOn generalizing s with
  | nil =>
    simp only [List.foldlM_nil] at h
    cases h
    exact ⟨fun i => rfl, ⟨[], rfl, rfl, rfl⟩, rfl⟩
  | append_singleton evs e ih =>
    rw [List.foldlM_append] at h
    cases hm : evs.foldlM (replayEvent ext sch pol) ⟨t0, fun _ => none, none, 0⟩ with
    | none => rw [hm] at h; cases h
    | some s1 =>
      rw [hm] at h
      simp only [List.foldlM_cons, List.foldlM_nil] at h
      cases he : replayEvent ext sch pol s1 e with
      | none =>
        exfalso
        change (replayEvent ext sch pol s1 e).bind _ = some s at h
        rw [he] at h; cases h
      | some s2 =>
        change (replayEvent ext sch pol s1 e).bind _ = some s at h
        rw [he] at h
        cases h
        exact loop_step (ih hm) he

/-! ## A good log replays -/

open Tonbo.Props.C04 (Valid)

theorem applyOne_good {ext : R → Option K} {sch : Sch A K R} {ts : BitVec 64} {e : Event A} {p : Pend A}
    (hg : GoodPayload ext sch ts e) (hp : toPend e = some p) :
    ∃ op, Valid ext op ∧ ∀ t, applyOne ext sch ts t p = addResult t (memCall ext t.mem op) := by
  cases e with
  | append id b hint col =>
    cases hp
    obtain ⟨rows, h1, h2, h3, h4⟩ := hg
    refine ⟨.put (rows.map (fun r => (r, ts.toNat))), ⟨by simpa using h2, ?_⟩, fun t => ?_⟩
    · intro q hq
      obtain ⟨r, hr, rfl⟩ := List.mem_map.1 hq
      exact h3 r hr
    · simp only [applyOne, applyUpsert, h1, h4, checkColumn_replicate, memCall]
      rw [List.map_map, List.map_map, List.map_replicate]
      have e1 : rows.map ((fun p : R × Nat => p.1) ∘ fun r => (r, ts.toNat)) = rows := by
        simp [Function.comp_def]
      have e2 : rows.map ((fun p : R × Nat => some p.2) ∘ fun r => (r, ts.toNat)) =
          List.replicate rows.length (some ts.toNat) := by
        rw [List.eq_replicate_iff]; simp [Function.comp_def]
      rw [e1, e2]
  | delete id b hint =>
    cases hp
    obtain ⟨ks, h1, h2, f, h3, h4⟩ := hg
    refine ⟨.del (ks.map (fun k => (k, ts.toNat))), by simpa [Valid] using h2, fun t => ?_⟩
    simp only [applyOne, applyDelete, h1, h3, h4, checkColumn_replicate, memCall]
    rw [if_neg (by simp), List.map_replicate]
    have := zip_replicate (ks.map some) (some ts.toNat)
    rw [List.length_map] at this
    rw [this, List.map_map, List.map_map]
    rfl
  | _ => cases hp

/-- Memory reached by calls that are all valid. -/
def Fine (ext : R → Option K) (cap : Nat) (t : Runs K R) : Prop :=
  ∃ ops, (∀ op ∈ ops, Valid ext op) ∧ (Runs.new cap).calls ext ops = (true, t)

theorem fine_call {ext : R → Option K} {cap : Nat} (hcap : 0 < cap) {t : Runs K R} (h : Fine ext cap t)
    {op : Mem.Op K R} (hv : Valid ext op) :
    ∃ t', addResult t (memCall ext t.mem op) = some t' ∧ Fine ext cap t' := by
  obtain ⟨ops, h1, h2⟩ := h
  have hall : ∀ o ∈ ops ++ [op], Valid ext o := by
    intro o ho
    rcases List.mem_append.1 ho with ho | ho
    · exact h1 o ho
    · rw [List.mem_singleton.1 ho]; exact hv
  have hok := Tonbo.Props.C04.inserts_never_fail ext cap hcap (ops ++ [op]) hall
  have split : ∀ (a : List (Mem.Op K R)) (t1 t2 : Runs K R), t1.calls ext a = (true, t2) →
      (t1.calls ext (a ++ [op])).1 = true → ∃ t', t2.call ext op = (true, t') := by
    intro a
    induction a with
    | nil =>
      intro t1 t2 ha hb
      simp only [Runs.calls, Prod.mk.injEq, true_and] at ha
      subst ha
      simp only [List.nil_append, Runs.calls, Bool.and_true] at hb
      exact ⟨_, by rw [← hb]⟩
    | cons o a ih =>
      intro t1 t2 ha hb
      simp only [Runs.calls, Prod.mk.injEq, Bool.and_eq_true] at ha
      simp only [List.cons_append, Runs.calls, Bool.and_eq_true] at hb
      exact ih _ t2 (by rw [← ha.1.2, ← ha.2]) hb.2
  obtain ⟨t', ht⟩ := split ops _ _ h2 hok
  exact ⟨t', call_addResult ht, ops ++ [op], hall, calls_append ext _ _ _ _ _ h2 (calls_one ht)⟩

theorem applyPayloads_good {ext : R → Option K} {sch : Sch A K R} {pol : Nat → Bool} {ts : BitVec 64} {cap : Nat}
    (hcap : 0 < cap) {id : BitVec 64} (es : List (Event A)) (hp : ∀ e ∈ es, payloadOf id e = true)
    (hg : ∀ e ∈ es, GoodPayload ext sch ts e) (s : Runs K R × Nat) (hs : Fine ext cap s.1) :
    ∃ s', (es.filterMap toPend).foldlM (applyPayload ext sch pol ts) s = some s' ∧ Fine ext cap s'.1 := by
  induction es generalizing s with
  | nil => exact ⟨s, rfl, hs⟩
  | cons e es ih =>
    have hpe := hp e (by simp)
    obtain ⟨p, hpp⟩ : ∃ p, toPend e = some p := by
      cases e <;> simp_all [payloadOf, toPend]
    obtain ⟨op, hv, hop⟩ := applyOne_good (hg e (by simp)) hpp
    obtain ⟨t, ht, hft⟩ := fine_call hcap hs hv
    rw [List.filterMap_cons, hpp]
    simp only [List.foldlM_cons]
    obtain ⟨s1, hs1, hf1⟩ : ∃ s1, applyPayload ext sch pol ts s p = some s1 ∧ Fine ext cap s1.1 := by
      unfold applyPayload
      rw [hop, ht]
      simp only
      split
      · obtain ⟨t', ht', hft'⟩ := fine_call hcap hft (op := .freeze) trivial
        have : addResult t (sealInner ext t.mem) = some t' := ht'
        rw [this]
        exact ⟨_, rfl, hft'⟩
      · exact ⟨_, rfl, hft⟩
    rw [hs1]
    exact ih (fun x hx => hp x (List.mem_cons_of_mem _ hx)) (fun x hx => hg x (List.mem_cons_of_mem _ hx)) s1 hf1

theorem good_all {ext : R → Option K} {sch : Sch A K R} {pol : Nat → Bool} {cap : Nat} (hcap : 0 < cap)
    (evs : List (Event A)) (hg : GoodLog ext sch evs) :
    ∃ s, evs.foldlM (replayEvent ext sch pol) ⟨Runs.new cap, fun _ => none, none, 0⟩ = some s ∧
      Fine ext cap s.mem := by
  induction evs using List.reverseRecOn with
  | nil => exact ⟨_, rfl, [], by simp, rfl⟩
  | append_singleton evs e ih =>
    have hpre : GoodLog ext sch evs := by
      intro p hp
      exact hg p (by rw [committed_snoc]; exact List.mem_append_left _ hp)
    obtain ⟨s, h1, h2⟩ := ih hpre
    have hl := loop_all evs h1
    rw [List.foldlM_append, h1]
    have fin : ∀ s', replayEvent ext sch pol s e = some s' → Fine ext cap s'.mem →
        ∃ s', (some s).bind (fun a => [e].foldlM (replayEvent ext sch pol) a) = some s' ∧ Fine ext cap s'.mem := by
      intro s' ha hb
      refine ⟨s', ?_, hb⟩
      simp only [Option.bind_some, List.foldlM_cons, List.foldlM_nil]
      change (replayEvent ext sch pol s e).bind _ = _
      rw [ha]; rfl
    cases e with
    | commit id ts =>
      have hgood : ∀ e ∈ bodyOf id evs, GoodPayload ext sch ts e :=
        hg (ts, bodyOf id evs) (by rw [committed_snoc]; simp)
      have hp := hl.pend id
      cases hid : s.pend id with
      | none => exact fin s (by simp [replayEvent, hid]) h2
      | some ps =>
        have hps : ps = (bodyOf id evs).filterMap toPend := by rw [← hp, hid]; rfl
        by_cases he : ps.isEmpty
        · exact fin { s with pend := setPend s.pend id none } (by simp [replayEvent, hid, he]) h2
        · obtain ⟨r, hr, hf⟩ := applyPayloads_good (pol := pol) hcap (bodyOf id evs) body_payload hgood
            (s.mem, s.taken) h2
          rw [← hps] at hr
          refine fin ⟨r.1, setPend s.pend id none, maxCommit s.last ts.toNat, r.2⟩ ?_ hf
          simp only [replayEvent, hid]
          rw [if_neg he, hr]
    | begin id => exact fin _ rfl h2
    | append id b hint col => exact fin _ rfl h2
    | delete id b hint => exact fin _ rfl h2
    | abort id => exact fin _ rfl h2
    | sealMarker => exact fin _ rfl h2

end Tonbo.Lemmas.Replay
