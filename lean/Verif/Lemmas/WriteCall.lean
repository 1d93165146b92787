import Verif.Spec.WriteView
import Verif.Lemmas.Replay
import Verif.Props.C28_Replay

/-!
# Lemmas about the calls that write
-/

set_option linter.unusedSectionVars false

namespace Tonbo.Lemmas.WriteCall
open Tonbo.Model Tonbo.Model.Mem Tonbo.Model.Wal Tonbo.Model.WriteCall Tonbo.Spec Tonbo.Spec.Wal
open Tonbo.Lemmas.Replay

variable {A K R : Type} [LinearOrder K]

/-! ## Memory -/

theorem calls_append (ext : R → Option K) : ∀ (a b : List (Mem.Op K R)) (t : Runs K R),
    t.calls ext (a ++ b) =
      ((t.calls ext a).1 && ((t.calls ext a).2.calls ext b).1, ((t.calls ext a).2.calls ext b).2)
  | [], b, t => by simp [Runs.calls]
  | op :: a, b, t => by
    simp only [List.cons_append, Runs.calls, calls_append ext a b, Bool.and_assoc]

theorem applyOps_ok {ext : R → Option K} : ∀ {ops : List (Mem.Op K R)} {t t' : Runs K R},
    applyOps ext ops t = (true, t') → t.calls ext ops = (true, t')
  | [], t, t', h => by simpa [applyOps, Runs.calls] using h
  | op :: ops, t, t', h => by
    unfold applyOps at h
    by_cases hc : (t.call ext op).1 = true
    · rw [if_pos hc] at h
      simp only [Runs.calls, applyOps_ok h, hc, Bool.and_self]
    · rw [if_neg hc] at h; cases h

/-- The memory calls of a write: rows and deletions at one timestamp. -/
def Plain (ts : Nat) : Mem.Op K R → Prop
  | .put rows => ∃ rs : List R, rows = rs.map (fun r => (r, ts))
  | .del keys => ∃ ks : List K, keys = ks.map (fun k => (k, ts))
  | .freeze => False

/-! ## The log -/

/-- The transaction of an event. -/
def idOf : Event A → Option (BitVec 64)
  | .begin i => some i
  | .append i _ _ _ => some i
  | .delete i _ _ => some i
  | .commit i _ => some i
  | .abort i => some i
  | .sealMarker => none

/-- Batches are decoded as they were encoded. -/
def Decodes (c : Ctx A K R) : Prop :=
  (∀ rows, c.sch.rows (c.rows rows) = some rows) ∧ ∀ keys ts, c.sch.keys (c.keys keys ts) = some (keys.map some)

theorem body_nil {id : BitVec 64} {l : List (Event A)} (h : ∀ e ∈ l, idOf e ≠ some id) : bodyOf id l = [] := by
  induction l using List.reverseRecOn with
  | nil => rfl
  | append_singleton l e ih =>
    rw [body_snoc, ih (fun x hx => h x (by simp [hx]))]
    have := h e (by simp)
    cases e <;> simp_all [finishes, payloadOf, idOf]

theorem idOf_payload {c : Ctx A K R} {id ts : Nat} {op : Mem.Op K R} (h : Plain ts op) :
    idOf (payload c id ts op) = some (BitVec.ofNat 64 id) := by
  cases op <;> first | rfl | exact h.elim

theorem payload_of {c : Ctx A K R} {id ts : Nat} {op : Mem.Op K R} (h : Plain ts op) :
    payloadOf (BitVec.ofNat 64 id) (payload c id ts op) = true ∧
    finishes (BitVec.ofNat 64 id) (payload c id ts op) = false := by
  cases op with
  | put rows => simp [payload, payloadOf, finishes]
  | del keys => simp [payload, payloadOf, finishes]
  | freeze => exact h.elim

theorem body_payloads {c : Ctx A K R} {id ts : Nat} (l : List (Event A)) (ops : List (Mem.Op K R))
    (h : ∀ op ∈ ops, Plain ts op) :
    bodyOf (BitVec.ofNat 64 id) (l ++ ops.map (payload c id ts)) =
      bodyOf (BitVec.ofNat 64 id) l ++ ops.map (payload c id ts) := by
  induction ops using List.reverseRecOn with
  | nil => simp
  | append_singleton ops op ih =>
    have hp := payload_of (c := c) (id := id) (h op (by simp))
    rw [List.map_append, List.map_singleton, ← List.append_assoc, body_snoc,
      ih (fun x hx => h x (by simp [hx])), hp.1, hp.2]
    simp

theorem payload_writes {c : Ctx A K R} (hd : Decodes c) {id ts : Nat} (hts : ts < 2 ^ 64) {op : Mem.Op K R}
    (h : Plain ts op) : payloadWrites c.ext c.sch (BitVec.ofNat 64 ts) (payload c id ts op) = opWrites c.ext op := by
  have ht : (BitVec.ofNat 64 ts).toNat = ts := by simp [BitVec.toNat_ofNat, Nat.mod_eq_of_lt hts]
  cases op with
  | put rows =>
    obtain ⟨rs, rfl⟩ := h
    simp [payload, payloadWrites, opWrites, putWrites, hd.1, List.filterMap_map, ht, Function.comp_def]
  | del keys =>
    obtain ⟨ks, rfl⟩ := h
    simp [payload, payloadWrites, opWrites, delWrites, hd.2, List.filterMap_map, ht, Function.comp_def]
  | freeze => exact h.elim

theorem no_commit_in_payloads {c : Ctx A K R} {id ts : Nat} {ops : List (Mem.Op K R)} {e : Event A}
    (h : e ∈ ops.map (payload c id ts)) : ∀ i t, e ≠ .commit i t := by
  obtain ⟨op, _, rfl⟩ := List.mem_map.1 h
  cases op <;> intro i t he <;> cases he

theorem writes_of_frames {c : Ctx A K R} (hd : Decodes c) {id ts : Nat} (hts : ts < 2 ^ 64) (l : List (Event A))
    (hl : ∀ e ∈ l, idOf e ≠ some (BitVec.ofNat 64 id)) (txn : Bool) (ops : List (Mem.Op K R)) (h : ∀ op ∈ ops, Plain ts op) :
    logWrites c.ext c.sch (l ++ frames c txn id ts ops) =
      logWrites c.ext c.sch l ++ ops.flatMap (opWrites c.ext) := by
  have hnc : ∀ e ∈ (opening txn id : List (Event A)) ++ ops.map (payload c id ts), ∀ i t, e ≠ .commit i t := by
    intro e he
    rcases List.mem_append.1 he with he | he
    · cases txn
      · simp [opening] at he
      · simp only [opening, if_true, List.mem_singleton] at he; subst he; intro i t h; cases h
    · exact no_commit_in_payloads he
  unfold frames
  rw [← List.append_assoc, logWrites_snoc, Props.C28.uncommitted_tail_has_no_effect _ _ _ _ hnc]
  congr 1
  simp only
  rw [← List.append_assoc, body_payloads _ _ h]
  have hb : bodyOf (BitVec.ofNat 64 id) (l ++ opening txn id) = [] := by
    cases txn
    · simp only [opening, Bool.false_eq_true, if_false, List.append_nil]; exact body_nil hl
    · simp only [opening, if_true, body_snoc, body_nil hl]; simp [finishes, payloadOf]
  rw [hb, List.nil_append, List.flatMap_map]
  clear hnc hb
  induction ops with
  | nil => rfl
  | cons op ops ih =>
    rw [List.flatMap_cons, List.flatMap_cons, payload_writes hd hts (h op List.mem_cons_self),
      ih (fun o ho => h o (List.mem_cons_of_mem _ ho))]

theorem ids_of_frames {c : Ctx A K R} {id ts : Nat} {txn : Bool} {ops : List (Mem.Op K R)} (h : ∀ op ∈ ops, Plain ts op) :
    ∀ e ∈ frames c txn id ts ops, idOf e = some (BitVec.ofNat 64 id) := by
  intro e he
  simp only [frames, List.mem_append, List.mem_singleton, List.mem_map] at he
  rcases he with (he | ⟨op, ho, rfl⟩) | rfl
  · cases txn
    · simp [opening] at he
    · simp only [opening, if_true, List.mem_singleton] at he; subst he; rfl
  · exact idOf_payload (h op ho)
  · rfl

theorem mem_cut {e : Env} {evs : List (Event A)} {x : Event A} (h : x ∈ cut e evs) : x ∈ evs := by
  unfold cut at h
  split at h
  · exact h
  · exact List.mem_of_mem_take h

/-- What the log part of a call does. -/
structure LogStep (c : Ctx A K R) (ops : List (Mem.Op K R)) (s s' : St A K R) (la : LogAns) : Prop where
  mem : s'.mem = s.mem
  clock : s'.clock = s.clock
  none : s.log = none → s' = s ∧ la = .ok
  some : ∀ l, s.log = some l → ∃ evs, s'.log = some (l ++ evs) ∧ s'.nextId = s.nextId + 1 ∧
    (∀ x ∈ evs, idOf x = .some (BitVec.ofNat 64 s.nextId)) ∧
    (la = .ok → logWrites c.ext c.sch (l ++ evs) = logWrites c.ext c.sch l ++ ops.flatMap (opWrites c.ext)) ∧
    (la = .encode → logWrites c.ext c.sch (l ++ evs) = logWrites c.ext c.sch l) ∧
    (logWrites c.ext c.sch (l ++ evs) = logWrites c.ext c.sch l ++ ops.flatMap (opWrites c.ext) ∨
      logWrites c.ext c.sch (l ++ evs) = logWrites c.ext c.sch l)

theorem toLog_spec {c : Ctx A K R} (hd : Decodes c) {txn : Bool} {ts : Nat} (hts : ts < 2 ^ 64)
    {ops : List (Mem.Op K R)} (h : ∀ op ∈ ops, Plain ts op) {e : Env} {s s' : St A K R} {la : LogAns}
    (hids : ∀ l, s.log = some l → ∀ x ∈ l, idOf x ≠ some (BitVec.ofNat 64 s.nextId))
    (ht : toLog c txn ts ops e s = (la, s')) : LogStep c ops s s' la := by
  unfold toLog at ht
  cases hl : s.log with
  | none =>
    rw [hl] at ht
    cases ht
    exact ⟨rfl, rfl, fun _ => ⟨rfl, rfl⟩, fun l h => by rw [hl] at h; cases h⟩
  | some l =>
    rw [hl] at ht
    simp only at ht
    by_cases hs : ops.all (sendable e) = true
    · rw [if_pos hs] at ht
      cases ht
      refine ⟨rfl, rfl, fun h => (by rw [hl] at h; cases h), fun l' hl' => ?_⟩
      rw [hl] at hl'
      cases hl'
      have hw := writes_of_frames hd hts l (hids l hl) txn ops h
      refine ⟨_, rfl, rfl, fun x hx => ids_of_frames h x (mem_cut hx), ?_, ?_, ?_⟩
      · intro ho
        cases he : e.log with
        | none => simp only [cut, he]; exact hw
        | some n => simp [he] at ho
      · intro ho
        cases he : e.log <;> simp [he] at ho
      · cases he : e.log with
        | none => left; simp only [cut, he]; exact hw
        | some n =>
          simp only [cut, he]
          by_cases hn : (frames c txn s.nextId ts ops).length ≤ n
          · left; rw [List.take_of_length_le hn]; exact hw
          · right
            refine Props.C28.uncommitted_tail_has_no_effect _ _ _ _ ?_
            intro x hx i t hxe
            subst hxe
            unfold frames at hx hn
            rw [List.take_append_of_le_length (by simp at hn ⊢; omega)] at hx
            rcases List.mem_append.1 (List.mem_of_mem_take hx) with hx | hx
            · cases txn <;> simp [opening] at hx
            · exact no_commit_in_payloads hx i t rfl
    · rw [if_neg hs] at ht
      cases ht
      refine ⟨rfl, rfl, fun h => (by rw [hl] at h; cases h), fun l' hl' => ?_⟩
      rw [hl] at hl'
      cases hl'
      have hmem : ∀ x ∈ cut e (opening txn s.nextId ++ (ops.takeWhile (sendable e)).map (payload c s.nextId ts) ++
          closing txn s.nextId), idOf x = some (BitVec.ofNat 64 s.nextId) ∧ ∀ i t, x ≠ .commit i t := by
        intro x hx
        have hx := mem_cut hx
        simp only [List.mem_append] at hx
        rcases hx with (hx | hx) | hx
        · cases txn
          · simp [opening] at hx
          · simp only [opening, if_true, List.mem_singleton] at hx; subst hx; exact ⟨rfl, fun _ _ h => by cases h⟩
        · refine ⟨?_, no_commit_in_payloads hx⟩
          obtain ⟨op, ho, rfl⟩ := List.mem_map.1 hx
          exact idOf_payload (h op ((List.takeWhile_prefix _).subset ho))
        · cases txn
          · simp [closing] at hx
          · simp only [closing, if_true, List.mem_singleton] at hx; subst hx; exact ⟨rfl, fun _ _ h => by cases h⟩
      have hsame := Props.C28.uncommitted_tail_has_no_effect c.ext c.sch l _ (fun x hx => (hmem x hx).2)
      exact ⟨_, rfl, rfl, fun x hx => (hmem x hx).1, fun h => (by cases h), fun _ => hsame, .inr hsame⟩

/-! ## One call -/

/-- What one call does. -/
structure Step (c : Ctx A K R) (call : Call K R) (s s' : St A K R) (a : Ans) : Prop where
  clock : s.clock ≤ s'.clock ∧ s'.clock ≤ s.clock + 1
  nextId : s.nextId ≤ s'.nextId ∧ s'.nextId ≤ s.nextId + 1
  mem : a ≠ .memory → (Seen a = true ∧ ∃ ops, s.mem.calls c.ext ops = (true, s'.mem) ∧
      ops.flatMap (opWrites c.ext) = asksFor c.ext s.clock call) ∨ (Seen a = false ∧ s'.mem = s.mem)
  none : s.log = none → s'.log = none
  some : ∀ l, s.log = some l → ∃ evs, s'.log = some (l ++ evs) ∧
    (∀ x ∈ evs, idOf x = .some (BitVec.ofNat 64 s.nextId) ∧ s'.nextId = s.nextId + 1) ∧
    ((NoTrace a = false ∧ logWrites c.ext c.sch (l ++ evs) = logWrites c.ext c.sch l ++ asksFor c.ext s.clock call) ∨
     ((NoTrace a = true ∨ a = .log ∨ isFast call = true) ∧
        logWrites c.ext c.sch (l ++ evs) = logWrites c.ext c.sch l))

theorem step_same {c : Ctx A K R} {call : Call K R} {s : St A K R} {n : Nat} (hn : s.clock ≤ n ∧ n ≤ s.clock + 1) :
    Step c call s { s with clock := n } .refused :=
  ⟨hn, ⟨Nat.le_refl _, Nat.le_succ _⟩, fun _ => .inr ⟨rfl, rfl⟩, fun h => h,
    fun l hl => ⟨[], by simpa using hl, by simp, .inr ⟨.inl rfl, by simp⟩⟩⟩

theorem step_nothing {c : Ctx A K R} {call : Call K R} {s : St A K R} (h : asksFor c.ext s.clock call = []) :
    Step c call s s .ok :=
  ⟨⟨Nat.le_refl _, Nat.le_succ _⟩, ⟨Nat.le_refl _, Nat.le_succ _⟩, fun _ => .inl ⟨rfl, [], rfl, by rw [h]; rfl⟩,
    fun h => h, fun l hl => ⟨[], by simpa using hl, by simp, .inl ⟨rfl, by simp [h]⟩⟩⟩

theorem settle_spec {c : Ctx A K R} {e : Env} {s s' : St A K R} {a : Ans} (h : settle c e s = (a, s')) :
    s'.log = s.log ∧ s'.clock = s.clock ∧ s'.nextId = s.nextId ∧ (a = .ok ∨ a = .flush ∨ a = .memory) ∧
    (a ≠ .memory → ∃ ops, s.mem.calls c.ext ops = (true, s'.mem) ∧ ops.flatMap (opWrites c.ext) = []) := by
  unfold settle at h
  cases hf : e.freeze with
  | false =>
    rw [hf] at h
    simp only [Bool.false_eq_true, if_false] at h
    cases h
    refine ⟨rfl, rfl, rfl, ?_, fun _ => ⟨[], rfl, rfl⟩⟩
    cases e.flush <;> simp
  | true =>
    rw [hf] at h
    simp only [if_true] at h
    rcases hc : s.mem.call c.ext .freeze with ⟨b, t⟩
    rw [hc] at h
    cases b with
    | false => cases h; exact ⟨rfl, rfl, rfl, .inr (.inr rfl), fun h => absurd rfl h⟩
    | true =>
      cases h
      refine ⟨rfl, rfl, rfl, ?_, fun _ => ⟨[.freeze], by simp [Runs.calls, hc], by simp [opWrites]⟩⟩
      cases e.flush <;> simp

theorem step_direct {c : Ctx A K R} (hd : Decodes c) {call : Call K R} {ops : List (Mem.Op K R)} {e : Env}
    {s s' : St A K R} {a : Ans} (hts : s.clock < 2 ^ 64) (h : ∀ op ∈ ops, Plain s.clock op)
    (hids : ∀ l, s.log = some l → ∀ x ∈ l, idOf x ≠ some (BitVec.ofNat 64 s.nextId))
    (hask : ops.flatMap (opWrites c.ext) = asksFor c.ext s.clock call)
    (hx : direct c s.clock ops e { s with clock := s.clock + 1 } = (a, s')) : Step c call s s' a := by
  unfold direct at hx
  rcases ht : toLog c false s.clock ops e { s with clock := s.clock + 1 } with ⟨la, s1⟩
  rw [ht] at hx
  have hL := toLog_spec hd hts h (s := { s with clock := s.clock + 1 }) hids ht
  have hid : s.nextId ≤ s1.nextId ∧ s1.nextId ≤ s.nextId + 1 := by
    cases hl : s.log with
    | none => rw [(hL.none hl).1]; exact ⟨Nat.le_refl _, Nat.le_succ _⟩
    | some l => obtain ⟨_, _, h2, _⟩ := hL.some l hl; rw [h2]; exact ⟨Nat.le_succ _, Nat.le_refl _⟩
  have hclk : s1.clock = s.clock + 1 := hL.clock
  have hnone : s.log = none → s1.log = none := fun hl => by rw [(hL.none hl).1]; exact hl
  cases la with
  | encode =>
    cases hx
    refine ⟨by omega, hid, fun _ => .inr ⟨rfl, hL.mem⟩, hnone, fun l hl => ?_⟩
    obtain ⟨evs, h1, h2, h3, h4, h5, h6⟩ := hL.some l hl
    exact ⟨evs, h1, fun x hx => ⟨h3 x hx, h2⟩, .inr ⟨.inl rfl, h5 rfl⟩⟩
  | fails =>
    cases hx
    refine ⟨by omega, hid, fun _ => .inr ⟨rfl, hL.mem⟩, hnone, fun l hl => ?_⟩
    obtain ⟨evs, h1, h2, h3, h4, h5, h6⟩ := hL.some l hl
    refine ⟨evs, h1, fun x hx => ⟨h3 x hx, h2⟩, ?_⟩
    rcases h6 with h6 | h6
    · exact .inl ⟨rfl, by rw [h6, hask]⟩
    · exact .inr ⟨.inr (.inl rfl), h6⟩
  | ok =>
    have hlog : ∀ (s2 : St A K R) (b : Ans), s2.log = s1.log → s2.nextId = s1.nextId → NoTrace b = false →
        ∀ l, s.log = some l → ∃ evs, s2.log = some (l ++ evs) ∧
          (∀ x ∈ evs, idOf x = some (BitVec.ofNat 64 s.nextId) ∧ s2.nextId = s.nextId + 1) ∧
          ((NoTrace b = false ∧ logWrites c.ext c.sch (l ++ evs) = logWrites c.ext c.sch l ++ asksFor c.ext s.clock call) ∨
           ((NoTrace b = true ∨ b = .log ∨ isFast call = true) ∧
              logWrites c.ext c.sch (l ++ evs) = logWrites c.ext c.sch l)) := by
      intro s2 b he hn hb l hl
      obtain ⟨evs, h1, h2, h3, h4, h5, h6⟩ := hL.some l hl
      exact ⟨evs, by rw [he]; exact h1, fun x hx => ⟨h3 x hx, by rw [hn]; exact h2⟩, .inl ⟨hb, by rw [h4 rfl, hask]⟩⟩
    simp only at hx
    rcases ha : applyOps c.ext ops s1.mem with ⟨b, t⟩
    rw [ha] at hx
    cases b with
    | false =>
      cases hx
      exact ⟨by simp only; omega, hid, fun h => absurd rfl h, hnone, hlog _ _ rfl rfl rfl⟩
    | true =>
      simp only at hx
      obtain ⟨k1, k2, k3, k4, k5⟩ := settle_spec hx
      have k1 : s'.log = s1.log := k1
      have k2 : s'.clock = s1.clock := k2
      have k3 : s'.nextId = s1.nextId := k3
      refine ⟨by omega, by omega, fun hm => .inl ⟨?_, ?_⟩, fun hl => by rw [k1]; exact hnone hl, hlog _ _ k1 k3 ?_⟩
      · rcases k4 with rfl | rfl | rfl
        · rfl
        · rfl
        · exact absurd rfl hm
      · obtain ⟨ops2, q1, q2⟩ := k5 hm
        refine ⟨ops ++ ops2, ?_, by rw [List.flatMap_append, q2, hask, List.append_nil]⟩
        have := applyOps_ok ha
        have hmem : s1.mem = s.mem := hL.mem
        rw [hmem] at this
        rw [calls_append, this]
        have q1 : t.calls c.ext ops2 = (true, s'.mem) := q1
        simp [q1]
      · rcases k4 with rfl | rfl | rfl <;> rfl

theorem ops_ingest (ext : R → Option K) (ts : Nat) (b : Bool) (rows : List R) :
    [Mem.Op.put (rows.map (fun r => (r, ts)))].flatMap (opWrites ext) = asksFor ext ts (.ingest b rows) := by
  simp [opWrites, putWrites, asksFor, List.filterMap_map]

theorem split_eq : ∀ (rows : List R) (flags : List Bool),
    IngestT.split rows flags = (((rows.zip flags).filter (fun p => !p.2)).map (·.1),
      ((rows.zip flags).filter (fun p => p.2)).map (·.1))
  | [], _ => rfl
  | _ :: _, [] => rfl
  | r :: rows, b :: flags => by
    unfold IngestT.split
    rw [split_eq rows flags]
    cases b <;> rfl

theorem mapM_keys {ext : R → Option K} {rows : List R} {keys : List K} (h : rows.mapM ext = some keys) :
    rows.filterMap ext = keys := by
  induction rows generalizing keys with
  | nil => simp at h; simp [h]
  | cons r rows ih =>
    rw [List.mapM_cons] at h
    cases hr : ext r with
    | none => simp [hr] at h
    | some k =>
      cases hk : rows.mapM ext with
      | none => simp [hr, hk] at h
      | some ks =>
        simp [hr, hk] at h
        subst h
        simp [hr, ih hk]

theorem put_writes_ts (ext : R → Option K) (ts : Nat) (rows : List R) :
    putWrites ext (rows.map (fun r => (r, ts))) = rows.filterMap (fun r => (ext r).map (fun k => ⟨k, ts, .put r⟩)) := by
  simp [putWrites, List.filterMap_map]

theorem ops_ingestT {ext : R → Option K} {ts : Nat} {b : Bool} {rows : List R} {flags : List Bool}
    {ops : List (Mem.Op K R)} (h : IngestT.calls ext rows flags ts = .ok ops) :
    (∀ op ∈ ops, Plain ts op) ∧ ops.flatMap (opWrites ext) = asksFor ext ts (.ingestT b rows flags) := by
  unfold IngestT.calls at h
  split at h
  · cases h
  rename_i hlen
  split at h
  · rename_i hr
    cases h
    subst hr
    simp [asksFor]
  rw [split_eq] at h
  simp only at h
  split at h
  · rename_i hdel
    cases h
    have hdel : (rows.zip flags).filter (fun p => p.2) = [] := List.map_eq_nil_iff.1 hdel
    have hall : (rows.zip flags).filter (fun p => !p.2) = rows.zip flags := by
      rw [List.filter_eq_self]
      intro p hp
      have := List.filter_eq_nil_iff.1 hdel p hp
      simpa using this
    refine ⟨?_, ?_⟩
    · intro op ho
      rw [List.mem_singleton.1 ho]
      exact ⟨rows, rfl⟩
    · simp only [List.flatMap_cons, List.flatMap_nil, List.append_nil, opWrites, put_writes_ts, asksFor, hall, hdel,
        List.filterMap_nil]
      have hz : rows = (rows.zip flags).map (·.1) := by
        rw [List.map_fst_zip]
        simp only [not_not] at hlen
        omega
      conv_lhs => rw [hz, List.filterMap_map]
      rfl
  · rename_i hdel
    split at h
    · cases h
    · rename_i keys hk
      cases h
      have hks : ((rows.zip flags).filter (fun p => p.2)).filterMap
          (fun p => (ext p.1).map (fun k => (⟨k, ts, .del⟩ : Ver K R))) = delWrites (keys.map (fun k => (k, ts))) := by
        rw [← mapM_keys hk, List.filterMap_map]
        simp [delWrites, List.map_filterMap, Function.comp_def]
      have hps : ∀ l : List (R × Bool), l.filterMap (fun p => (ext p.1).map (fun k => (⟨k, ts, .put p.1⟩ : Ver K R))) =
          putWrites ext ((l.map (·.1)).map (fun r => (r, ts))) := by
        intro l
        rw [put_writes_ts, List.filterMap_map]
        rfl
      refine ⟨?_, ?_⟩
      · intro op ho
        rcases List.mem_append.1 ho with ho | ho
        · split at ho
          · cases ho
          · rw [List.mem_singleton.1 ho]; exact ⟨_, rfl⟩
        · rw [List.mem_singleton.1 ho]; exact ⟨_, rfl⟩
      · simp only [asksFor, List.flatMap_append, List.flatMap_cons, List.flatMap_nil, List.append_nil, opWrites, hks, hps]
        congr 1
        split
        · rename_i h0; rw [h0]; rfl
        · simp [opWrites]

theorem ops_commit (ext : R → Option K) (ts : Nat) (f x n : Bool) (rows : List R) (keys : List K) :
    (∀ op ∈ commitOps ts rows keys, Plain ts op) ∧
    (commitOps ts rows keys).flatMap (opWrites ext) = asksFor ext ts (.commit f x n rows keys) := by
  unfold commitOps
  refine ⟨?_, ?_⟩
  · intro op ho
    rcases List.mem_append.1 ho with ho | ho
    · split at ho
      · cases ho
      · rw [List.mem_singleton.1 ho]; exact ⟨_, rfl⟩
    · split at ho
      · cases ho
      · rw [List.mem_singleton.1 ho]; exact ⟨_, rfl⟩
  · rw [List.flatMap_append]
    simp only [asksFor]
    congr 1
    · split
      · rename_i h; subst h; rfl
      · simp [opWrites, put_writes_ts]
    · split
      · rename_i h; subst h; rfl
      · simp [opWrites, delWrites, Function.comp_def]

theorem step_exec {c : Ctx A K R} (hd : Decodes c) {call : Call K R} {e : Env} {s : St A K R} (hts : s.clock < 2 ^ 64)
    (hids : ∀ l, s.log = some l → ∀ x ∈ l, idOf x ≠ some (BitVec.ofNat 64 s.nextId)) :
    Step c call s (exec c s call e).2 (exec c s call e).1 := by
  rcases hx : exec c s call e with ⟨a, s'⟩
  simp only
  cases call with
  | ingest b rows =>
    simp only [exec, ingest] at hx
    split at hx
    · cases hx; exact step_same ⟨Nat.le_refl _, Nat.le_succ _⟩
    split at hx
    · cases hx; exact step_same ⟨Nat.le_refl _, Nat.le_succ _⟩
    refine step_direct hd hts ?_ hids (ops_ingest c.ext s.clock b rows) hx
    intro op ho
    rw [List.mem_singleton.1 ho]
    exact ⟨rows, rfl⟩
  | ingestT b rows flags =>
    simp only [exec, ingestT] at hx
    split at hx
    · cases hx; exact step_same ⟨Nat.le_refl _, Nat.le_succ _⟩
    split at hx
    · cases hx; exact step_same ⟨Nat.le_refl _, Nat.le_succ _⟩
    · cases hx; exact step_same ⟨Nat.le_succ _, Nat.le_refl _⟩
    · rename_i hc
      cases hx
      exact step_nothing (ops_ingestT (b := b) hc).2.symm
    · rename_i hc
      exact step_direct hd hts (ops_ingestT (b := b) hc).1 hids (ops_ingestT (b := b) hc).2 hx
  | commit f x n rows keys =>
    simp only [exec, WriteCall.commit] at hx
    split at hx
    · rename_i h0
      cases hx
      exact step_nothing (by simp [asksFor, h0.1, h0.2])
    split at hx
    · cases hx; exact step_same ⟨Nat.le_refl _, Nat.le_succ _⟩
    split at hx
    · cases hx; exact step_same ⟨Nat.le_succ _, Nat.le_refl _⟩
    obtain ⟨hpl, hask⟩ := ops_commit c.ext s.clock f x n rows keys
    rcases ht : toLog c true s.clock (commitOps s.clock rows keys) e { s with clock := s.clock + 1 } with ⟨la, s1⟩
    rw [ht] at hx
    have hL := toLog_spec hd hts hpl (s := { s with clock := s.clock + 1 }) hids ht
    have hid : s.nextId ≤ s1.nextId ∧ s1.nextId ≤ s.nextId + 1 := by
      cases hl : s.log with
      | none => rw [(hL.none hl).1]; exact ⟨Nat.le_refl _, Nat.le_succ _⟩
      | some l => obtain ⟨_, _, h2, _⟩ := hL.some l hl; rw [h2]; exact ⟨Nat.le_succ _, Nat.le_refl _⟩
    have hclk : s1.clock = s.clock + 1 := hL.clock
    have hnone : s.log = none → s1.log = none := fun hl => by rw [(hL.none hl).1]; exact hl
    have hmem : s1.mem = s.mem := hL.mem
    have hap : ∀ {a s'}, (la = .ok ∨ f = true) → apply c f (commitOps s.clock rows keys) e s1 = (a, s') →
        Step c (.commit f x n rows keys) s s' a := by
      intro a s' hok h
      have hlog : ∀ (s2 : St A K R) (b : Ans), s2.log = s1.log → s2.nextId = s1.nextId → NoTrace b = false →
          ∀ l, s.log = some l → ∃ evs, s2.log = some (l ++ evs) ∧
            (∀ y ∈ evs, idOf y = some (BitVec.ofNat 64 s.nextId) ∧ s2.nextId = s.nextId + 1) ∧
            ((NoTrace b = false ∧ logWrites c.ext c.sch (l ++ evs) =
                logWrites c.ext c.sch l ++ asksFor c.ext s.clock (.commit f x n rows keys)) ∨
             ((NoTrace b = true ∨ b = .log ∨ isFast (.commit f x n rows keys) = true) ∧
                logWrites c.ext c.sch (l ++ evs) = logWrites c.ext c.sch l)) := by
        intro s2 b he hn hb l hl
        obtain ⟨evs, h1, h2, h3, h4, h5, h6⟩ := hL.some l hl
        refine ⟨evs, by rw [he]; exact h1, fun x hx => ⟨h3 x hx, by rw [hn]; exact h2⟩, ?_⟩
        rcases hok with rfl | hf
        · exact .inl ⟨hb, by rw [h4 rfl, hask]⟩
        · rcases h6 with h6 | h6
          · exact .inl ⟨hb, by rw [h6, hask]⟩
          · exact .inr ⟨.inr (.inr hf), h6⟩
      unfold apply at h
      rcases ha : applyOps c.ext (commitOps s.clock rows keys) s1.mem with ⟨b, t⟩
      rw [ha] at h
      cases b with
      | false =>
        cases h
        exact ⟨by simp only; omega, hid, fun h => absurd rfl h, hnone, hlog _ _ rfl rfl rfl⟩
      | true =>
        cases h
        have := applyOps_ok ha
        rw [hmem] at this
        refine ⟨by simp only; omega, hid, fun _ => .inl ⟨?_, _, this, hask⟩, hnone, hlog _ _ rfl rfl ?_⟩
        · split <;> rfl
        · split <;> rfl
    cases la with
    | encode =>
      cases hx
      refine ⟨by omega, hid, fun _ => .inr ⟨rfl, hmem⟩, hnone, fun l hl => ?_⟩
      obtain ⟨evs, h1, h2, h3, h4, h5, h6⟩ := hL.some l hl
      exact ⟨evs, h1, fun x hx => ⟨h3 x hx, h2⟩, .inr ⟨.inl rfl, h5 rfl⟩⟩
    | fails =>
      simp only at hx
      split at hx
      · rename_i hf
        simp only [Bool.and_eq_true] at hf
        exact hap (.inr hf.1) hx
      · cases hx
        refine ⟨by omega, hid, fun _ => .inr ⟨rfl, hmem⟩, hnone, fun l hl => ?_⟩
        obtain ⟨evs, h1, h2, h3, h4, h5, h6⟩ := hL.some l hl
        refine ⟨evs, h1, fun x hx => ⟨h3 x hx, h2⟩, ?_⟩
        rcases h6 with h6 | h6
        · exact .inl ⟨rfl, by rw [h6, hask]⟩
        · exact .inr ⟨.inr (.inl rfl), h6⟩
    | ok => exact hap (.inl rfl) hx

end Tonbo.Lemmas.WriteCall
