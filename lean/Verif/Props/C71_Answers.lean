import Verif.Lemmas.WriteCall

/-!
# C71: the answer to a write tells what became of it

`Spec/WriteView.lean` says what a call asks for (`asksFor`), what readers see after calls with certain answers
(`seen`) and what a restart may find (`Logged`).
-/

set_option linter.unusedSectionVars false

namespace Tonbo.Props.C71
open Tonbo.Model Tonbo.Model.Mem Tonbo.Model.Wal Tonbo.Model.WriteCall Tonbo.Spec Tonbo.Spec.Wal
open Tonbo.Lemmas.WriteCall Tonbo.Lemmas.Replay
open Tonbo.Props.C28 (Holds)
open Tonbo.Lemmas.Mem (lastWrite_append lastWrite_exists lastWrite_mem)

variable {A K R : Type} [LinearOrder K]

/-! ## Histories -/

theorem run_snoc (c : Ctx A K R) (call : Call K R) (e : Env) : ∀ (h : List (Call K R × Env)) (s : St A K R),
    run c s (h ++ [(call, e)]) =
      ((run c s h).1 ++ [⟨call, (exec c (run c s h).2 call e).1, (run c s h).2.clock⟩], (exec c (run c s h).2 call e).2)
  | [], s => rfl
  | (c', e') :: h, s => by simp only [List.cons_append, run, run_snoc c call e h]

/-- Numbers, and ids in the log, after a history. -/
structure Nums (n : Nat) (s : St A K R) : Prop where
  clock : s.clock ≤ n
  nextId : s.nextId ≤ n
  ids : ∀ l, s.log = some l → ∀ x ∈ l, ∃ i, idOf x = some (BitVec.ofNat 64 i) ∧ i < s.nextId

theorem ids_fresh {n : Nat} {s : St A K R} (h : Nums n s) (hn : n < 2 ^ 64) :
    ∀ l, s.log = some l → ∀ x ∈ l, idOf x ≠ some (BitVec.ofNat 64 s.nextId) := by
  intro l hl x hx he
  obtain ⟨i, h1, h2⟩ := h.ids l hl x hx
  rw [h1] at he
  have := congrArg (Option.map BitVec.toNat) he
  simp only [Option.map_some, BitVec.toNat_ofNat, Option.some.injEq] at this
  have hk := h.nextId
  rw [Nat.mod_eq_of_lt (by omega), Nat.mod_eq_of_lt (by omega)] at this
  omega

theorem nums_step {c : Ctx A K R} (hd : Decodes c) {n : Nat} {s : St A K R} (h : Nums n s) (hn : n < 2 ^ 64)
    (call : Call K R) (e : Env) : Nums (n + 1) (exec c s call e).2 := by
  have hs := step_exec hd (call := call) (e := e) (by have := h.clock; omega) (ids_fresh h hn)
  refine ⟨by have := hs.clock; have := h.clock; omega, by have := hs.nextId; have := h.nextId; omega, ?_⟩
  intro l' hl' x hx
  cases hl : s.log with
  | none => rw [hs.none hl] at hl'; cases hl'
  | some l =>
    obtain ⟨evs, h1, h2, _⟩ := hs.some l hl
    rw [h1] at hl'
    cases hl'
    rcases List.mem_append.1 hx with hx | hx
    · obtain ⟨i, h3, h4⟩ := h.ids l hl x hx
      exact ⟨i, h3, by have := hs.nextId; omega⟩
    · have := h2 x hx
      exact ⟨s.nextId, this.1, by omega⟩

theorem nums_run {c : Ctx A K R} (hd : Decodes c) {s : St A K R} (hs : Nums 0 s) (h : List (Call K R × Env))
    (hn : h.length < 2 ^ 64) : Nums h.length (run c s h).2 := by
  induction h using List.reverseRecOn with
  | nil => exact hs
  | append_singleton h p ih =>
    obtain ⟨call, e⟩ := p
    rw [run_snoc]
    simp only [List.length_append, List.length_cons, List.length_nil] at hn ⊢
    exact nums_step hd (ih (by omega)) (by omega) call e

theorem nums_start (cap : Nat) (b : Bool) : Nums 0 (start cap b : St A K R) := by
  refine ⟨Nat.le_refl _, Nat.le_refl _, ?_⟩
  intro l hl x hx
  cases b <;> simp [start] at hl
  subst hl
  cases hx

/-- **C71, readers (partial).** After any sequence of calls, with any failures of the log, the flush and the
manifest, readers see exactly the writes whose answer was a success or an error behind the memory; those
refused before have no effect. Missing: calls refused by the memory table itself
(`a_refused_batch_stops_recovery`, C04). -/
theorem answers_and_reads_partial (c : Ctx A K R) (hd : Decodes c) (cap : Nat) (withLog : Bool)
    (h : List (Call K R × Env)) (hn : h.length < 2 ^ 64)
    (hm : ∀ d ∈ (run c (start cap withLog) h).1, d.ans ≠ .memory) :
    Holds (run c (start cap withLog) h).2.mem (seen c.ext (run c (start cap withLog) h).1) := by
  suffices H : ∃ ops, (Runs.new cap).calls c.ext ops = (true, (run c (start cap withLog) h).2.mem) ∧
      ops.flatMap (opWrites c.ext) = seen c.ext (run c (start cap withLog) h).1 by
    obtain ⟨ops, h1, h2⟩ := H
    obtain ⟨logs, cur, a, b, d⟩ := C04.runs_cover_partial c.ext cap ops _ h1
    exact ⟨logs, cur, by rw [a, h2], b, d⟩
  induction h using List.reverseRecOn with
  | nil => exact ⟨[], rfl, rfl⟩
  | append_singleton h p ih =>
    obtain ⟨call, e⟩ := p
    rw [run_snoc] at hm ⊢
    simp only [List.length_append, List.length_cons, List.length_nil] at hn
    obtain ⟨ops, h1, h2⟩ := ih (by omega) (fun d hd => hm d (List.mem_append_left _ hd))
    have hnum := nums_run hd (nums_start cap withLog) h (by omega)
    have hs := step_exec hd (call := call) (e := e) (by have := hnum.clock; omega) (ids_fresh hnum (by omega))
    have hmem := hm _ (List.mem_append_right _ (List.mem_singleton.2 rfl))
    rcases hs.mem hmem with ⟨h3, ops2, h4, h5⟩ | ⟨h3, h4⟩
    · refine ⟨ops ++ ops2, ?_, ?_⟩
      · rw [Lemmas.WriteCall.calls_append, h1]; simp [h4]
      · simp [seen, List.flatMap_append, h2, h3, h5] at h2 ⊢
    · refine ⟨ops, by rw [h1]; simp only [h4], ?_⟩
      simp only [seen, List.flatMap_append, List.flatMap_cons, List.flatMap_nil, h3] at h2 ⊢
      simpa using h2

/-- **C71, restarts.** After any sequence of calls with any failures, the log stands for: all writes whose
answer was a success, or an error of the memory, the flush or the manifest; none of those that were refused
before the log; of those with an error of the log, and of commits that do not wait for it, each completely
or not at all. -/
theorem answers_and_the_log (c : Ctx A K R) (hd : Decodes c) (cap : Nat)
    (h : List (Call K R × Env)) (hn : h.length < 2 ^ 64) :
    ∃ l, (run c (start cap true) h).2.log = some l ∧
      Logged c.ext (run c (start cap true) h).1 (logWrites c.ext c.sch l) := by
  induction h using List.reverseRecOn with
  | nil => exact ⟨[], rfl, .nil⟩
  | append_singleton h p ih =>
    obtain ⟨call, e⟩ := p
    simp only [List.length_append, List.length_cons, List.length_nil] at hn
    obtain ⟨l, h1, h2⟩ := ih (by omega)
    have hnum := nums_run hd (nums_start cap true) h (by omega)
    have hs := step_exec hd (call := call) (e := e) (by have := hnum.clock; omega) (ids_fresh hnum (by omega))
    obtain ⟨evs, h3, _, h4⟩ := hs.some l h1
    rw [run_snoc]
    refine ⟨_, h3, ?_⟩
    rcases h4 with ⟨h4, h5⟩ | ⟨h4, h5⟩
    · rw [h5]; exact .all (d := ⟨call, _, _⟩) h2 h4
    · rw [h5]; exact .nothing (d := ⟨call, _, _⟩) h2 h4

/-- ... and that is what readers see after a restart, if the database opens. -/
theorem answers_and_restarts (c : Ctx A K R) (hd : Decodes c) (cap cap' : Nat) (pol : Nat → Bool)
    (h : List (Call K R × Env)) (hn : h.length < 2 ^ 64) (l : List (Event A))
    (hl : (run c (start cap true) h).2.log = some l) (t : Runs K R) (last : Option Nat)
    (hr : replay c.ext c.sch pol (Runs.new cap') l = some (t, last)) :
    ∃ w, Logged c.ext (run c (start cap true) h).1 w ∧ Holds t w := by
  obtain ⟨l', h1, h2⟩ := answers_and_the_log c hd cap h hn
  rw [hl] at h1
  cases h1
  exact ⟨_, h2, (C28.replay_applies_exactly_the_committed c.ext c.sch pol cap' l t last hr).1⟩

/-- **C71, a success that waited for the log is in the log**, all of it, as is a write with an error behind
the log. -/
theorem a_success_is_logged (c : Ctx A K R) (hd : Decodes c) (cap : Nat) (h : List (Call K R × Env))
    (hn : h.length < 2 ^ 64) (d : Done K R) (hm : d ∈ (run c (start cap true) h).1) (hf : isFast d.call = false)
    (ha : d.ans = .ok ∨ d.ans = .memory ∨ d.ans = .flush ∨ d.ans = .publish) :
    ∃ l, (run c (start cap true) h).2.log = some l ∧ ∀ v ∈ asksFor c.ext d.ts d.call, v ∈ logWrites c.ext c.sch l := by
  obtain ⟨l, h1, h2⟩ := answers_and_the_log c hd cap h hn
  refine ⟨l, h1, ?_⟩
  revert hm h2
  generalize (run c (start cap true) h).1 = ds
  generalize logWrites c.ext c.sch l = w
  intro hm h2
  induction h2 with
  | nil => cases hm
  | all _ _ ih =>
    intro v hv
    rcases List.mem_append.1 hm with hm | hm
    · exact List.mem_append_left _ (ih hm v hv)
    · rw [List.mem_singleton.1 hm] at hv; exact List.mem_append_right _ hv
  | nothing _ hx ih =>
    rcases List.mem_append.1 hm with hm | hm
    · exact ih hm
    · rw [← List.mem_singleton.1 hm] at hx
      exfalso
      rcases ha with ha | ha | ha | ha <;> simp [ha, hf, NoTrace] at hx

/-- **C71, nothing else is in the log**: every write there belongs to a call that was not refused. -/
theorem only_asked_writes_are_logged (c : Ctx A K R) (hd : Decodes c) (cap : Nat) (h : List (Call K R × Env))
    (hn : h.length < 2 ^ 64) (l : List (Event A)) (hl : (run c (start cap true) h).2.log = some l) (v : Ver K R)
    (hv : v ∈ logWrites c.ext c.sch l) :
    ∃ d ∈ (run c (start cap true) h).1, d.ans ≠ .refused ∧ d.ans ≠ .encode ∧ v ∈ asksFor c.ext d.ts d.call := by
  obtain ⟨l', h1, h2⟩ := answers_and_the_log c hd cap h hn
  rw [hl] at h1
  cases h1
  revert hv h2
  generalize (run c (start cap true) h).1 = ds
  generalize logWrites c.ext c.sch l = w
  intro hv h2
  induction h2 with
  | nil => cases hv
  | @all hs d _ _ hx ih =>
    rcases List.mem_append.1 hv with hv | hv
    · obtain ⟨x, a, b⟩ := ih hv; exact ⟨x, List.mem_append_left _ a, b⟩
    · refine ⟨d, by simp, ?_, ?_, hv⟩ <;> (intro ha; simp [ha, NoTrace] at hx)
  | nothing _ _ ih => obtain ⟨x, a, b⟩ := ih hv; exact ⟨x, List.mem_append_left _ a, b⟩

/-- What a payload needs of the log. -/
theorem encodes_of_sendable {ext : R → Option K} {e : Env} {ops : List (Mem.Op K R)}
    (h : ∀ op ∈ ops, sendable e op = true) {v : Ver K R} (hv : v ∈ ops.flatMap (opWrites ext)) :
    (∀ r, v.op = .put r → e.encUp = true) ∧ (v.op = .del → e.encDel = true) := by
  obtain ⟨op, ho, hv⟩ := List.mem_flatMap.1 hv
  have hs := h op ho
  cases op with
  | put rows =>
    refine ⟨fun _ _ => hs, fun hd => ?_⟩
    simp only [opWrites, putWrites, List.mem_filterMap, Option.map_eq_some_iff] at hv
    obtain ⟨_, _, _, _, rfl⟩ := hv
    cases hd
  | del keys =>
    refine ⟨fun r hd => ?_, fun _ => hs⟩
    simp only [opWrites, delWrites, List.mem_map] at hv
    obtain ⟨_, _, rfl⟩ := hv
    cases hd
  | freeze => cases hv

theorem toLog_encodes {c : Ctx A K R} {txn : Bool} {ts : Nat} {ops : List (Mem.Op K R)} {e : Env} {s : St A K R}
    {l : List (Event A)} (hl : s.log = some l) (h : (toLog c txn ts ops e s).1 ≠ .encode) :
    ∀ op ∈ ops, sendable e op = true := by
  unfold toLog at h
  rw [hl] at h
  simp only at h
  split at h
  · rename_i hs; exact List.all_eq_true.1 hs
  · exact absurd rfl h

theorem direct_encodes {c : Ctx A K R} {ts : Nat} {ops : List (Mem.Op K R)} {e : Env} {s : St A K R}
    {l : List (Event A)} (hl : s.log = some l) (h : (direct c ts ops e s).1 ≠ .encode) :
    ∀ op ∈ ops, sendable e op = true := by
  refine toLog_encodes (c := c) (txn := false) (ts := ts) hl ?_
  intro he
  unfold direct at h
  rcases ht : toLog c false ts ops e s with ⟨la, s1⟩
  rw [ht] at he h
  simp only at he
  subst he
  exact h rfl

/-- **C71, what cannot be encoded is said to be so.** With a log, a call that is answered neither with a refusal nor
with an encoding error has rows only if rows can be encoded, and deletions only if deletions can. -/
theorem unencodable_writes_are_answered (c : Ctx A K R) (s : St A K R) (l : List (Event A)) (hl : s.log = some l)
    (call : Call K R) (e : Env) (h1 : (exec c s call e).1 ≠ .refused) (h2 : (exec c s call e).1 ≠ .encode) :
    ∀ v ∈ asksFor c.ext s.clock call, (∀ r, v.op = .put r → e.encUp = true) ∧ (v.op = .del → e.encDel = true) := by
  intro v hv
  cases call with
  | ingest b rows =>
    unfold exec ingest at h1 h2
    simp only at h1 h2
    by_cases hb : b = true
    · by_cases he : e.back = true
      · simp only [hb, he, Bool.not_true, Bool.false_eq_true, if_false] at h2
        rw [← ops_ingest] at hv
        exact encodes_of_sendable (direct_encodes (by exact hl) h2) hv
      · simp [hb, he] at h1
    · simp [hb] at h1
  | ingestT b rows flags =>
    unfold exec ingestT at h1 h2
    simp only at h1 h2
    by_cases hb : b = true
    · simp only [hb, Bool.not_true, Bool.false_eq_true, if_false] at h1 h2
      cases hc : IngestT.calls c.ext rows flags s.clock with
      | error er => rw [hc] at h1; cases er <;> exact absurd rfl h1
      | ok ops =>
        have ho := (ops_ingestT (b := b) hc).2
        rw [hb] at ho
        rw [hb, ← ho] at hv
        cases ops with
        | nil => cases hv
        | cons o os =>
          rw [hc] at h2
          exact encodes_of_sendable (direct_encodes (by exact hl) h2) hv
    · simp [hb] at h1
  | commit f x n rows keys =>
    rw [← (ops_commit c.ext s.clock f x n rows keys).2] at hv
    unfold exec commit at h1 h2
    simp only at h1 h2
    split at h2
    · rename_i hn
      simp [commitOps, hn.1, hn.2] at hv
    rename_i hn
    rw [if_neg hn] at h1
    split at h2
    · rename_i hx; rw [if_pos hx] at h1; exact absurd rfl h1
    rename_i hx
    rw [if_neg hx] at h1
    split at h2
    · rename_i hy; rw [if_pos hy] at h1; exact absurd rfl h1
    refine encodes_of_sendable (toLog_encodes (c := c) (txn := true) (ts := s.clock)
      (s := { s with clock := s.clock + 1 }) (by exact hl) ?_) hv
    intro he
    rcases ht : toLog c true s.clock (commitOps s.clock rows keys) e { s with clock := s.clock + 1 } with ⟨la, s1⟩
    rw [ht] at he h2
    simp only at he
    subst he
    exact h2 rfl

/-! ## Which calls the memory refuses -/

/-- Every row has a key, and `ingest` gets at least one row. -/
def Proper (ext : R → Option K) : Call K R → Prop
  | .ingest _ rows => rows ≠ [] ∧ ∀ r ∈ rows, ext r ≠ none
  | .ingestT _ rows _ => ∀ r ∈ rows, ext r ≠ none
  | .commit _ _ _ rows _ => ∀ r ∈ rows, ext r ≠ none

/-- Made by valid calls. -/
def Made (ext : R → Option K) (cap : Nat) (t : Runs K R) : Prop :=
  ∃ ops, (∀ op ∈ ops, C04.Valid ext op) ∧ (Runs.new cap).calls ext ops = (true, t)

theorem made_call {ext : R → Option K} {cap : Nat} (hcap : 0 < cap) {t : Runs K R} (h : Made ext cap t)
    {op : Mem.Op K R} (ho : C04.Valid ext op) :
    (t.call ext op).1 = true ∧ Made ext cap (t.call ext op).2 := by
  obtain ⟨ops, h1, h2⟩ := h
  have hv : ∀ o ∈ ops ++ [op], C04.Valid ext o := by
    intro o hm
    rcases List.mem_append.1 hm with hm | hm
    · exact h1 o hm
    · rw [List.mem_singleton.1 hm]; exact ho
  have hok := C04.inserts_never_fail ext cap hcap (ops ++ [op]) hv
  rw [Lemmas.WriteCall.calls_append, h2] at hok
  simp only [Runs.calls, Bool.and_true, Bool.true_and] at hok
  refine ⟨hok, ops ++ [op], hv, ?_⟩
  rw [Lemmas.WriteCall.calls_append, h2]
  simp [Runs.calls, hok]

theorem made_apply {ext : R → Option K} {cap : Nat} (hcap : 0 < cap) : ∀ (ops : List (Mem.Op K R)) (t : Runs K R),
    Made ext cap t → (∀ op ∈ ops, C04.Valid ext op) →
    ∃ t', applyOps ext ops t = (true, t') ∧ Made ext cap t'
  | [], t, h, _ => ⟨t, rfl, h⟩
  | op :: ops, t, h, hv => by
    have h1 := made_call hcap h (hv op List.mem_cons_self)
    obtain ⟨t', h2, h3⟩ := made_apply hcap ops _ h1.2 (fun o ho => hv o (List.mem_cons_of_mem _ ho))
    exact ⟨t', by rw [applyOps, if_pos h1.1, h2], h3⟩

theorem toLog_mem {c : Ctx A K R} {txn : Bool} {ts : Nat} {ops : List (Mem.Op K R)} {e : Env} {s s' : St A K R}
    {la : LogAns} (h : toLog c txn ts ops e s = (la, s')) : s'.mem = s.mem := by
  unfold toLog at h
  split at h
  · cases h; rfl
  · split at h <;> cases h <;> rfl

theorem direct_proper {c : Ctx A K R} {cap : Nat} (hcap : 0 < cap) {ts : Nat} {ops : List (Mem.Op K R)} {e : Env}
    {s : St A K R} (h : Made c.ext cap s.mem) (hv : ∀ op ∈ ops, C04.Valid c.ext op) :
    (direct c ts ops e s).1 ≠ .memory ∧ Made c.ext cap (direct c ts ops e s).2.mem := by
  unfold direct
  rcases ht : toLog c false ts ops e s with ⟨la, s1⟩
  have hm := toLog_mem ht
  cases la with
  | encode => exact ⟨by simp, by rw [hm]; exact h⟩
  | fails => exact ⟨by simp, by rw [hm]; exact h⟩
  | ok =>
    obtain ⟨t, h1, h2⟩ := made_apply hcap ops s1.mem (by rw [hm]; exact h) hv
    simp only [h1]
    unfold settle
    by_cases hf : e.freeze = true
    · have h3 := made_call hcap h2 (op := .freeze) trivial
      rw [if_pos hf]
      rcases hc : t.call c.ext .freeze with ⟨b, t'⟩
      rw [hc] at h3
      simp only at h3
      rw [h3.1]
      refine ⟨?_, h3.2⟩
      simp only
      split <;> simp
    · rw [if_neg hf]
      refine ⟨?_, h2⟩
      simp only
      split <;> simp

theorem exec_proper {c : Ctx A K R} {cap : Nat} (hcap : 0 < cap) {call : Call K R} (hp : Proper c.ext call) {e : Env}
    {s : St A K R} (h : Made c.ext cap s.mem) :
    (exec c s call e).1 ≠ .memory ∧ Made c.ext cap (exec c s call e).2.mem := by
  cases call with
  | ingest b rows =>
    simp only [exec, ingest]
    split
    · exact ⟨by simp, h⟩
    split
    · exact ⟨by simp, h⟩
    refine direct_proper hcap h ?_
    intro op ho
    rw [List.mem_singleton.1 ho]
    refine ⟨by simpa using hp.1, ?_⟩
    intro p hpm
    obtain ⟨r, hr, rfl⟩ := List.mem_map.1 hpm
    exact hp.2 r hr
  | ingestT b rows flags =>
    simp only [exec, ingestT]
    split
    · exact ⟨by simp, h⟩
    split
    · exact ⟨by simp, h⟩
    · exact ⟨by simp, h⟩
    · exact ⟨by simp, h⟩
    · rename_i ops _ hc
      refine direct_proper hcap h ?_
      unfold IngestT.calls at hc
      split at hc
      · cases hc
      split at hc
      · cases hc; simp
      rename_i hr
      rw [split_eq] at hc
      simp only at hc
      have hkeys : ∀ q : R × Bool → Bool, ∀ x ∈ (((rows.zip flags).filter q).map (·.1)).map (fun r => (r, s.clock)),
          c.ext x.1 ≠ none := by
        intro q x hx
        obtain ⟨r, hr, rfl⟩ := List.mem_map.1 hx
        obtain ⟨p, hpm, rfl⟩ := List.mem_map.1 hr
        exact hp _ (List.of_mem_zip (List.mem_filter.1 hpm).1).1
      split at hc
      · cases hc
        intro op ho
        rw [List.mem_singleton.1 ho]
        refine ⟨by simpa using hr, fun x hx => ?_⟩
        obtain ⟨r, hr, rfl⟩ := List.mem_map.1 hx
        exact hp r hr
      · rename_i hdel
        split at hc
        · cases hc
        · rename_i keys hk
          cases hc
          intro op ho
          rcases List.mem_append.1 ho with ho | ho
          · split at ho
            · cases ho
            · rename_i hne
              rw [List.mem_singleton.1 ho]
              exact ⟨by simpa using hne, hkeys _⟩
          · rw [List.mem_singleton.1 ho]
            intro hnil
            have hnil : keys = [] := List.map_eq_nil_iff.1 hnil
            subst hnil
            rcases hl : ((rows.zip flags).filter (fun p => p.2)).map (·.1) with _ | ⟨r, rs⟩
            · exact hdel hl
            · rw [hl, List.mapM_cons] at hk
              cases h1 : c.ext r <;> simp [h1] at hk
              cases h2 : rs.mapM c.ext <;> simp [h2] at hk
  | commit f x n rows keys =>
    simp only [exec, WriteCall.commit]
    split
    · exact ⟨by simp, h⟩
    split
    · exact ⟨by simp, h⟩
    split
    · exact ⟨by simp, h⟩
    have hv : ∀ op ∈ commitOps s.clock rows keys, C04.Valid c.ext op := by
      intro op ho
      rcases List.mem_append.1 ho with ho | ho
      · split at ho
        · cases ho
        · rename_i hne
          rw [List.mem_singleton.1 ho]
          refine ⟨by simpa using hne, fun x hx => ?_⟩
          obtain ⟨r, hr, rfl⟩ := List.mem_map.1 hx
          exact hp r hr
      · split at ho
        · cases ho
        · rename_i hne
          rw [List.mem_singleton.1 ho]
          simpa [C04.Valid] using hne
    rcases ht : toLog c true s.clock (commitOps s.clock rows keys) e { s with clock := s.clock + 1 } with ⟨la, s1⟩
    have hm : s1.mem = s.mem := (toLog_mem ht).trans rfl
    obtain ⟨t, h1, h2⟩ := made_apply hcap _ s1.mem (by rw [hm]; exact h) hv
    have ha : (apply c f (commitOps s.clock rows keys) e s1).1 ≠ .memory ∧
        Made c.ext cap (apply c f (commitOps s.clock rows keys) e s1).2.mem := by
      unfold apply
      rw [h1]
      refine ⟨?_, h2⟩
      simp only
      split <;> simp
    cases la with
    | encode => exact ⟨by simp, by rw [hm]; exact h⟩
    | fails =>
      simp only
      split
      · exact ha
      · exact ⟨by simp, by rw [hm]; exact h⟩
    | ok => exact ha

/-- **C71, the memory refuses nothing that is proper**: with calls whose rows have keys, and no empty ingest,
no call is ever answered with an error of the memory table, whatever else fails. -/
theorem proper_calls_are_not_refused_by_memory (c : Ctx A K R) (cap : Nat) (hcap : 0 < cap) (withLog : Bool)
    (h : List (Call K R × Env)) (hp : ∀ p ∈ h, Proper c.ext p.1) :
    ∀ d ∈ (run c (start cap withLog) h).1, d.ans ≠ .memory := by
  suffices H : ∀ (h : List (Call K R × Env)) (s : St A K R), (∀ p ∈ h, Proper c.ext p.1) → Made c.ext cap s.mem →
      ∀ d ∈ (run c s h).1, d.ans ≠ .memory from H h _ hp ⟨[], by simp, rfl⟩
  intro h
  induction h with
  | nil => intro s _ _ d hd; cases hd
  | cons p h ih =>
    intro s hp hs d hd
    obtain ⟨call, e⟩ := p
    have hx := exec_proper hcap (hp _ List.mem_cons_self) (e := e) hs
    rcases List.mem_cons.1 hd with rfl | hd
    · exact hx.1
    · exact ih _ (fun q hq => hp q (List.mem_cons_of_mem _ hq)) hx.2 d hd

/-! ## Retrying -/

theorem asked_keys (ext : R → Option K) (ts ts' : Nat) (call : Call K R) :
    asksFor ext ts' call = (asksFor ext ts call).map (fun v => ⟨v.key, ts', v.op⟩) := by
  cases call <;>
    simp [asksFor, List.map_filterMap, Function.comp_def, Option.map_map]

theorem asked_ts {ext : R → Option K} {ts : Nat} {call : Call K R} {v : Ver K R} (h : v ∈ asksFor ext ts call) :
    v.ts = ts := by
  rw [asked_keys ext 0 ts] at h
  obtain ⟨u, _, rfl⟩ := List.mem_map.1 h
  rfl

/-- **C71, a call can be repeated after an error.** Whether the first attempt was seen or not makes no
difference to readers once the second was: at every timestamp from the second one on they see the same. -/
theorem retrying_is_harmless (ext : R → Option K) (call : Call K R) (log : List (Ver K R)) (ts ts' rts : Nat)
    (hl : ∀ v ∈ log, v.ts < ts') (h : ts < ts') (hr : ts' ≤ rts) (k : K) (v : R) :
    Visible (LastWrite (log ++ asksFor ext ts call ++ asksFor ext ts' call)) rts k v ↔
    Visible (LastWrite (log ++ asksFor ext ts' call)) rts k v := by
  have hL : ∀ v ∈ log ++ asksFor ext ts call, v.ts < ts' := by
    intro v hv
    rcases List.mem_append.1 hv with hv | hv
    · exact hl v hv
    · rw [asked_ts hv]; exact h
  have key : ∀ a : List (Ver K R), (∀ v ∈ a, v.ts < ts') → ∀ w : Ver K R,
      LastWrite (a ++ asksFor ext ts' call) w ↔ LastWrite (asksFor ext ts' call) w ∨ LastWrite a w := by
    intro a ha w
    rw [lastWrite_append]
    constructor
    · rintro (⟨h, _⟩ | h)
      · exact .inr h
      · exact .inl h
    · rintro (h | h)
      · exact .inr h
      · refine .inl ⟨h, fun u hu hc => ?_⟩
        have := ha w (lastWrite_mem h)
        rw [← hc.2, asked_ts hu] at this
        omega
  by_cases hk : ∃ u ∈ asksFor ext ts' call, u.key = k
  · obtain ⟨u, hu, hke⟩ := hk
    obtain ⟨w0, hw0, hw1, hw2⟩ := lastWrite_exists hu
    have hnew : ∀ a : List (Ver K R), (∀ v ∈ a, v.ts < ts') → ∀ t,
        Newest (LastWrite (a ++ asksFor ext ts' call)) rts ⟨k, t, .put v⟩ ↔
          LastWrite (asksFor ext ts' call) (⟨k, t, .put v⟩ : Ver K R) := by
      intro a ha t
      constructor
      · rintro ⟨h1, h2, h3⟩
        rcases (key a ha _).1 h1 with h1 | h1
        · exact h1
        · have h4 := h3 w0 ((key a ha _).2 (.inl hw0)) (by rw [hw1, hke])
            (by rw [asked_ts (lastWrite_mem hw0)]; exact hr)
          rw [asked_ts (lastWrite_mem hw0)] at h4
          have := ha _ (lastWrite_mem h1)
          simp only at this h4
          omega
      · intro h1
        have ht : t = ts' := asked_ts (lastWrite_mem h1)
        refine ⟨(key a ha _).2 (.inl h1), by simp only [ht]; exact hr, ?_⟩
        intro x hx _ _
        rcases (key a ha _).1 hx with hx | hx
        · rw [asked_ts (lastWrite_mem hx), ht]
        · have := ha _ (lastWrite_mem hx)
          simp only [ht]; omega
    unfold Visible
    constructor
    · rintro ⟨t, ht⟩; exact ⟨t, (hnew log hl t).2 ((hnew _ hL t).1 ht)⟩
    · rintro ⟨t, ht⟩; exact ⟨t, (hnew _ hL t).2 ((hnew log hl t).1 ht)⟩
  · have hno : ∀ ts0, ∀ u ∈ asksFor ext ts0 call, u.key ≠ k := by
      intro ts0 u hu he
      rw [asked_keys ext ts' ts0] at hu
      obtain ⟨x, hx, rfl⟩ := List.mem_map.1 hu
      exact hk ⟨x, hx, he⟩
    have same : ∀ w : Ver K R, w.key = k →
        (LastWrite (log ++ asksFor ext ts call ++ asksFor ext ts' call) w ↔ LastWrite (log ++ asksFor ext ts' call) w) := by
      intro w hw
      rw [key _ hL, key _ hl, lastWrite_append]
      constructor
      · rintro (h | ⟨h, _⟩ | h)
        · exact .inl h
        · exact .inr h
        · exact absurd hw (hno ts w (lastWrite_mem h))
      · rintro (h | h)
        · exact .inl h
        · exact .inr (.inl ⟨h, fun u hu hc => hno ts u hu (by rw [hc.1, hw])⟩)
    unfold Visible Newest
    constructor
    · rintro ⟨t, h1, h2, h3⟩
      exact ⟨t, (same _ rfl).1 h1, h2, fun u hu hku hut => h3 u ((same u hku).2 hu) hku hut⟩
    · rintro ⟨t, h1, h2, h3⟩
      exact ⟨t, (same _ rfl).2 h1, h2, fun u hu hku hut => h3 u ((same u hku).1 hu) hku hut⟩

/-! ## Errors that do not mean what they seem to -/

theorem null_put_fails {ext : R → Option K} {rows : List R} {r : R} (hr : r ∈ rows) (hn : ext r = none)
    (m : Inner K R) (ts : List (Option Nat)) : ∃ e m', insertBatchMvcc ext m rows ts = (.error e, m') := by
  have hm : rows.mapM ext = none := by
    cases h : rows.mapM ext with
    | none => rfl
    | some ks =>
      exfalso
      clear ts
      induction rows generalizing ks with
      | nil => cases hr
      | cons a rows ih =>
        rw [List.mapM_cons] at h
        rcases List.mem_cons.1 hr with rfl | hr
        · simp [hn] at h
        · cases ha : ext a with
          | none => simp [ha] at h
          | some k =>
            cases hk : rows.mapM ext with
            | none => simp [ha, hk] at h
            | some ks => exact ih hr ks hk
  have ht : ∀ (s : Inner K R) ts, ¬ ∃ s', tryInsertBatch ext s rows ts = .ok s' := by
    rintro s ts ⟨s', h⟩
    simp only [tryInsertBatch, hm] at h
    split at h <;> cases h
  unfold insertBatchMvcc
  split
  · exact ⟨_, _, rfl⟩
  split
  · exact ⟨_, _, rfl⟩
  split
  · rename_i h; exact absurd ⟨_, h⟩ (ht _ _)
  · exact ⟨_, _, rfl⟩
  · split
    · exact ⟨_, _, rfl⟩
    · split
      · rename_i h; exact absurd ⟨_, h⟩ (ht _ _)
      · exact ⟨_, _, rfl⟩
      · exact ⟨_, _, rfl⟩

/-- **C71 fails**: `ingest` of a batch with a null key is answered with an error, but the batch is committed
in the log, and the database can not be opened again, with whatever settings. -/
theorem a_refused_batch_stops_recovery (c : Ctx A K R) (hd : Decodes c) (s : St A K R) (l : List (Event A))
    (hl : s.log = some l) (rows : List R) (r : R) (hr : r ∈ rows) (hn : c.ext r = none) (e : Env) (hb : e.back = true)
    (hu : e.encUp = true) (hg : e.log = none) :
    (exec c s (.ingest true rows) e).1 = .memory ∧
    ∃ l', (exec c s (.ingest true rows) e).2.log = some l' ∧
      ∀ pol cap, replay c.ext c.sch pol (Runs.new cap) l' = none := by
  have hlog : toLog c false s.clock [.put (rows.map (fun r => (r, s.clock)))] e { s with clock := s.clock + 1 } =
      (.ok, { s with
              clock := s.clock + 1
              log := some (l ++ frames c false s.nextId s.clock [.put (rows.map (fun r => (r, s.clock)))])
              nextId := s.nextId + 1 }) := by
    simp [toLog, hl, sendable, hu, hg, cut]
  have hap : ∃ t, applyOps c.ext [.put (rows.map (fun r => (r, s.clock)))] s.mem = (false, t) := by
    obtain ⟨er, m', h⟩ := null_put_fails (ext := c.ext) (rows := rows) hr hn s.mem.mem
      (List.replicate rows.length (some s.clock))
    refine ⟨{ s.mem with mem := m' }, ?_⟩
    simp [applyOps, Runs.call, memCall, Function.comp_def, h]
  obtain ⟨t, ht⟩ := hap
  have hx : exec c s (.ingest true rows) e =
      (.memory, { s with
                  clock := s.clock + 1
                  mem := t
                  log := some (l ++ frames c false s.nextId s.clock [.put (rows.map (fun r => (r, s.clock)))])
                  nextId := s.nextId + 1 }) := by
    simp [exec, ingest, hb, direct, hlog, ht]
  rw [hx]
  refine ⟨rfl, _, rfl, fun pol cap => ?_⟩
  have hone : ∀ q : Runs K R × Nat, applyPayload c.ext c.sch pol (BitVec.ofNat 64 s.clock) q
      (.upsert (c.rows rows) (.u64 (List.replicate rows.length (some (BitVec.ofNat 64 s.clock))))) = none := by
    intro q
    simp only [applyPayload, applyOne, applyUpsert, hd.1 rows]
    cases checkColumn (BitVec.ofNat 64 s.clock) (.u64 (List.replicate rows.length (some (BitVec.ofNat 64 s.clock))) : Col A) with
    | none => rfl
    | some vs =>
      obtain ⟨er, m', h⟩ := null_put_fails (ext := c.ext) (rows := rows) hr hn q.1.mem (vs.map (fun v => some v.toNat))
      simp only [h, addResult]
  have hev : ∀ st : RState A K R, (frames c false s.nextId s.clock [.put (rows.map (fun r => (r, s.clock)))]).foldlM
      (replayEvent c.ext c.sch pol) st = none := by
    intro st
    have hemp : ∀ (a : List (Pend A)) x, (a ++ [x]).isEmpty = false := by intro a x; cases a <;> rfl
    simp only [frames, opening, Bool.false_eq_true, if_false, List.map_cons, List.map_nil, payload, List.nil_append,
      List.cons_append, List.foldlM_cons, List.foldlM_nil, replayEvent, List.map_map, Function.comp_def, List.map_id',
      List.length_map, pushPend, setPend, if_true, Option.bind_eq_bind, Option.bind_some, hemp,
      Bool.false_eq_true, if_false, List.foldlM_append, hone]
    cases List.foldlM (applyPayload c.ext c.sch pol (BitVec.ofNat 64 s.clock)) (st.mem, st.taken)
      ((st.pend (BitVec.ofNat 64 s.nextId)).getD []) <;> rfl
  unfold replay
  rw [List.foldlM_append]
  cases l.foldlM (replayEvent c.ext c.sch pol) (⟨Runs.new cap, fun _ => none, none, 0⟩ : RState A K R) with
  | none => rfl
  | some st =>
    simp only [Option.bind_eq_bind, Option.bind_some, hev]
    rfl

/-! ## Concrete runs -/

section Example
set_option synthInstance.maxSize 1000
set_option synthInstance.maxHeartbeats 200000

/-- Numbers that are their own keys, except 99, which has none. -/
def exCtx : Ctx (List Nat) Nat Nat where
  ext r := if r = 99 then none else some r
  sch :=
    { rows := fun b => match b.cols with
        | [⟨_, _, .other _ _ rs⟩] => some rs
        | _ => none
      keys := fun b => match b.cols with
        | [⟨_, _, .other _ _ ks⟩, _] => some (ks.map some)
        | _ => none }
  rows rs := ⟨[⟨"k", false, .other rs.length false rs⟩], []⟩
  keys ks ts := ⟨[⟨"k", false, .other ks.length false ks⟩,
    ⟨"_commit_ts", false, .u64 (List.replicate ks.length (some ts))⟩], []⟩

theorem exCtx_decodes : Decodes exCtx := ⟨fun _ => rfl, fun _ _ => rfl⟩

/-- Nothing fails. -/
def exFine : Env := ⟨true, true, true, none, false, false, true, true⟩

/-- For `unencodable_writes_are_answered`: a commit of a row and a deletion that cannot be encoded, and one of a row
alone. -/
example : (exec exCtx (start 4 true) (.commit false false true [11] [2]) { exFine with encDel := false }).1 = .encode ∧
    (exec exCtx (start 4 true) (.commit false false true [11] []) { exFine with encDel := false }).1 = .ok := by
  decide +kernel

/-- A write; a batch of another schema; a write whose flush fails, with a freeze before it; one whose log
fails after both its frames; one whose log fails after one frame; a commit that is not published; one that
conflicts; one that does not wait and whose log fails behind it. -/
def exHist : List (Call Nat Nat × Env) :=
  [(.ingest true [1, 2], exFine),
   (.ingest false [3], exFine),
   (.ingestT true [1, 4] [true, false], { exFine with freeze := true, flush := false }),
   (.ingest true [5], { exFine with log := some 2 }),
   (.ingest true [6], { exFine with log := some 1 }),
   (.commit false false true [7] [2], { exFine with publish := false }),
   (.commit false true true [8] [], exFine),
   (.commit true false true [9] [], { exFine with log := some 0, late := true })]

/-- The hypotheses of the theorems above hold of it: no answer of the memory. -/
example : (run exCtx (start 4 true) exHist).1.map (fun d => (d.ans, d.ts)) =
    [(.ok, 0), (.refused, 1), (.flush, 1), (.log, 2), (.log, 3), (.publish, 4), (.refused, 5), (.ok, 5)] := by
  decide +kernel

example : ∀ p ∈ exHist, Proper exCtx.ext p.1 := by
  intro p hp
  simp only [exHist, List.mem_cons, List.not_mem_nil, or_false] at hp
  rcases hp with rfl | rfl | rfl | rfl | rfl | rfl | rfl | rfl <;> simp [Proper, exCtx]

/-- Readers see 4, 7 and 9, not 5; a restart finds 4, 5 and 7, not 9. -/
theorem errors_that_mean_otherwise :
    seen exCtx.ext (run exCtx (start 4 true) exHist).1 =
      [⟨1, 0, .put 1⟩, ⟨2, 0, .put 2⟩, ⟨4, 1, .put 4⟩, ⟨1, 1, .del⟩, ⟨7, 4, .put 7⟩, ⟨2, 4, .del⟩, ⟨9, 5, .put 9⟩] ∧
    (run exCtx (start 4 true) exHist).2.log.map (logWrites exCtx.ext exCtx.sch) =
      some [⟨1, 0, .put 1⟩, ⟨2, 0, .put 2⟩, ⟨4, 1, .put 4⟩, ⟨1, 1, .del⟩, ⟨5, 2, .put 5⟩, ⟨7, 4, .put 7⟩, ⟨2, 4, .del⟩] ∧
    (run exCtx (start 4 true) exHist).2.mem.runs.map (fun m : Imm Nat Nat => m.scan none 9) =
      [some [.tomb ⟨1, 1⟩, .row ⟨2, 0⟩ 2, .row ⟨4, 1⟩ 4]] ∧
    Mem.scan (run exCtx (start 4 true) exHist).2.mem.mem none 9 = some [.tomb ⟨2, 4⟩, .row ⟨7, 4⟩ 7, .row ⟨9, 5⟩ 9] := by
  refine ⟨?_, ?_, ?_, ?_⟩ <;> decide +kernel

/-- **C71 fails**: after an error of the log the row 5 cannot be read; after a restart it can. -/
theorem a_failed_write_appears_after_a_restart :
    (exec exCtx (start 4 true) (.ingest true [5]) { exFine with log := some 2 }).1 = .log ∧
    Mem.scan (exec exCtx (start 4 true) (.ingest true [5]) { exFine with log := some 2 }).2.mem.mem none 9 = some [] ∧
    ((exec exCtx (start 4 true) (.ingest true [5]) { exFine with log := some 2 }).2.log.bind (fun l =>
      replay exCtx.ext exCtx.sch (fun _ => false) (Runs.new 4) l)).map (fun r => Mem.scan r.1.mem none 9) =
      some (some [.row ⟨5, 0⟩ 5]) := by
  refine ⟨?_, ?_, ?_⟩ <;> decide +kernel

/-- `a_refused_batch_stops_recovery`, on a database that already holds a row. -/
example : (run exCtx (start 4 true) [(.ingest true [1], exFine), (.ingest true [2, 99], exFine)]).1.map (·.ans) =
      [.ok, .memory] ∧
    ((run exCtx (start 4 true) [(.ingest true [1], exFine), (.ingest true [2, 99], exFine)]).2.log.bind (fun l =>
      replay exCtx.ext exCtx.sch (fun _ => false) (Runs.new 4) l)).isNone = true := by
  refine ⟨?_, ?_⟩ <;> decide +kernel

/-- The call of `retrying_is_harmless`: a commit repeated at 6 after its attempt at 4. -/
example : asksFor exCtx.ext 6 (.commit false false true [7] [2]) = [⟨7, 6, .put 7⟩, ⟨2, 6, .del⟩] ∧
    ∀ v ∈ ([⟨2, 0, .put 2⟩, ⟨7, 1, .put 7⟩] : List (Ver Nat Nat)), v.ts < 6 := by
  refine ⟨?_, ?_⟩ <;> decide +kernel

end Example

end Tonbo.Props.C71
