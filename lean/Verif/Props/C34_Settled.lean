import Verif.Props.C29_C32_Durable_Ex
import Verif.Lemmas.DurableIds

/-!
# C34, C29–C32: after a crash, numbers go on above those of a log that ends well

`CalmRun` (the hypothesis of C29–C32) asks of every crash that the numbers opening computes are above
those in the log. Here that is a consequence, in every state a calm history reaches, of the log alone:
it ends with a payload or a commit record, and that frame has the largest number, as it has if writes follow
one another. What is left out is a log whose last segment is empty or ends with the begin record of a
transaction (`ids_restart_when_the_tail_is_empty`, C34), and one whose last frame is of an earlier write than
others (`a_log_that_ends_well_gives_a_number_again`).
-/

set_option linter.unusedSectionVars false

namespace Tonbo.Props.C34
open Tonbo.Model Tonbo.Model.Manifest Tonbo.Model.Lsm Tonbo.Model.Durable Tonbo.Spec Tonbo.Spec.Durable
open Tonbo.Lemmas.Durable Tonbo.Props.C32
open Tonbo.Model.Wal (Event)

variable {A K R : Type} [LinearOrder K]

theorem ids_run {c : Ctx A K R} (hx : 0 < c.x.readRows) : ∀ (ops : List (Durable.Op K R)) {s : Sys A K R} {n : Nat}
    {log : List (Ver K R)} {logs : List (List (Ver K R))} {cur : List (Ver K R)}, D c s n log logs cur → Ck c s → Ids s →
    CalmRun c s ops → FreshRun c s ops → AloneRun c s ops → Ids (Durable.run c s ops)
  | [], _, _, _, _, _, _, _, h, _, _, _ => h
  | o :: ops, s, _, _, _, _, hd, hck, h, hc, hf, ha => by
    obtain ⟨_, _, _, _, hd'⟩ := d_step hd hx o hc.1 hck.fn
    exact ids_run hx ops hd' (ck_step hck o hc.1 hf.1) (ids_step hd h o hc.1 ha.1) hc.2 hf.2 ha.2

/-- **C34.** Every state a quiet history of writes one after the other reaches, whatever the state file says: if the log has no frames
or ends with a payload or a commit record, opening goes on with numbers of frames and of transactions above
all that are in the log. -/
theorem numbers_go_on_above_a_settled_log (c : Ctx A K R) (cap sv : Nat) (ops : List (Durable.Op K R))
    (h : Quiet c cap sv ops) (ha : AloneRun c (Sys.new cap c.table sv) ops) (hs : Settled (after c cap sv ops).segs) (st : Option Wal.WState) :
    ∀ g ∈ (after c cap sv ops).segs, ∀ p ∈ g.frames,
      p.1 < (Wal.resume (tailOf (after c cap sv ops).segs) st).nextFrame ∧
      evId p.2 < (Wal.resume (tailOf (after c cap sv ops).segs) st).nextId := by
  obtain ⟨_, n, log, logs, cur, hd⟩ := quiet_state h
  have hi : Ids (after c cap sv ops) :=
    ids_run h.2.1 ops (d_new c cap sv h.1) (ck_new c cap sv)
      ⟨by simp [Sys.new, entries], by simp [Sys.new], by simp [Sys.new]⟩ h.2.2.1 h.2.2.2 ha
  exact settled_numbers hd hi hs st

/-- **C34.** Every state a quiet history reaches, with any number of writes in flight: if the log ends with a
payload or a commit record, of the transaction with the largest number in the log, opening goes on with numbers
above all that are in the log. -/
theorem numbers_go_on_above_the_last_frame (c : Ctx A K R) (cap sv : Nat) (ops : List (Durable.Op K R))
    (h : Quiet c cap sv ops) (hs : Topped (after c cap sv ops).segs) (st : Option Wal.WState) :
    ∀ g ∈ (after c cap sv ops).segs, ∀ p ∈ g.frames,
      p.1 < (Wal.resume (tailOf (after c cap sv ops).segs) st).nextFrame ∧
      evId p.2 < (Wal.resume (tailOf (after c cap sv ops).segs) st).nextId := by
  obtain ⟨_, n, log, logs, cur, hd⟩ := quiet_state h
  exact topped_numbers hd hs st

theorem calm_of_end {c : Ctx A K R} (hx : 0 < c.x.readRows) : ∀ (ops : List (Durable.Op K R)) {s : Sys A K R} {n : Nat}
    {log : List (Ver K R)} {logs : List (List (Ver K R))} {cur : List (Ver K R)}, D c s n log logs cur → Ck c s → Ids s →
    CalmEndRun c s ops → FreshRun c s ops → CalmRun c s ops
  | [], _, _, _, _, _, _, _, _, _, _ => trivial
  | o :: ops, s, _, _, _, _, hd, hck, h, hc, hf => by
    have h1 : Calm c s o := by
      cases o with
      | crash cap pol st => exact ⟨hc.1.1, settled_numbers hd h hc.1.2.1 st, hc.1.2.2⟩
      | _ => exact hc.1.1
    have h2 : Alone s o := by
      cases o with
      | crash cap pol st => trivial
      | _ => exact hc.1.2
    obtain ⟨_, _, _, _, hd'⟩ := d_step hd hx o h1 hck.fn
    exact ⟨h1, calm_of_end hx ops hd' (ck_step hck o h1 hf.1) (ids_step hd h o h1 h2) hc.2 hf.2⟩

/-- A history whose steps are calm, with crashes only when the log ends well. -/
def QuietEnd (c : Ctx A K R) (cap sv : Nat) (ops : List (Durable.Op K R)) : Prop :=
  0 < cap ∧ 0 < c.x.readRows ∧ CalmEndRun c (Sys.new cap c.table sv) ops ∧ FreshRun c (Sys.new cap c.table sv) ops

/-- **C29–C34.** A history with crashes only when the log ends with a payload or a commit record meets the
hypotheses of C29–C32. -/
theorem settled_histories_are_quiet (c : Ctx A K R) (cap sv : Nat) (ops : List (Durable.Op K R))
    (h : QuietEnd c cap sv ops) : Quiet c cap sv ops :=
  ⟨h.1, h.2.1, calm_of_end h.2.1 ops (d_new c cap sv h.1) (ck_new c cap sv)
      ⟨by simp [Sys.new, entries], by simp [Sys.new], by simp [Sys.new]⟩ h.2.2.1 h.2.2.2, h.2.2.2⟩

/-- **C29, C31 (partial)** for such histories: the database is open, and reads show every acknowledged
write and nothing that was not committed. Missing: what `CalmEnd` and `Fresh` exclude. -/
theorem settled_histories_are_sound_partial (c : Ctx A K R) (cap sv : Nat) (ops : List (Durable.Op K R))
    (h : QuietEnd c cap sv ops) : Sound c (after c cap sv ops) :=
  C29.quiet_histories_are_sound_partial c cap sv ops (settled_histories_are_quiet c cap sv ops h)

/-! ## The hypotheses can be met -/

/-- `Settled`, checked. -/
def settledB (segs : List (LSeg A)) : Bool :=
  segs.all (fun g => g.frames.isEmpty) ||
  match segs.getLast?.bind (fun g => g.frames.getLast?) with
  | some (_, .append ..) | some (_, .delete ..) | some (_, .commit ..) => true
  | _ => false

theorem settled_of_check {segs : List (LSeg A)} (h : settledB segs = true) : Settled segs := by
  unfold settledB at h
  rcases Bool.or_eq_true_iff.1 h with h | h
  · exact .inl (by simpa using h)
  · refine .inr ?_
    cases hg : segs.getLast? with
    | none => rw [hg] at h; cases h
    | some g =>
      rw [hg] at h
      simp only [Option.bind_some] at h
      cases hp : g.frames.getLast? with
      | none => rw [hp] at h; cases h
      | some p =>
        rw [hp] at h
        obtain ⟨i, e⟩ := p
        refine ⟨g, rfl, (i, e), hp, ?_⟩
        cases e <;> first | trivial | cases h

/-- Every crash of the history finds a log that ends well. -/
def endsB (c : Ctx A K R) : Sys A K R → List (Durable.Op K R) → Bool
  | _, [] => true
  | s, o :: os => (match o with | .crash .. => settledB s.segs | .write .. => s.writers.isEmpty | _ => true) && endsB c (Durable.step c s o) os

theorem end_of_check {c : Ctx A K R} : ∀ (ops : List (Durable.Op K R)) (s : Sys A K R), CalmRun c s ops → endsB c s ops = true →
    CalmEndRun c s ops
  | [], _, _, _ => trivial
  | o :: ops, s, hc, h => by
    simp only [endsB, Bool.and_eq_true] at h
    refine ⟨?_, end_of_check ops _ hc.2 h.2⟩
    cases o with
    | crash cap pol st => exact ⟨hc.1.1, settled_of_check h.1, hc.1.2.2⟩
    | write m rs ks => exact ⟨hc.1, List.isEmpty_iff.1 h.1⟩
    | _ => exact ⟨hc.1, trivial⟩

/-- **The hypotheses can be met**: the history of `all_quiet`, with its three crashes, flushes, a
compaction and an abandoned write. -/
example : QuietEnd exC 4 0 all := by
  obtain ⟨h1, h2, h3, h4⟩ := all_quiet
  exact ⟨h1, h2, end_of_check _ _ h3 (by decide +kernel), h4⟩

/-- For `numbers_go_on_above_the_last_frame`: four writes at once. -/
example : Quiet exC 4 0 crowd ∧ Topped (after exC 4 0 crowd).segs := by
  refine ⟨crowd_quiet, ?_⟩
  have h : (match (ex 4 crowd).segs.getLast?.bind (fun g => g.frames.getLast?) with
    | some (_, .commit i _) => (ex 4 crowd).segs.all (fun g => g.frames.all (fun q => decide (evId q.2 ≤ i.toNat)))
    | _ => false) = true := by decide +kernel
  change Topped (ex 4 crowd).segs
  cases hg : (ex 4 crowd).segs.getLast? with
  | none => rw [hg] at h; cases h
  | some g =>
    rw [hg] at h
    simp only [Option.bind_some] at h
    cases hp : g.frames.getLast? with
    | none => rw [hp] at h; cases h
    | some p =>
      rw [hp] at h
      obtain ⟨i, e⟩ := p
      cases e with
      | commit id ts =>
        refine ⟨g, hg, (i, .commit id ts), hp, trivial, ?_⟩
        simp only [List.all_eq_true, decide_eq_true_eq] at h
        exact h
      | _ => cases h

/-- Two ingests are in flight. The first has number 1, the second number 2; both have written their rows to the
log, then the first commits and is acknowledged. -/
def overtaken : List (Durable.Op Nat Nat) :=
  [.write .plain [11] [], .write .plain [31] []] ++ go 2 ++ [.advance 1, .advance 1] ++ go 9

/-- **C34, C29, do not hold.** The log ends with a commit record, the history is quiet. Opening after a crash looks at
the last frame only and gives number 2 again. The next write that is acknowledged commits the rows of the
second ingest with its own: after another crash row 31 is there, though its ingest never committed. -/
theorem a_log_that_ends_well_gives_a_number_again :
    Quiet exC 4 0 overtaken ∧ Settled (ex 4 overtaken).segs ∧
    (ex 4 overtaken).segs.map (fun g => g.frames.map (fun p => (p.1, evId p.2))) = [[(1, 1), (2, 2), (3, 1)]] ∧
    (Wal.resume (tailOf (ex 4 overtaken).segs) none).nextId = 2 ∧
    rows (ex 4 (overtaken ++ crashNow)) = some [(1, 11)] ∧
    (ex 4 (overtaken ++ crashNow ++ wr .plain [21] ++ crashNow)).committed = [⟨1, 0, .put 11⟩, ⟨2, 1, .put 21⟩] ∧
    rows (ex 4 (overtaken ++ crashNow ++ wr .plain [21] ++ crashNow)) = some [(1, 11), (2, 21), (3, 31)] ∧
    ¬ Sound exC (ex 4 (overtaken ++ crashNow ++ wr .plain [21] ++ crashNow)) := by
  have h1 : (ex 4 (overtaken ++ crashNow ++ wr .plain [21] ++ crashNow)).committed =
    [⟨1, 0, .put 11⟩, ⟨2, 1, .put 21⟩] := by decide +kernel
  have h2 : (ex 4 (overtaken ++ crashNow ++ wr .plain [21] ++ crashNow)).acked =
    [⟨1, 0, .put 11⟩, ⟨2, 1, .put 21⟩] := by decide +kernel
  have h3 : rows (ex 4 (overtaken ++ crashNow ++ wr .plain [21] ++ crashNow)) = some [(1, 11), (2, 21), (3, 31)] := by
    decide +kernel
  have hq : quietB exC (Sys.new 4 1 0) overtaken = true := by decide +kernel
  obtain ⟨c1, f1⟩ := quiet_of_check _ _ hq
  refine ⟨⟨by decide, by decide, c1, f1⟩, settled_of_check (by decide +kernel), by decide +kernel, by decide +kernel,
    by decide +kernel, h1, h3, ?_⟩
  cases hs : scanAll 1 (ex 4 (overtaken ++ crashNow ++ wr .plain [21] ++ crashNow)).db 99 with
  | none => unfold rows at h3; rw [hs] at h3; cases h3
  | some out =>
    unfold rows at h3
    rw [hs] at h3
    simp only [Option.map_some, Option.some.injEq] at h3
    refine not_sound_of_extra 99 out ?_ hs 3 31 (by rw [h3]; decide) ?_
    · rw [h1, h2]; simp
    · rw [h1, h2]; simp

/-- A log with nothing to tell the id: the last segment is empty, and ids begin again at 1. -/
example : ¬ settledB (ex 4 (wr .plain [11, 21] ++ [.rotate])).segs = true ∧
    (Wal.resume (tailOf (ex 4 (wr .plain [11, 21] ++ [.rotate])).segs) none).nextId = 1 := by
  refine ⟨by decide +kernel, by decide +kernel⟩

end Tonbo.Props.C34
