import Verif.Lemmas.DurableClock
import Verif.Props.C54_EndToEnd
import Verif.Props.C29_C32_Durable_Neg

/-!
# C29, C30, C32, C54, C55: histories with crashes

The full claims fail (`Props/C29_C32_Durable_Neg.lean`). Here they are proved for every history, of any
length and with any number of crashes at any point, whose steps are calm (`Spec/CalmView.lean`), that
is, for which none of the patterns of those counterexamples occurs.
-/

namespace Tonbo.Props.C32
open Tonbo.Model Tonbo.Model.Manifest Tonbo.Model.Lsm Tonbo.Model.Durable Tonbo.Spec Tonbo.Spec.Durable
open Tonbo.Lemmas.Durable
open Tonbo.Lemmas.Lsm (Inv Cont OnDisk doneRuns)
open Tonbo.Lemmas.Plan (forall₂_mem_right)

variable {A K R : Type} [LinearOrder K]

/-- The state after a history of a new table. -/
def after (c : Ctx A K R) (cap sv : Nat) (ops : List (Durable.Op K R)) : Sys A K R :=
  Durable.run c (Sys.new cap c.table sv) ops

/-- A history whose steps are calm and keep timestamps apart. -/
def Quiet (c : Ctx A K R) (cap sv : Nat) (ops : List (Durable.Op K R)) : Prop :=
  0 < cap ∧ 0 < c.x.readRows ∧ CalmRun c (Sys.new cap c.table sv) ops ∧ FreshRun c (Sys.new cap c.table sv) ops

theorem quiet_state {c : Ctx A K R} {cap sv : Nat} {ops : List (Durable.Op K R)} (h : Quiet c cap sv ops) :
    Ck c (after c cap sv ops) ∧ ∃ n log logs cur, D c (after c cap sv ops) n log logs cur := by
  obtain ⟨h1, h2, h3, h4⟩ := h
  have hck := ck_run ops (ck_new c cap sv) h3 h4
  exact ⟨hck, d_run h2 ops (d_new c cap sv h1) h3 hck.fn⟩

/-- Reads at timestamps not before the newest write. -/
theorem scan_of_d {c : Ctx A K R} {s : Sys A K R} {n : Nat} {log : List (Ver K R)} {logs : List (List (Ver K R))}
    {cur : List (Ver K R)} (h : D c s n log logs cur) (hf : Functional (· ∈ log)) (rts : Nat)
    (hts : ∀ w ∈ log, w.ts ≤ rts) : ∃ out, scanAll c.table s.db rts = some out ∧ IsScan (· ∈ log) rts (rowsOf out) := by
  obtain ⟨out, o1, o2⟩ := C54.scan_of_state h.inv h.cont hf rts
  refine ⟨out, o1, o2.1, fun k v => (o2.2 k v).trans ?_⟩
  obtain ⟨c1, c2⟩ := C54.content (x := c.x) h.cont
  constructor
  · rintro ⟨ts, hw, hle, hmax⟩
    refine ⟨ts, c1 _ hw, hle, fun u hu hk hut => ?_⟩
    obtain ⟨u', hu', k1, k2, _⟩ := c2 u hu
    exact Nat.le_trans k2 (hmax u' hu' (k1.trans hk) (hts _ (c1 _ hu')))
  · rintro ⟨ts, hw, hle, hmax⟩
    obtain ⟨u, hu, k1, k2, _⟩ := c2 _ hw
    have h1 := hmax u (c1 u hu) k1 (hts _ (c1 u hu))
    have hts' : u.ts = ts := Nat.le_antisymm h1 k2
    have hop : u.op = .put v := hf u ⟨k, ts, .put v⟩ (c1 u hu) hw k1 hts'
    obtain ⟨uk, ut, uo⟩ := u
    simp only at k1 hts' hop
    subst k1
    subst hts'
    subst hop
    exact ⟨_, hu, hle, fun u hu hk hut => hmax u (c1 u hu) hk hut⟩

/-- What memory and tables hold of a write can be recovered. -/
theorem recoverable_of_d {c : Ctx A K R} {s : Sys A K R} {n : Nat} {log : List (Ver K R)}
    {logs : List (List (Ver K R))} {cur : List (Ver K R)} (h : D c s n log logs cur) {u : Ver K R}
    (hu : u ∈ (logs.drop (doneRuns s.db)).flatten ∨ u ∈ cur ∨ OnDisk c.table n s.db u) :
    (∃ fs, latestFiles c.table s.db = some fs ∧ FilesHold fs u) ∨
    ∃ g m, LoggedAt c.ext c.sch (entries s.segs) u g m ∧ floorSeq (floorOf c s) ≤ g := by
  have key : ∀ g m, LoggedAt c.ext c.sch (entries s.segs) u g m → AllCov (base c s) g →
      ∃ g m, LoggedAt c.ext c.sch (entries s.segs) u g m ∧ floorSeq (floorOf c s) ≤ g := fun g m h1 h2 =>
    ⟨g, m, h1, covers_floor.1 (h2 _ (by unfold base; simp))⟩
  rcases hu with hu | hu | ⟨v, l, e, f, a1, a2, a3, hh⟩
  · obtain ⟨l, hl, hu⟩ := List.mem_flatten.1 hu
    obtain ⟨r, _, hr⟩ := forall₂_mem_right h.safe.runs hl
    obtain ⟨_, _, g, m, _, _, g3, g4⟩ := hr u hu
    exact .inr (key g m g3 g4)
  · obtain ⟨_, _, g, m, _, _, g3, g4⟩ := h.safe.cur u hu
    exact .inr (key g m g3 g4)
  · obtain ⟨fs, f1, _, f3⟩ := C54.latestFiles_ok h.inv
    exact .inl ⟨fs, f1, f, (f3 f).2 ⟨v, l, e, a1, a2, a3⟩, hh⟩

theorem recoverable_of_logged {c : Ctx A K R} {s : Sys A K R} {n : Nat} {log : List (Ver K R)}
    {logs : List (List (Ver K R))} {cur : List (Ver K R)} (h : D c s n log logs cur) {u : Ver K R} {g m : Nat}
    (hl : LoggedAt c.ext c.sch (entries s.segs) u g m) (hg : floorSeq (floorOf c s) ≤ g) :
    u ∈ Wal.logBatches c.ext c.sch (replayed (floorOf c s) s.segs) := by
  rw [replayed_since (h.refs _ (by unfold base; simp))]
  exact logBatches_of_logged (logged_since hl (ord_seg h.lg.ord) hg)

/-- **C32 (partial).** At every moment of a quiet history, whatever segments have been deleted so far:
if the process died now, opening the database would find every acknowledged write, or a newer write of
its key, in a table or in the part of the log that recovery reads.

Missing: the histories `Calm` and `Fresh` exclude. Each exclusion is one of the counterexamples. -/
theorem acknowledged_writes_stay_recoverable_partial (c : Ctx A K R) (cap sv : Nat) (ops : List (Durable.Op K R))
    (h : Quiet c cap sv ops) : ∀ w ∈ (after c cap sv ops).acked, ∃ u, Recoverable c (after c cap sv ops) u ∧
      u.key = w.key ∧ w.ts ≤ u.ts ∧ (u.ts = w.ts → u.op = w.op) ∧ u ∈ (after c cap sv ops).committed := by
  obtain ⟨hck, n, log, logs, cur, hd⟩ := quiet_state h
  intro w hw
  obtain ⟨u, hu, h1, h2, _⟩ := hd.cont.cover w (hd.acked w hw)
  have hul : u ∈ log := by
    obtain ⟨c1, _⟩ := C54.content (x := c.x) hd.cont
    refine c1 u ?_
    rcases hu with hu | hu | hu
    · obtain ⟨l, hl, hu⟩ := List.mem_flatten.1 hu
      exact .inl (List.mem_flatten.2 ⟨l, List.mem_of_mem_drop hl, hu⟩)
    · exact .inr (.inl hu)
    · exact .inr (.inr hu)
  refine ⟨u, ?_, h1, h2, fun h3 => hck.fn u w (hd.sub u hul) (hd.sub w (hd.acked w hw)) h1 h3, hd.sub u hul⟩
  rcases recoverable_of_d hd hu with hr | ⟨g, m, hl, hg⟩
  · exact .inl hr
  · exact .inr (recoverable_of_logged hd hl hg)

end Tonbo.Props.C32

namespace Tonbo.Props.C29
open Tonbo.Model Tonbo.Model.Manifest Tonbo.Model.Lsm Tonbo.Model.Durable Tonbo.Spec Tonbo.Spec.Durable
open Tonbo.Lemmas.Durable
open Tonbo.Props.C32 (after Quiet quiet_state scan_of_d)

variable {A K R : Type} [LinearOrder K]

/-- **C29, C54 (partial).** After any quiet history with any number of crashes the database opens, and a
read at a timestamp not before the newest write shows every acknowledged write and nothing but what was
committed.

Missing: what `Calm` and `Fresh` exclude, and reads at older timestamps (compactions drop old
versions). -/
theorem quiet_histories_are_sound_partial (c : Ctx A K R) (cap sv : Nat) (ops : List (Durable.Op K R))
    (h : Quiet c cap sv ops) : Sound c (after c cap sv ops) := by
  obtain ⟨hck, n, log, logs, cur, hd⟩ := quiet_state h
  refine ⟨hd.open_, log, hd.acked, fun w hw => .inl (hd.sub w hw), fun rts hts => ?_⟩
  exact scan_of_d hd (fun a b ha hb => hck.fn a b (hd.sub a ha) (hd.sub b hb)) rts hts

/-- **C29 (partial).** A quiet history in which everything committed has been acknowledged goes on, and
nothing more is committed: crashes, any number of them, flushes, compactions, abandoned writes. Then
reads show the same rows as before. -/
theorem recovery_reproduces_the_state_partial (c : Ctx A K R) (cap sv : Nat) (ops more : List (Durable.Op K R))
    (h : Quiet c cap sv ops) (h' : Quiet c cap sv (ops ++ more))
    (hack : ∀ w ∈ (after c cap sv ops).committed, w ∈ (after c cap sv ops).acked)
    (hsame : (after c cap sv (ops ++ more)).committed = (after c cap sv ops).committed)
    (hacked : ∀ w ∈ (after c cap sv ops).acked, w ∈ (after c cap sv (ops ++ more)).acked)
    (rts : Nat) (hts : ∀ w ∈ (after c cap sv ops).committed, w.ts ≤ rts) :
    ∃ out out', scanAll c.table (after c cap sv ops).db rts = some out ∧
      scanAll c.table (after c cap sv (ops ++ more)).db rts = some out' ∧ rowsOf out' = rowsOf out := by
  obtain ⟨hck, n, log, logs, cur, hd⟩ := quiet_state h
  obtain ⟨hck', n', log', logs', cur', hd'⟩ := quiet_state h'
  have e : ∀ w, w ∈ log ↔ w ∈ log' := by
    intro w
    constructor
    · exact fun hw => hd'.acked w (hacked w (hack w (hd.sub w hw)))
    · exact fun hw => hd.acked w (hack w (by rw [← hsame]; exact hd'.sub w hw))
  obtain ⟨out, o1, o2⟩ := scan_of_d hd (fun a b ha hb => hck.fn a b (hd.sub a ha) (hd.sub b hb)) rts
    (fun w hw => hts w (hd.sub w hw))
  obtain ⟨out', o1', o2'⟩ := scan_of_d hd' (fun a b ha hb => hck'.fn a b (hd'.sub a ha) (hd'.sub b hb)) rts
    (fun w hw => hts w (by rw [← hsame]; exact hd'.sub w hw))
  refine ⟨out, out', o1, o1', ?_⟩
  have : (fun w => w ∈ log) = (fun w => w ∈ log') := by
    funext w
    exact propext (e w)
  rw [← this] at o2'
  exact SMap.sorted_ext o2'.1 o2.1 (fun q => (o2'.2 q.1 q.2).trans (o2.2 q.1 q.2).symm)

end Tonbo.Props.C29

namespace Tonbo.Props.C30
open Tonbo.Model Tonbo.Model.Manifest Tonbo.Model.Lsm Tonbo.Model.Durable Tonbo.Spec Tonbo.Spec.Durable
open Tonbo.Lemmas.Durable
open Tonbo.Lemmas.Replay (loop_all max_of_last)
open Tonbo.Props.C32 (after Quiet quiet_state)

variable {A K R : Type} [LinearOrder K]

/-- **C30 (partial).** After any quiet history every commit timestamp handed out from now on is larger
than that of every write ever committed or acknowledged.

Missing: reopening when the newest commit is neither in the replayed part of the log nor, with nothing
to replay, in the state file (`Fresh`; the counterexamples are exactly these). -/
theorem clock_stays_ahead_partial (c : Ctx A K R) (cap sv : Nat) (ops : List (Durable.Op K R))
    (h : Quiet c cap sv ops) : ClockAhead (after c cap sv ops) := by
  obtain ⟨hck, n, log, logs, cur, hd⟩ := quiet_state h
  rintro w (hw | hw)
  · exact hck.lt w hw
  · exact hck.lt w (hd.sub w (hd.acked w hw))

/-- **C30 (partial)**, for every state, reachable or not: after reopening the clock is ahead of every write
found in the log. Missing: writes that are only in tables. -/
theorem clock_is_past_the_log_partial (c : Ctx A K R) (s : Sys A K R) (cap : Nat) (pol : Nat → Bool)
    (st : Option Wal.WState) (hopen : (crash c s cap pol st).dead = false) :
    ∀ u ∈ Wal.logBatches c.ext c.sch (replayed (floorOf c s) s.segs), u.ts + 1 < 2 ^ 64 →
      u.ts < (crash c s cap pol st).clock := by
  intro u hu hlt
  unfold crash at hopen ⊢
  cases hre : reopen cap c.table s.db with
  | error _ => rw [hre] at hopen; cases hopen
  | ok db =>
    rw [hre] at hopen
    simp only at hopen ⊢
    cases hr : Wal.replay c.ext c.sch pol (Mem.Runs.new cap) (replayed (floorOf c s) s.segs) with
    | none => rw [hr] at hopen; cases hopen
    | some r =>
      obtain ⟨t, last⟩ := r
      simp only
      unfold Wal.replay at hr
      cases hl : (replayed (floorOf c s) s.segs).foldlM (Wal.replayEvent c.ext c.sch pol)
          ⟨Mem.Runs.new cap, fun _ => none, none, 0⟩ with
      | none => rw [hl] at hr; cases hr
      | some rs =>
        rw [hl] at hr
        simp only [Option.map_some, Option.some.injEq, Prod.mk.injEq] at hr
        have hlast := (loop_all _ hl).last
        rw [hr.2] at hlast
        obtain ⟨p, hp, e, he, hue⟩ := mem_logBatches.1 hu
        obtain ⟨m, hm, hpm⟩ := (max_of_last _).1 p hp (List.ne_nil_of_mem he)
        have h1 := payload_ts hue
        have h2 : Mem.tsMax = 2 ^ 64 - 1 := rfl
        rw [hlast, hm]
        simp only [Wal.recoveredClock, Option.orElse_some]
        omega

end Tonbo.Props.C30

namespace Tonbo.Props.C55
open Tonbo.Model Tonbo.Model.Manifest Tonbo.Model.Lsm Tonbo.Model.Durable Tonbo.Spec Tonbo.Spec.Durable
open Tonbo.Lemmas.Durable
open Tonbo.Props.C32 (after Quiet quiet_state)

variable {A K R : Type} [LinearOrder K]

/-- **C55 (partial).** In a quiet history, every acknowledged write, or a newer write of its key, is in a
table of the latest version or its payload is in an existing segment that is not below the floor derived
from the list of segments in the manifest.

Missing: the list itself can forget a segment (`compaction_forgets_a_segment`), only the least of it
counts; and what `Calm` and `Fresh` exclude. -/
theorem floor_keeps_unflushed_segments_partial (c : Ctx A K R) (cap sv : Nat) (ops : List (Durable.Op K R))
    (h : Quiet c cap sv ops) : ∀ w ∈ (after c cap sv ops).acked, ∃ u, u.key = w.key ∧ w.ts ≤ u.ts ∧
      ((∃ fs, latestFiles c.table (after c cap sv ops).db = some fs ∧ FilesHold fs u) ∨
       ∃ g ∈ (after c cap sv ops).segs, ∃ p ∈ g.frames, (∃ ts, u ∈ Wal.payloadWrites c.ext c.sch ts p.2) ∧
         ∀ f, floorOf c (after c cap sv ops) = some f → f.seq ≤ g.seq) := by
  obtain ⟨hck, n, log, logs, cur, hd⟩ := quiet_state h
  intro w hw
  obtain ⟨u, hu, h1, h2, _⟩ := hd.cont.cover w (hd.acked w hw)
  refine ⟨u, h1, h2, ?_⟩
  rcases C32.recoverable_of_d hd hu with hr | ⟨g, m, hl, hg⟩
  · exact .inl hr
  · obtain ⟨id, ts, e, pre, mid, post, g', n', h3, h4, h5, h6⟩ := hl
    have hm : (g, m, e) ∈ entries (after c cap sv ops).segs := by rw [h3]; simp
    obtain ⟨gs, hgs, p, hp, he⟩ := mem_entries.1 hm
    cases he
    refine .inr ⟨gs, hgs, p, hp, ⟨ts, Tonbo.Lemmas.Mem.lastOnly_mem h6⟩, fun f hf => ?_⟩
    rw [hf] at hg
    exact hg

end Tonbo.Props.C55
