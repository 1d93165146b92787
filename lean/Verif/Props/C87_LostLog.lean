import Verif.Lemmas.LostLog
import Verif.Props.C29_C32_Durable_Ex

/-!
# C87: a table that was flushed does not need its log

Once everything is in tables, the log has nothing to add. Its directory may be on a disk of its own, may be left out of a
backup or may be removed: the database should open with all its rows, and go on.

The rows are all there, for reads that name a timestamp (`the_rows_are_still_there_partial`,
`flushed_rows_need_no_log_partial`). But the clock starts at zero again, so reads that name none show the table as it was
at timestamp zero (`reads_go_back_to_the_beginning`), and the manifest still has the floor of the log that is gone: what
is written to the new log is skipped by the next recovery (`the_next_restart_forgets`, for every state and every history
without transactions and flushes), whether it was acknowledged or not (`an_acknowledged_write_is_forgotten`).
-/

namespace Tonbo.Props.C87
open Tonbo.Model Tonbo.Model.Manifest Tonbo.Model.Lsm Tonbo.Model.Durable Tonbo.Model.LostLog Tonbo.Spec Tonbo.Spec.Durable Tonbo.Spec.LostLog
open Tonbo.Lemmas.LostLog
open Tonbo.Model.Wal (WState)

variable {A K R : Type} [LinearOrder K]

/-- **C87 (part).** In every state with everything in tables: if the log is lost, then the database does not open because
the manifest cannot be read, or every read at every timestamp is as before. -/
theorem the_rows_are_still_there_partial (c : Ctx A K R) (s : Sys A K R) (hd : s.dead = false) (hf : AllFlushed s) (cap : Nat)
    (st : Option WState) :
    (lose c s cap st).dead = true ∨ ∀ rts, scanAll c.table (lose c s cap st).db rts = scanAll c.table s.db rts := by
  rcases lose_open c s cap st hd with h | ⟨_, h2, h3, h4, _⟩
  · exact .inl h
  · exact .inr (scan_empty c.table _ _ h2 h3 ⟨by rw [h4]; rfl, by rw [h4]; rfl⟩ hf)

/-- **C87 (part).** After a quiet history (C29, C32) that ends with everything in tables, the log can be lost: the database
opens, and its reads show every acknowledged write and nothing but what was committed. -/
theorem flushed_rows_need_no_log_partial (c : Ctx A K R) (cap sv : Nat) (ops : List (Durable.Op K R))
    (h : C32.Quiet c cap sv ops) (hf : AllFlushed (C32.after c cap sv ops)) (cap' : Nat) (st : Option WState) :
    Sound c (lose c (C32.after c cap sv ops) cap' st) := by
  obtain ⟨hck, n, log, logs, cur, hd⟩ := C32.quiet_state h
  obtain ⟨s1, log', s2, s3, s4⟩ := C29.quiet_histories_are_sound_partial c cap sv ops h
  have hopen : (lose c (C32.after c cap sv ops) cap' st).dead = false := by
    obtain ⟨k, hk, _⟩ := Lemmas.Lsm.allocator_spec hd.inv
    unfold lose reopen
    rw [hk]
    exact s1
  rcases lose_open c (C32.after c cap sv ops) cap' st s1 with h | ⟨_, h2, h3, h4, _, _, h7, h8, _⟩
  · rw [hopen] at h; cases h
  · refine ⟨hopen, log', by rw [h7]; exact s2, by rw [h7, h8]; exact s3, fun rts hr => ?_⟩
    rw [scan_empty c.table _ (C32.after c cap sv ops).db h2 h3 ⟨by rw [h4]; rfl, by rw [h4]; rfl⟩ hf]
    exact s4 rts hr

/-! ## Where it fails -/

/-- In every state with everything in tables: after the log is lost, a read that names no timestamp (it is at the
timestamp before the clock's) shows what a read at timestamp 0 showed before. -/
theorem reads_go_back_to_the_beginning (c : Ctx A K R) (s : Sys A K R) (hd : s.dead = false) (hf : AllFlushed s) (cap : Nat)
    (st : Option WState) (ho : (lose c s cap st).dead = false) :
    scanAll c.table (lose c s cap st).db ((lose c s cap st).clock - 1) = scanAll c.table s.db 0 := by
  rcases lose_open c s cap st hd with h | ⟨_, h2, h3, h4, h5, _⟩
  · rw [ho] at h; cases h
  · rw [h5]
    exact scan_empty c.table _ _ h2 h3 ⟨by rw [h4]; rfl, by rw [h4]; rfl⟩ hf 0

/-- In every state with a floor: the log is lost, the database goes on with any writes, side by side, dropped, or
acknowledged, in fewer segments than the number of the floor; then it is restarted. Whatever was written since the loss is
not read, at any timestamp: reads are as they were right after the loss. -/
theorem the_next_restart_forgets (c : Ctx A K R) (s : Sys A K R) (hd : s.dead = false) {f : WalRef}
    (hf : floorOf c s = some f) (cap : Nat) (st : Option WState) (ops : List (Durable.Op K R)) (ho : ∀ o ∈ ops, Ordinary o)
    (hn : (Durable.run c (lose c s cap st) ops).nextSeg ≤ f.seq) (cap' : Nat) (pol : Nat → Bool) (st' : Option WState) :
    let s' := Durable.run c (lose c s cap st) (ops ++ [.crash cap' pol st'])
    s'.dead = true ∨ ∀ rts, scanAll c.table s'.db rts = scanAll c.table (lose c s cap st).db rts := by
  intro s'
  have hs' : s' = Durable.step c (Durable.run c (lose c s cap st) ops) (.crash cap' pol st') := by
    simp [s', Durable.run]
  rcases lose_open c s cap st hd with h | ⟨h1, h2, h3, h4, _, h6, _, _, h9⟩
  · left
    have stay : ∀ (ops : List (Durable.Op K R)) (s : Sys A K R), s.dead = true → Durable.run c s ops = s := by
      intro ops
      induction ops with
      | nil => intro s _; rfl
      | cons o ops ih =>
        intro s hs
        have e : Durable.step c s o = s := by unfold Durable.step; rw [hs]; rfl
        show Durable.run c (Durable.step c s o) ops = s
        rw [e]
        exact ih s hs
    show (Durable.run c (lose c s cap st) _).dead = true
    rw [stay _ _ h]
    exact h
  · obtain ⟨k, o⟩ := run_same (c := c) ops (lose c s cap st) ⟨by rw [h6]; exact fun w hw => (by cases hw), h9⟩ ho
    cases hdead : (Durable.run c (lose c s cap st) ops).dead with
    | true =>
      left
      rw [hs']
      unfold Durable.step
      rw [hdead]
      exact hdead
    | false =>
      have hfl : floorOf c (Durable.run c (lose c s cap st) ops) = some f := by
        rw [← hf]
        unfold floorOf
        rw [k.kv, h2]
      have hrep : replayed (some f) (Durable.run c (lose c s cap st) ops).segs = [] :=
        replayed_below (fun g hg => Nat.lt_of_lt_of_le (o.segs g hg) hn)
      have hst : s' = Durable.crash c (Durable.run c (lose c s cap st) ops) cap' pol st' := by
        rw [hs']
        unfold Durable.step
        rw [hdead]
        rfl
      rw [hst]
      unfold Durable.crash reopen
      cases allocator (Durable.run c (lose c s cap st) ops).db.kv c.table with
      | error e => exact .inl rfl
      | ok n =>
        right
        intro rts
        have hr : Wal.replay c.ext c.sch pol (Mem.Runs.new cap') [] = some (Mem.Runs.new cap', none) := rfl
        simp only [hfl, hrep, hr]
        refine scan_empty c.table _ _ ?_ ?_ ⟨rfl, rfl⟩ ⟨by rw [h4]; rfl, by rw [h4]; rfl⟩ rts
        · exact k.kv
        · exact k.files

section Example
open C32 (exC go wr fl crashNow ex rows)

/-- Three rows in three segments, flushed one by one; the floor is at segment 2 by then. -/
def flushed : List (Durable.Op Nat Nat) :=
  wr .plain [11] ++ [.freeze] ++ fl ++ [.rotate] ++ wr .plain [21] ++ [.freeze] ++ fl ++ [.rotate] ++ wr .plain [31] ++ [.freeze] ++ fl

/-- The log is lost. -/
def gone : Sys Unit Nat Nat := lose exC (ex 4 flushed) 4 none

/-- **The hypotheses can be met**, and the rows are there for reads at a timestamp. -/
theorem ex_flushed : C32.Quiet exC 4 0 flushed ∧ AllFlushed (ex 4 flushed) ∧ rows gone = some [(1, 11), (2, 21), (3, 31)] := by
  have q : C32.quietB exC (Sys.new 4 1 0) flushed = true := by decide +kernel
  obtain ⟨c1, f1⟩ := C32.quiet_of_check _ _ q
  exact ⟨⟨by decide, by decide, c1, f1⟩, ⟨by decide +kernel, by decide +kernel⟩, by decide +kernel⟩

/-- Reads that name no timestamp show the first row only. -/
theorem default_reads_miss_rows : (scanAll 1 gone.db (gone.clock - 1)).map rowsOf = some [(1, 11)] ∧
    (scanAll 1 (ex 4 flushed).db ((ex 4 flushed).clock - 1)).map rowsOf = some [(1, 11), (2, 21), (3, 31)] :=
  ⟨by decide +kernel, by decide +kernel⟩

/-- A row is written after the loss. -/
def again : Sys Unit Nat Nat := Durable.run exC gone (wr .plain [41])

/-- **C87 fails**: a row written and acknowledged after the loss is read; after the next restart it is not, and no table
and no part of the log that recovery reads has it, although it is the newest write of its key. -/
theorem an_acknowledged_write_is_forgotten :
    rows again = some [(1, 11), (2, 21), (3, 31), (4, 41)] ∧
    rows (Durable.run exC gone (wr .plain [41] ++ crashNow)) = some [(1, 11), (2, 21), (3, 31)] ∧
    ¬ Sound exC (Durable.run exC gone (wr .plain [41] ++ crashNow)) := by
  refine ⟨by decide +kernel, by decide +kernel, ?_⟩
  exact C32.not_sound_of_check (k := 4) (t := 0) (r := 41) (by decide +kernel)

/-- The hypotheses of `the_next_restart_forgets` are met by it. -/
example : (floorOf exC (ex 4 flushed)).map (·.seq) = some 2 ∧ (∀ o ∈ wr .plain [41], Ordinary o) ∧ again.nextSeg ≤ 2 ∧
    gone.dead = false := by
  refine ⟨by decide +kernel, ?_, by decide +kernel, by decide +kernel⟩
  intro o ho
  rcases List.mem_cons.1 ho with rfl | ho
  · exact .inl rfl
  · rw [List.eq_of_mem_replicate ho]
    trivial

end Example

end Tonbo.Props.C87
