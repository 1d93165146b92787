import Verif.Lemmas.RunsFail
import Verif.Props.C02_C04_Memtable

/-!
# C04: calls on the memory table that fail

`C04.runs_cover_partial` is about calls that all succeed. Here any call may fail: as long as a failing call
finds a free slot, or a table without rows, it leaves no trace. One that finds the slots used up takes all
rows of the table with it.
-/

set_option linter.unusedSectionVars false

namespace Tonbo.Props.C04
open Tonbo.Model Tonbo.Model.Mem Tonbo.Spec Tonbo.Lemmas.Mem Tonbo.Lemmas.Scan

variable {K R : Type} [LinearOrder K]

/-- The calls of a sequence that returned `Ok`. -/
def acked (ext : R → Option K) : Runs K R → List (Op K R) → List (Op K R)
  | _, [] => []
  | t, op :: ops => (if (t.call ext op).1 then [op] else []) ++ acked ext (t.call ext op).2 ops

/-- There is a free slot for the batch, or the table has no rows. -/
def Room (t : Runs K R) (op : Op K R) : Prop := Full t.mem op → t.mem.index = []

/-- Every failing call of the sequence finds room. -/
def FailsWithRoom (ext : R → Option K) : Runs K R → List (Op K R) → Prop
  | _, [] => True
  | t, op :: ops => ((t.call ext op).1 = false → Room t op) ∧ FailsWithRoom ext (t.call ext op).2 ops

private theorem cover (ext : R → Option K) : ∀ (ops : List (Op K R)) (t : Runs K R)
    (logs : List (List (Ver K R))) (cur : List (Ver K R)),
    List.Forall₂ (Imm.Rep ext) t.runs logs → Rep ext t.mem cur → FailsWithRoom ext t ops →
    ∃ logs' cur', List.Forall₂ (Imm.Rep ext) (t.calls ext ops).2.runs logs' ∧
      Rep ext (t.calls ext ops).2.mem cur' ∧
      logs'.flatten ++ cur' = logs.flatten ++ cur ++ (acked ext t ops).flatMap (opWrites ext)
  | [], t, logs, cur, h1, h2, _ => ⟨logs, cur, h1, h2, by simp [acked]⟩
  | op :: ops, t, logs, cur, h1, h2, hf => by
    obtain ⟨hr, hf⟩ := hf
    simp only [Runs.calls, acked]
    cases hc : t.call ext op with
    | mk b t' =>
      rw [hc] at hf hr
      cases b with
      | true =>
        rcases call_ok h2 hc with ⟨e1, e2⟩ | ⟨m, e1, e2, e3⟩
        · obtain ⟨logs', cur', g1, g2, g3⟩ := cover ext ops t' logs _ (by rw [e1]; exact h1) e2 hf
          exact ⟨logs', cur', g1, g2, by rw [g3]; simp⟩
        · obtain ⟨logs', cur', g1, g2, g3⟩ := cover ext ops t' (logs ++ [cur]) _
            (by rw [e1]; exact forall₂_snoc h1 e2) e3 hf
          exact ⟨logs', cur', g1, g2, by rw [g3]; simp⟩
      | false =>
        obtain ⟨e1, ⟨e2, _⟩ | ⟨e3, e4, _⟩⟩ := call_fails h2 hc
        · obtain ⟨logs', cur', g1, g2, g3⟩ := cover ext ops t' logs _ (by rw [e1]; exact h1) e2 hf
          exact ⟨logs', cur', g1, g2, by rw [g3]; simp⟩
        · exact absurd (hr rfl e3) e4

/-- **C04, failing calls (partial).** After any sequence of calls, of which some may have failed, each with
a free slot or on a table without rows, the frozen runs and the table hold exactly what the successful
calls wrote, in order. Missing: failing calls that find the slots used up
(`failing_on_a_full_table_loses_it`). -/
theorem runs_cover_failures_partial (ext : R → Option K) (cap : Nat) (ops : List (Op K R))
    (hf : FailsWithRoom ext (Runs.new cap) ops) :
    ∃ logs cur, logs.flatten ++ cur = (acked ext (Runs.new cap) ops).flatMap (opWrites ext) ∧
      List.Forall₂ (fun (m : Imm K R) log => Answers (fun rts => m.scan none rts) log)
        ((Runs.new cap).calls ext ops).2.runs logs ∧
      Answers (fun rts => scan ((Runs.new cap).calls ext ops).2.mem none rts) cur := by
  obtain ⟨logs, cur, h1, h2, h3⟩ := cover ext ops (Runs.new cap) [] [] .nil (rep_new ext cap) hf
  exact ⟨logs, cur, by simpa using h3, h1.imp (fun m l hml rts => imm_rep_scan_all hml rts),
    fun rts => rep_scan_all h2 rts⟩

/-- **C04, failing calls.** After any calls whatsoever, a call that fails changes no frozen run, and one that
finds room does not change what a scan of the table answers at any timestamp. -/
theorem failing_with_room_changes_nothing (ext : R → Option K) (cap : Nat) (ops : List (Op K R)) (op : Op K R)
    (t' : Runs K R) (hc : ((Runs.new cap).calls ext ops).2.call ext op = (false, t')) :
    t'.runs = ((Runs.new cap).calls ext ops).2.runs ∧
    (Room ((Runs.new cap).calls ext ops).2 op → ∀ rts,
      scan t'.mem none rts = scan ((Runs.new cap).calls ext ops).2.mem none rts) := by
  obtain ⟨logs, cur, _, h2⟩ := calls_rep ops (Runs.new cap) [] [] .nil (rep_new ext cap)
  obtain ⟨e1, ⟨e2, _⟩ | ⟨e3, e4, _⟩⟩ := call_fails h2 hc
  · refine ⟨e1, fun _ rts => ?_⟩
    obtain ⟨o1, a1, b1⟩ := rep_scan_all e2 rts
    obtain ⟨o2, a2, b2⟩ := rep_scan_all h2 rts
    rw [a1, a2]
    exact congrArg some (List.map_injective_iff.2 toVer_injective (versionScan_unique b1 b2))
  · exact ⟨e1, fun hr => absurd (hr e3) e4⟩

/-- **C04 refuted, in general.** After any calls whatsoever, a call that fails because of its rows on a table
whose slots are used up loses every row of the table: no frozen run is added and the table is empty. -/
theorem failing_on_a_full_table_loses_it (ext : R → Option K) (cap : Nat) (ops : List (Op K R)) (op : Op K R)
    (t' : Runs K R) (hc : ((Runs.new cap).calls ext ops).2.call ext op = (false, t'))
    (hr : ¬ Room ((Runs.new cap).calls ext ops).2 op) :
    t'.runs = ((Runs.new cap).calls ext ops).2.runs ∧
    (∃ rts, scan ((Runs.new cap).calls ext ops).2.mem none rts ≠ some []) ∧
    ∀ rts, scan t'.mem none rts = some [] := by
  obtain ⟨logs, cur, _, h2⟩ := calls_rep ops (Runs.new cap) [] [] .nil (rep_new ext cap)
  obtain ⟨e1, ⟨_, e2⟩ | ⟨_, e3, e4⟩⟩ := call_fails h2 hc
  · exact absurd e2 hr
  · refine ⟨e1, ?_, fun rts => ?_⟩
    · obtain ⟨w, hw⟩ : ∃ w, LastWrite cur w := by
        obtain ⟨⟨kt, loc⟩, hp⟩ := List.exists_mem_of_ne_nil _ e3
        have hpt := h2.1.points _ hp
        cases loc with
        | up b r =>
          obtain ⟨row, hrow, _⟩ := hpt
          exact ⟨⟨kt.key, kt.ts, .put row⟩, (h2.2 _).1 ⟨.up b r, hp, by simp [res, hrow]⟩⟩
        | dl b r => exact ⟨⟨kt.key, kt.ts, .del⟩, (h2.2 _).1 ⟨.dl b r, hp, rfl⟩⟩
      obtain ⟨o, a, b⟩ := rep_scan_all h2 w.ts
      refine ⟨w.ts, ?_⟩
      rw [a]
      intro ho
      have := (b.2 w).2 ⟨trivial, hw, Nat.le_refl _, fun u _ _ hu => hu⟩
      rw [Option.some.inj ho] at this
      cases this
    obtain ⟨o, a, b⟩ := rep_scan_all e4 rts
    have ho : o = [] := by
      cases o with
      | nil => rfl
      | cons x o =>
        have := (b.2 (toVer x)).1 (by simp)
        exact absurd this.2.1 lastWrite_nil
    rw [a, ho]

/-! A null key with room: nothing happens. Without room: the row of key 1 is gone. -/

example : FailsWithRoom nullExt (Runs.new 4)
    [.put [((some 1, 10), 5)], .put [((none, 20), 6)], .put [((some 2, 30), 7)]] := by
  refine ⟨?_, ?_, ?_, trivial⟩ <;> · intro _ h; revert h; simp only [Full]; decide

example : (acked nullExt (Runs.new 4)
    [.put [((some 1, 10), 5)], .put [((none, 20), 6)], .put [((some 2, 30), 7)]]).length = 2 := by decide

example : ¬ Room ((Runs.new 1).calls nullExt [.put [((some 1, 10), 5)]]).2 (.put [((none, 20), 6)]) := by
  intro h; exact absurd (h (by simp only [Full]; decide)) (by decide)

end Tonbo.Props.C04
