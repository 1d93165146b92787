import Verif.Props.C44_TimeTravel
import Verif.Props.C29_C32_Durable_Ex

/-!
# C44: time travel in histories with crashes
-/

set_option linter.unusedSectionVars false

namespace Tonbo.Props.C44
open Tonbo.Model Tonbo.Model.Manifest Tonbo.Model.Lsm Tonbo.Model.Durable Tonbo.Model.TimeTravel
open Tonbo.Spec Tonbo.Spec.Durable
open Tonbo.Props.C32 (after Quiet quiet_state)

variable {A K R : Type} [LinearOrder K]

/-- **C44**, which version is read, after any quiet history with any number of crashes: the newest one whose number is
not above the requested timestamp; if all are above, or there is none, the latest state. -/
theorem the_version_read_after_crashes_partial (c : Ctx A K R) (cap sv : Nat) (ops : List (Durable.Op K R))
    (h : Quiet c cap sv ops) (ts : Nat) :
    let s := (after c cap sv ops).db
    (∃ v, openAt s.kv c.table ts = .ok ⟨ts, some v⟩ ∧ Published s c.table v.ts v ∧ v.ts ≤ ts ∧
      ∀ k u, Published s c.table k u → k ≤ ts → k ≤ v.ts) ∨
    (∃ hd v, openAt s.kv c.table ts = .ok ⟨ts, v⟩ ∧ snapshotLatest s.kv c.table = .ok (hd, v) ∧
      ∀ k u, Published s c.table k u → ts < k) := by
  intro s
  obtain ⟨_, n, log, logs, cur, hd⟩ := quiet_state h
  exact version_of_inv hd.inv ts

/-- **C44 (partial).** After any quiet history with any number of crashes, a snapshot at a timestamp that is neither
below the number of the latest version nor below any committed write shows every acknowledged write and nothing that
was not committed. Missing: what `Quiet` excludes, and earlier timestamps. -/
theorem time_travel_after_crashes_partial (c : Ctx A K R) (cap sv : Nat) (ops : List (Durable.Op K R))
    (h : Quiet c cap sv ops) (ts : Nat) (hvs : ∀ k v, Published (after c cap sv ops).db c.table k v → k ≤ ts)
    (hts : ∀ w ∈ (after c cap sv ops).committed, w.ts ≤ ts) :
    ∃ log : List (Ver K R), (∀ w ∈ (after c cap sv ops).acked, w ∈ log) ∧
      (∀ w ∈ log, w ∈ (after c cap sv ops).committed) ∧
      ∃ out, scanAt c.table (after c cap sv ops).db ts = some out ∧ IsScan (· ∈ log) ts (rowsOf out) := by
  obtain ⟨hck, n, log, logs, cur, hd⟩ := quiet_state h
  exact ⟨log, hd.acked, hd.sub, scan_present hd.inv hd.cont
    (fun a b ha hb => hck.fn a b (hd.sub a ha) (hd.sub b hb)) ts hvs (fun w hw => hts w (hd.sub w hw))⟩

/-- The hypotheses are met by the history of C32, with two crashes. -/
example : Quiet C32.exC 4 0 C32.all ∧ (∀ w ∈ (after C32.exC 4 0 C32.all).committed, w.ts ≤ 9) ∧
    (∀ k v, Published (after C32.exC 4 0 C32.all).db 1 k v → k ≤ 9) ∧
    (scanAt 1 (after C32.exC 4 0 C32.all).db 9).map rowsOf = some [(1, 12), (3, 31), (4, 43), (5, 51)] := by
  refine ⟨C32.all_quiet, by decide +kernel, fun k v hp => ?_, by decide +kernel⟩
  obtain ⟨_, n, log, logs, cur, hd⟩ := quiet_state C32.all_quiet
  obtain ⟨hd', hreg⟩ := hd.inv.reg
  have h1 := (Lemmas.Lsm.at_le hreg (Lemmas.Lsm.published_iff.1 hp)).2
  have h2 : (snapshotLatest (after C32.exC 4 0 C32.all).db.kv 1).toOption.bind (fun q => q.2.map (·.ts)) = some 5 := by
    decide +kernel
  rcases Lemmas.Manifest.snapshotLatest_spec hreg with ⟨h0, e⟩ | ⟨h0, v', hv', hts, e⟩
  · omega
  · have e' : snapshotLatest (after C32.exC 4 0 C32.all).db.kv 1 = .ok (hd', some v') := e
    rw [e'] at h2
    simp only [Except.toOption, Option.bind_some, Option.map_some, Option.some.injEq] at h2
    omega

end Tonbo.Props.C44
