import Verif.Model.Durable
import Verif.Spec.LsmView

/-!
# What a user may expect of a database with a log, after any history with crashes
-/

namespace Tonbo.Spec.Durable
open Tonbo.Model Tonbo.Model.Lsm Tonbo.Model.Durable Tonbo.Spec

variable {A K R : Type} [LinearOrder K]

/-- The database is open, and its reads are those of some set of writes that contains every
acknowledged write and nothing but acknowledged writes and writes committed in the log. Reads at
timestamps before the newest write are left out: compactions drop old versions (C15). -/
def Sound (c : Ctx A K R) (s : Sys A K R) : Prop :=
  s.dead = false ∧ ∃ log : List (Ver K R),
    (∀ w ∈ s.acked, w ∈ log) ∧ (∀ w ∈ log, w ∈ s.committed ∨ w ∈ s.acked) ∧
    ∀ rts, (∀ w ∈ log, w.ts ≤ rts) →
      ∃ out, scanAll c.table s.db rts = some out ∧ IsScan (· ∈ log) rts (rowsOf out)

/-- Every write ever committed or acknowledged is older than the next one. -/
def ClockAhead (s : Sys A K R) : Prop := ∀ w, (w ∈ s.committed ∨ w ∈ s.acked) → w.ts < s.clock

/-- A put that is the newest write of its key and that a read does not show. -/
theorem not_sound_of_lost {c : Ctx A K R} {s : Sys A K R} (rts : Nat) (out : List (Mem.Entry K R))
    (hts : ∀ w, (w ∈ s.committed ∨ w ∈ s.acked) → w.ts ≤ rts) (hs : scanAll c.table s.db rts = some out)
    (k : K) (t : Nat) (r : R) (hw : (⟨k, t, .put r⟩ : Ver K R) ∈ s.acked)
    (hnew : ∀ u, (u ∈ s.committed ∨ u ∈ s.acked) → u.key = k → u.ts ≤ t) (hno : (k, r) ∉ rowsOf out) :
    ¬ Sound c s := by
  rintro ⟨_, log, h1, h2, h3⟩
  obtain ⟨out', ho, hscan⟩ := h3 rts (fun w hw => hts w (h2 w hw))
  rw [hs] at ho
  cases ho
  exact hno ((hscan.2 k r).2 ⟨t, h1 _ hw, hts _ (.inr hw), fun u hu hk _ => hnew u (h2 u hu) hk⟩)

/-- A read that shows a row nobody committed. -/
theorem not_sound_of_extra {c : Ctx A K R} {s : Sys A K R} (rts : Nat) (out : List (Mem.Entry K R))
    (hts : ∀ w, (w ∈ s.committed ∨ w ∈ s.acked) → w.ts ≤ rts) (hs : scanAll c.table s.db rts = some out)
    (k : K) (r : R) (hyes : (k, r) ∈ rowsOf out)
    (hno : ∀ u, (u ∈ s.committed ∨ u ∈ s.acked) → u.op ≠ .put r) : ¬ Sound c s := by
  rintro ⟨_, log, h1, h2, h3⟩
  obtain ⟨out', ho, hscan⟩ := h3 rts (fun w hw => hts w (h2 w hw))
  rw [hs] at ho
  cases ho
  obtain ⟨t, hw, _⟩ := (hscan.2 k r).1 hyes
  exact hno _ (h2 _ hw) rfl

end Tonbo.Spec.Durable
