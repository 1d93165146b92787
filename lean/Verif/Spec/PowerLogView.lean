import Verif.Model.PowerLog
import Verif.Spec.DurableView
import Verif.Spec.CalmView
import Verif.Spec.ReplayView

/-!
# What a power loss may take

Written for C88.
-/

namespace Tonbo.Spec.PowerLog
open Tonbo.Model Tonbo.Model.Lsm Tonbo.Model.Durable Tonbo.Model.PowerLog Tonbo.Spec Tonbo.Spec.Durable

variable {A K R : Type} [LinearOrder K]

/-- The process runs through the whole history. -/
def NoCrash (ops : List (Durable.Op K R)) : Prop := ∀ cap pol st, Durable.Op.crash cap pol st ∉ ops

/-- The database is open, and there is a set of writes such that reads, at timestamps not before the newest of them,
show exactly these. It has everything in `must`, and nothing that was not committed. -/
def SurvivesWith (t : Nat) (s : Sys A K R) (must : Ver K R → Prop) (committed : List (Ver K R)) : Prop :=
  s.dead = false ∧ ∃ kept : Ver K R → Prop,
    (∀ w, must w → kept w) ∧ (∀ w, kept w → w ∈ committed) ∧
    ∀ rts, (∀ w, kept w → w.ts ≤ rts) → ∃ out, scanAll t s.db rts = some out ∧ IsScan kept rts (rowsOf out)

/-- What is left in the log after the power loss: the writes of the commit records that recovery reads. -/
def leftInLog (c : Ctx A K R) (s : Sys A K R) (keep there : Nat → Bool) : List (Ver K R) :=
  Wal.logBatches c.ext c.sch (replayed (floorOf c s) (cut keep there s.segs))

/-- The state after a power loss, with what the history remembers of it. To be kept from now on, like acknowledged
writes: `ack`, those that were acknowledged by the last sync, and what is left in the log. Commits whose timestamps
the clock will give out again are forgotten. -/
def afterPower (c : Ctx A K R) (ack : List (Ver K R)) (s : Sys A K R) (keep there : Nat → Bool)
    (cap : Nat) (pol : Nat → Bool) (st : Option Wal.WState) : Sys A K R :=
  { powerLoss c s keep there cap pol st with
    acked := ack ++ leftInLog c s keep there
    committed := s.committed.filter (fun w => decide (w.ts < (powerLoss c s keep there cap pol st).clock)) }

/-- Conditions on a power loss after which the database can go on.

* The limits are positive, recovery does not freeze memory, and new frames and transactions get numbers above those
  that are left: as for crashes (`Calm`).
* A segment file is left.
* If the manifest says from where on the log is needed, something of that part is left
  (`write_after_power_loss_is_lost`).
* The clock of the reopened database is ahead of what is there: of what was acknowledged by the sync, of the commit
  records that are left, of the tables. This is for the state file and the commit records to provide, as for crashes
  (`Fresh`). -/
structure CalmPower (c : Ctx A K R) (ack : List (Ver K R)) (s : Sys A K R) (keep there : Nat → Bool)
    (cap : Nat) (pol : Nat → Bool) (st : Option Wal.WState) : Prop where
  pos : 0 < cap
  rest : cut keep there s.segs ≠ []
  numbers : ∀ g ∈ cut keep there s.segs, ∀ p ∈ g.frames, p.1 < (Wal.resume (tailOf (cut keep there s.segs)) st).nextFrame ∧
    evId p.2 < (Wal.resume (tailOf (cut keep there s.segs)) st).nextId
  flat : ∀ r ∈ Wal.replay c.ext c.sch pol (Mem.Runs.new cap) (replayed (floorOf c s) (cut keep there s.segs)), r.1.runs = []
  floor : ∀ f ∈ floorOf c s, ∃ g ∈ cut keep there s.segs, f.seq ≤ g.seq ∧ g.frames ≠ []
  acked : ∀ w ∈ ack, w.ts < (powerLoss c s keep there cap pol st).clock
  log : ∀ g ∈ cut keep there s.segs, ∀ p ∈ g.frames, ∀ id ts, p.2 = .commit id ts →
    ts.toNat < (powerLoss c s keep there cap pol st).clock
  tables : ∀ l e, EverListed s.db c.table l e → ∀ f, s.db.files ⟨l, e.id⟩ = some f → ∀ w, Holds f w →
    w.ts < (powerLoss c s keep there cap pol st).clock

/-- The states of histories with crashes and power losses, any number of each. Every power loss is after some history
`more` without a crash that begins where the log was synced, and leaves at least the frames there were then. -/
inductive Reached (c : Ctx A K R) : Sys A K R → Prop
  | new (cap sv : Nat) (h : 0 < cap) : Reached c (Sys.new cap c.table sv)
  | run {s : Sys A K R} (ops : List (Durable.Op K R)) (h : Reached c s) (calm : CalmRun c s ops)
      (fresh : FreshRun c s ops) : Reached c (Durable.run c s ops)
  | power {s : Sys A K R} (more : List (Durable.Op K R)) (keep there : Nat → Bool) (cap : Nat)
      (pol : Nat → Bool) (st : Option Wal.WState)
      (h : Reached c s) (calm : CalmRun c s more) (fresh : FreshRun c s more) (running : NoCrash more)
      (synced : ∀ m, m < s.nextFrame → keep m = true) (loss : CalmPower c s.acked (Durable.run c s more) keep there cap pol st) :
      Reached c (afterPower c s.acked (Durable.run c s more) keep there cap pol st)

end Tonbo.Spec.PowerLog
