import Verif.Model.LogLife
import Verif.Spec.QueueView
import Verif.Spec.WalBatchView

/-!
# What a crash may leave of a log
-/

namespace Tonbo.Spec.Life
open Tonbo.Model Tonbo.Model.Wal Tonbo.Model.LogLife Tonbo.Spec

variable {A : Type}

/-- What happens: the power fails, or only the process ends and the operating system lives on. -/
inductive Crash where
  | power
  | kill
deriving Repr, DecidableEq

/-- The frames of a file that surely survive. -/
def safe : Crash → WalW.Seg Frame → List (Nat × Frame)
  | .power, g => g.synced
  | .kill, g => g.synced ++ g.flushed

/-- What may be left of a file: the bytes that surely survive, and any part of the bytes written behind them, cut
anywhere. -/
def LeftOf (d : Crash) (g : WalW.Seg Frame) (f : Seg) : Prop :=
  f.seq = g.seq ∧ bytesOf (safe d g) <+: f.data ∧ f.data <+: bytesOf g.all

/-- The files after a crash. The last one may be missing if nothing of it surely survives. -/
def Left (d : Crash) (w : WalW.W Frame) (files : List Seg) : Prop :=
  List.Forall₂ (LeftOf d) (WalW.segments w) files ∨
    (safe d w.active = [] ∧ List.Forall₂ (LeftOf d) (WalW.segments w).dropLast files)

/-- A log through any number of sessions, each ended by a crash: the first finds the files `before`, the last leaves
`after`. Every session comes with the state in which the crash hit. -/
inductive Life (c : Ipc (Batch A)) (d : Crash) : List Seg → List (Session A × WalQ.Q Frame) → List Seg → Prop
  | none (files : List Seg) : Life c d files [] files
  | session {before between after : List Seg} {s : Session A} {w : WalW.W Frame} {ss : List (Session A × WalQ.Q Frame)}
      (hopen : openWriter s.cfg s.state before = .ok w) (hleft : Left d (runSession c s w).w between)
      (hrest : Life c d between ss after) : Life c d before ((s, runSession c s w) :: ss) after

/-- The command can be logged, and its rows carry the timestamp `t`. -/
def Stamped (x : Wal.Cmd A) (t : BitVec 64) : Prop :=
  (∀ id b ts, x = .row id b ts → ValidBatch b ∧ NoReserved b ∧ ts = tsColumn b.rows t) ∧
    (∀ id b, x = .delete id b → ∃ (pre post : List (Fld A)) (nl : Bool),
      b.cols = pre ++ ⟨"_commit_ts", nl, tsColumn b.rows t⟩ :: post ∧ ∀ g ∈ pre, g.name ≠ "_commit_ts")

/-- Every call of the log brings one command that can be logged in less than 4 GiB. -/
def Calls (c : Ipc (Batch A)) (s : Session A) : Prop :=
  ∀ m, WalQ.Msg.cmd m ∈ WalQ.asked s.ops → ∃ x, m.frames = [x] ∧ (∃ t, Stamped x t) ∧
    ∀ f ∈ framesOfCmd c x, f.payload.length < 4294967296

/-- Nothing is deleted from the log, and segments are synced before the next is opened if power may fail. -/
def Keeps (d : Crash) (s : Session A) : Prop := s.cfg.retention = none ∧ (d = .power → s.cfg.sync ≠ .disabled)

/-- Every command is flushed, and synced if power may fail, before it is answered. -/
def Prompt (d : Crash) (s : Session A) : Prop :=
  (∀ m, WalQ.Msg.cmd m ∈ WalQ.asked s.ops → s.cfg.flushZero = true ∨ m.elapsed = true) ∧ (d = .power → s.cfg.sync = .always)

/-- Frame numbers fit into 64 bits. -/
def Counted (q : WalQ.Q Frame) : Prop := ∀ p ∈ WalW.written q.w, p.1 < 18446744073709551616

/-- The commands of a session that were told to be written, in that order. -/
def told (p : Session A × WalQ.Q Frame) : List (Wal.Cmd A) := WalQ.promised (WalQ.asked p.1.ops) p.2.answers

/-- The commands of a session that were told of an error while they were written. -/
def doubtful (p : Session A × WalQ.Q Frame) : List (Wal.Cmd A) := WalQ.inDoubt (WalQ.asked p.1.ops) p.2.answers

/-- `part` is what may survive of a session: its commands in order up to some point; all that were told to be written, if
they were on the disk by then or the log was closed. -/
def Survives (d : Crash) (p : Session A × WalQ.Q Frame) (part : List (Wal.Cmd A)) : Prop :=
  part <+: told p ++ doubtful p ∧ (Prompt d p.1 ∨ p.2.over = some true → told p <+: part)

/-- The event is what the command comes back as. -/
def ComesBack (x : Wal.Cmd A) (e : Event A) : Prop := ∃ t, Stamped x t ∧ e = eventOf x t

end Tonbo.Spec.Life
