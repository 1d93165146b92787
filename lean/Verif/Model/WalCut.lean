import Verif.Model.WalWriter

/-!
# A power loss in the middle of a command

`WalWriter.lean` lets the power fail between two commands. Here it may also fail inside one: the frames are written and the
segment may have been sealed, and the state file has not been written yet.
-/

namespace Tonbo.Model.WalCut
open Tonbo.Model.WalW

variable {F : Type}

/-- `WriterContext::new` (writer.rs:501-606) with the last frame number that the state file holds (writer.rs:541-545;
`stored` is one more). `reopen` of `WalWriter.lean` takes the file to be up to date. -/
def reopenStored (cfg : Cfg) (size : F → Nat) (stored : Nat) (s : W F) : W F :=
  { reopen cfg size s with next := if cfg.stateFile then max (tailNext s.active) stored else tailNext s.active }

/-- The power fails in `handle_enqueue` between the rotation and `persist_state_if_dirty` (writer.rs:655-661), or the
rotation ends with an error and the power fails later: the state file is the one of the command before, and so is the
timestamp in it. With `synced` the operating system has written the frames of the open segment. -/
def cutCommand (cfg : Cfg) (size : F → Nat) (s : W F) (c : Cmd F) (synced : Bool) : W F :=
  if c.frames = [] then s
  else
    reopenStored cfg size s.next
      { (if synced then syncNow (writeOut cfg size s c) else writeOut cfg size s c) with commit := s.commit }

/-- A step of `WalWriter.lean`, or a command that the power loss cuts short. -/
inductive COp (F : Type) where
  | op (o : Op F)
  | cut (c : Cmd F) (synced : Bool)
deriving Repr, DecidableEq

/-- One step. A task that has ended handles no command (writer.rs:262-268). -/
def cstep (cfg : Cfg) (size : F → Nat) (s : W F) : COp F → W F
  | .op o => (step cfg size s o).1
  | .cut c synced => if s.dead then s else cutCommand cfg size s c synced

/-- A history. -/
def crun (cfg : Cfg) (size : F → Nat) (s : W F) (ops : List (COp F)) : W F := ops.foldl (cstep cfg size) s

end Tonbo.Model.WalCut
