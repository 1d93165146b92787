import Mathlib.Data.List.Basic

/-!
# Several writers on one log (src/wal/state.rs, src/wal/writer.rs, src/wal/storage.rs)

Every database handle with a log runs a writer task of its own (wal/mod.rs:946-999). All tasks on one
directory append to the same segment files and keep their progress in the same file `state.json`, which is
replaced only if its tag is the one the task saw last (state.rs:159-169, 257-272). Nothing else keeps two
handles apart.

The steps of different tasks interleave: loading the state, opening the log, every single frame, and the end of
every command are steps of their own. Calls to the storage may fail, and a conditional write may take effect
and still report a failure.

Simplified: a frame is appended to its file in one piece, and no torn frame is seen (C25, C28 and `Model/WalStore.lean`
are about these); whether a segment is full is a flag of every command instead of a byte count; files are not
removed (retention and pruning are in `Model/WalWriter.lean`); flushing and syncing, which do not touch the state
file, are left out. The tag of every write of the state file is new: this is what a compare-and-swap store promises.
-/

namespace Tonbo.Model.Fence

/-- `WalSegmentBounds` (state.rs:172-182); the file id is a function of the number. -/
structure Bounds where
  seq : Nat
  first : Nat
  last : Nat
deriving Repr, DecidableEq

/-- `WalState` (state.rs:22-36). -/
structure St where
  lastSegment : Option Nat := none
  lastFrame : Option Nat := none
  lastCommit : Option Nat := none
  sealed : List Bounds := []
  active : Option Bounds := none
deriving Repr, DecidableEq

/-- The state file: its content and tag, if it exists, and the next tag. -/
structure Cas where
  cur : Option (St × Nat) := none
  fresh : Nat := 0
deriving Repr, DecidableEq

/-- `FsWalStateStore::put` (state.rs:257-272): `IfMatch` with a tag, `IfNotExists` without. `none` is the error of a
failed condition. -/
def Cas.put (c : Cas) (expect : Option Nat) (s : St) : Option (Cas × Nat) :=
  match expect, c.cur with
  | none, none => some (⟨some (s, c.fresh), c.fresh + 1⟩, c.fresh)
  | some t, some (_, u) => if t = u then some (⟨some (s, c.fresh), c.fresh + 1⟩, c.fresh) else none
  | _, _ => none

variable {F : Type}

/-- The segment files in the order of their numbers, with their frames. -/
abbrev Log (F : Type) := List (Nat × List (Nat × F))

/-- `open_segment` (storage.rs:46-64): the file is created if it does not exist. -/
def ensure (n : Nat) : Log F → Log F
  | [] => [(n, [])]
  | s :: ss => if s.1 = n then s :: ss else if n < s.1 then (n, []) :: s :: ss else s :: ensure n ss

/-- A write to an open segment: files are opened for appending (storage.rs:82-92). -/
def addFrame (n : Nat) (f : Nat × F) (l : Log F) : Log F := l.map (fun s => if s.1 = n then (s.1, s.2 ++ [f]) else s)

/-- The frames of a segment. -/
def framesOf (n : Nat) (l : Log F) : List (Nat × F) :=
  match l.find? (fun s => s.1 == n) with
  | some s => s.2
  | none => []

/-- `load_bounds_from_storage` (writer.rs:962-978): `none` is an error, for a file without frames. -/
def boundsOf (n : Nat) (fs : List (Nat × F)) : Option Bounds :=
  match fs.head?, fs.getLast? with
  | some a, some b => some ⟨n, a.1, b.1⟩
  | _, _ => none

/-- A command of the queue: its frames, its commit timestamp if it is a commit, and whether the segment is full
after it (writer.rs:613-680). -/
structure Cmd (F : Type) where
  frames : List F
  commit : Option Nat
  full : Bool
deriving Repr, DecidableEq

/-- An acknowledgement: the command, its first and its last frame number (writer.rs:663-668). -/
abbrev Ack (F : Type) := Cmd F × Nat × Nat

/-- `WriterContext` (writer.rs:463-489), `WalStateHandle` (state.rs:104-111) and the position of the task in the batch
at hand. `opened` is false between loading the state file and the end of `WriterContext::new`; `filled` is
`segment_bytes > 0`; `dead`: the task has ended. `todo` are the frames of the first command of `cmds` that are not
written yet; `done` the acknowledgements to be sent with the whole batch. -/
structure Wr (F : Type) where
  tag : Option Nat
  st : St
  dirty : Bool := false
  opened : Bool := false
  dead : Bool := false
  seg : Nat := 0
  next : Nat := 1
  nextSeg : Nat := 1
  filled : Bool := false
  active : Option Bounds := none
  completed : List Bounds := []
  first : Nat := 1
  todo : List F := []
  cmds : List (Cmd F) := []
  done : List (Ack F) := []
deriving Repr, DecidableEq

/-- The store and the tasks of all handles that were ever opened. -/
structure Sys (F : Type) where
  cas : Cas
  log : Log F
  wr : Nat → Option (Wr F)

/-- An empty directory. -/
def Sys.new : Sys F := ⟨{}, [], fun _ => none⟩

/-- How a call to the storage ends: well, with an error, or with an error although it took effect. -/
inductive Io where
  | ok
  | fail
  | lost
deriving Repr, DecidableEq

/-- Steps. `load` and `opened` are `WriterContext::new` of handle `h`; opening a handle again is a new `load`;
`batch` is a batch taken from the queue; `frame` is one frame of it; `finish` the end of a command; `rotate` a request to
rotate or an elapsed deadline; `shutdown` the end of the queue; `kill` the end of the process. -/
inductive Op (F : Type) where
  | load (h : Nat)
  | opened (h : Nat)
  | batch (h : Nat) (cmds : List (Cmd F))
  | frame (h : Nat) (ok : Bool)
  | finish (h : Nat) (io : Io)
  | rotate (h : Nat) (io : Io)
  | shutdown (h : Nat) (io : Io)
  | kill (h : Nat)
deriving Repr, DecidableEq

/-- `WalStateHandle::load` (state.rs:125-145), first in `WriterContext::new` (writer.rs:511). Without a state store there
is no handle (storage.rs:215-226), which is taken for an empty state. -/
def loadWr (stateFile : Bool) (c : Cas) : Wr F :=
  if stateFile then
    match c.cur with
    | some (s, t) => { tag := some t, st := s }
    | none => { tag := none, st := {} }
  else { tag := none, st := {} }

/-- One more than a number that may be missing. -/
def after (o : Option Nat) : Nat := match o with | some n => n + 1 | none => 1

/-- One more than a segment number that may be missing. -/
def afterSeg (o : Option Nat) : Nat := match o with | some n => n + 1 | none => 0

/-- The number of the last segment (storage.rs:265-271), or 0 (wal/mod.rs:972). -/
def lastSeg (l : Log F) : Nat := match l.getLast? with | some s => s.1 | none => 0

/-- `rehydrate_segment_metadata` (writer.rs:1082-1124) for the sealed segments: bounds from the state file if it has them. -/
def rehydrate (s : St) (l : Log F) : List Bounds :=
  l.dropLast.filterMap (fun g => match boundsOf g.1 g.2 with
    | none => none
    | some b => some (((s.sealed.reverse.find? (fun x => x.seq == g.1)).getD b)))

/-- A sealed segment has no bounds in the state file (writer.rs:1107-1113). -/
def missing (s : St) (l : Log F) : Bool :=
  l.dropLast.any (fun g => (boundsOf g.1 g.2).isSome && (s.sealed.find? (fun x => x.seq == g.1)).isNone)

/-- The rest of `WriterContext::new` (writer.rs:513-606) with `run_writer_loop` (writer.rs:202-204) and
`align_state_with_segments` (writer.rs:1126-1152). -/
def openWr (w : Wr F) (l : Log F) : Wr F :=
  let fs := framesOf (lastSeg l) l
  let active := boundsOf (lastSeg l) fs
  let completed := rehydrate w.st l
  { w with
    opened := true
    seg := lastSeg l
    next := max (after (fs.getLast?.map Prod.fst)) (after w.st.lastFrame)
    nextSeg := max (lastSeg l + 1) (afterSeg w.st.lastSegment)
    filled := active.isSome
    active := active
    completed := completed
    st := { w.st with sealed := completed, active := active }
    dirty := missing w.st l || active.isSome || decide (w.st.sealed ≠ completed) || decide (w.st.active ≠ active) }

/-- The next command of a batch (writer.rs:691-696): a command without frames is an error (writer.rs:625-627). -/
def start (w : Wr F) : Wr F :=
  match w.cmds with
  | [] => w
  | c :: _ => if c.frames = [] then { w with dead := true } else { w with first := w.next, todo := c.frames }

/-- `touch_active_segment` (writer.rs:920-930). -/
def touch (w : Wr F) (n : Nat) : Option Bounds :=
  match w.active with
  | some b => some { b with last := n }
  | none => some ⟨w.seg, n, n⟩

/-- `write_frame` (writer.rs:704-713) in the task. -/
def frameWr (w : Wr F) : Wr F :=
  { w with
    next := w.next + 1, todo := w.todo.drop 1, filled := true, active := touch w w.next,
    st := { w.st with active := touch w w.next }, dirty := true }

/-- `rotate_active_segment` (writer.rs:794-860) with `record_sealed_segment` (writer.rs:1027-1034): `none` is the error
of a segment whose bounds cannot be read. -/
def rotateWr (w : Wr F) (l : Log F) : Option (Wr F) :=
  match w.active.orElse (fun _ => boundsOf w.seg (framesOf w.seg l)) with
  | none => none
  | some b => some { w with
      seg := w.nextSeg, nextSeg := w.nextSeg + 1, filled := !(framesOf w.nextSeg l).isEmpty, active := none,
      completed := w.completed ++ [b],
      st := { w.st with lastSegment := some b.seq, sealed := w.st.sealed.filter (fun x => x.seq ≠ b.seq) ++ [b], active := none },
      dirty := true }

/-- `record_frame_progress` (writer.rs:1016-1025). -/
def record (w : Wr F) (commit : Option Nat) : Wr F :=
  { w with
    st := { w.st with lastFrame := some (w.next - 1), lastCommit := if commit.isSome then commit else w.st.lastCommit },
    dirty := true }

/-- `persist_state_if_dirty` (writer.rs:1036-1044) with `WalStateHandle::persist` (state.rs:159-169). The flag says
whether it succeeded. -/
def persist (stateFile : Bool) (c : Cas) (w : Wr F) (io : Io) : Cas × Wr F × Bool :=
  if !stateFile || !w.dirty then (c, w, true)
  else
    match io, c.put w.tag w.st with
    | .fail, _ => (c, w, false)
    | _, none => (c, w, false)
    | .ok, some (c', t) => (c', { w with tag := some t, dirty := false }, true)
    | .lost, some (c', _) => (c', w, false)

/-- The commands of a finished batch are acknowledged together (writer.rs:258-261); after a command that is not the last
the next one starts (writer.rs:691-696). -/
def advance (w : Wr F) (c : Cmd F) : Wr F × List (Ack F) :=
  match w.cmds with
  | _ :: d :: cs => (start { w with cmds := d :: cs, done := w.done ++ [(c, w.first, w.next - 1)] }, [])
  | _ => ({ w with cmds := [], done := [] }, w.done ++ [(c, w.first, w.next - 1)])

/-- The end of `handle_enqueue` after the last frame (writer.rs:650-668): rotation, progress, state file. -/
def finishWr (stateFile : Bool) (c : Cas) (l : Log F) (w : Wr F) (cmd : Cmd F) (io : Io) :
    Cas × Log F × Wr F × List (Ack F) :=
  match (if cmd.full then rotateWr w l else some w) with
  | none => (c, l, { w with dead := true }, [])
  | some w' =>
    let l' := if cmd.full then ensure w'.seg l else l
    let p := persist stateFile c (record w' cmd.commit) io
    if p.2.2 then (p.1, l', (advance p.2.1 cmd).1, (advance p.2.1 cmd).2)
    else (p.1, l', { p.2.1 with dead := true }, [])

/-- `handle_rotation_request` (writer.rs:862-873), `handle_timer_elapsed` (writer.rs:1166-1178). -/
def rotateReq (stateFile : Bool) (c : Cas) (l : Log F) (w : Wr F) (io : Io) : Cas × Log F × Wr F :=
  if w.filled = false then (c, l, w)
  else
    match rotateWr w l with
    | none => (c, l, { w with dead := true })
    | some w' =>
      let p := persist stateFile c w' io
      (p.1, ensure w'.seg l, if p.2.2 then p.2.1 else { p.2.1 with dead := true })

/-- Change one task. -/
def Sys.set (s : Sys F) (h : Nat) (w : Wr F) : Sys F := { s with wr := fun i => if i = h then some w else s.wr i }

/-- A task that can take something from its queue. -/
def idle (w : Wr F) : Bool := w.opened && !w.dead && w.cmds.isEmpty

/-- One step of a task that exists (writer.rs:177-461). A step that does not fit the state of its task does nothing. -/
def act (stateFile : Bool) (s : Sys F) (h : Nat) (w : Wr F) : Op F → Sys F × List (Ack F)
  | .load _ => (s, [])
  | .opened _ => if w.opened || w.dead then (s, []) else ({ s with log := ensure (lastSeg s.log) s.log }.set h (openWr w s.log), [])
  | .batch _ cmds => if idle w then (s.set h (start { w with cmds := cmds, done := [] }), []) else (s, [])
  | .frame _ ok =>
    match w.todo with
    | [] => (s, [])
    | f :: _ =>
      if w.dead then (s, [])
      else if ok then ({ s with log := addFrame w.seg (w.next, f) s.log }.set h (frameWr w), [])
      else (s.set h { w with dead := true }, [])
  | .finish _ io =>
    match w.cmds, w.todo with
    | c :: _, [] =>
      if w.dead then (s, [])
      else
        let r := finishWr stateFile s.cas s.log w c io
        (({ s with cas := r.1, log := r.2.1 } : Sys F).set h r.2.2.1, r.2.2.2)
    | _, _ => (s, [])
  | .rotate _ io =>
    if idle w then
      let r := rotateReq stateFile s.cas s.log w io
      (({ s with cas := r.1, log := r.2.1 } : Sys F).set h r.2.2, [])
    else (s, [])
  | .shutdown _ io =>
    if idle w then (({ s with cas := (persist stateFile s.cas w io).1 } : Sys F).set h { (persist stateFile s.cas w io).2.1 with dead := true }, [])
    else (s, [])
  | .kill _ => (s.set h { w with dead := true }, [])

/-- The handle of a step. -/
def Op.handle : Op F → Nat
  | .load h => h
  | .opened h => h
  | .batch h _ => h
  | .frame h _ => h
  | .finish h _ => h
  | .rotate h _ => h
  | .shutdown h _ => h
  | .kill h => h

/-- One step, with the acknowledgements it sends. -/
def step (stateFile : Bool) (s : Sys F) (o : Op F) : Sys F × List (Ack F) :=
  match o, s.wr o.handle with
  | .load h, _ => (s.set h (loadWr stateFile s.cas), [])
  | _, none => (s, [])
  | o, some w => act stateFile s o.handle w o

/-- The system after some steps. -/
def run (stateFile : Bool) (ops : List (Op F)) : Sys F := ops.foldl (fun s o => (step stateFile s o).1) Sys.new

end Tonbo.Model.Fence
