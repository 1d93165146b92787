import Verif.Model.WalEvent
import Mathlib.Data.List.Sort

/-!
# WAL segment files, replay of segments, and the tail of the log
(src/wal/storage.rs, src/wal/replay.rs, src/wal/mod.rs:946-999, src/wal/writer.rs:493-560)

A file is its path, its name and its bytes. A path is kept as a character list. I/O errors are not
modelled. Opening an existing segment without `truncate` is taken to append (fusio).
-/

namespace Tonbo.Model.Wal

/-! ## Names -/

/-- A decimal digit. -/
def digitChar (d : Nat) : Char := Char.ofNat (48 + d)

/-- The last `w` decimal digits. -/
def decDigits : Nat → Nat → List Char
  | 0, _ => []
  | w + 1, n => decDigits w (n / 10) ++ [digitChar (n % 10)]

/-- `segment_path` (storage.rs:97-103): `wal-{seq:020}.tonwal`. A `u64` has at most 20 digits. -/
def segName (seq : Nat) : List Char := "wal-".toList ++ decDigits 20 seq ++ ".tonwal".toList

/-- The value of a character list of decimal digits. -/
def digitsValue : List Char → Nat → Option Nat
  | [], acc => some acc
  | c :: cs, acc =>
    if 48 ≤ c.toNat ∧ c.toNat ≤ 57 then digitsValue cs (acc * 10 + (c.toNat - 48)) else none

/-- The optional plus sign `str::parse::<u64>` (std) accepts before at least one digit. -/
def dropPlus : List Char → List Char
  | '+' :: d :: rest => d :: rest
  | cs => cs

/-- At least one digit, no overflow. -/
def parseDigits (ds : List Char) : Option Nat :=
  if ds = [] then none
  else
    match digitsValue ds 0 with
    | none => none
    | some n => if n < 18446744073709551616 then some n else none

/-- `str::parse::<u64>` (std): an optional plus sign, at least one digit, no overflow. -/
def parseU64 (cs : List Char) : Option Nat := parseDigits (dropPlus cs)

/-- `str::strip_prefix`. -/
def stripPrefix (p cs : List Char) : Option (List Char) :=
  if p.isPrefixOf cs then some (cs.drop p.length) else none

/-- `str::strip_suffix`. -/
def stripSuffix (s cs : List Char) : Option (List Char) :=
  if s.isSuffixOf cs then some (cs.take (cs.length - s.length)) else none

/-- `segment_sequence` (storage.rs:559-566). The code compares the length in bytes; a name with
characters of several bytes fails to parse in both. -/
def segmentSequence (name : List Char) : Option Nat :=
  match stripPrefix "wal-".toList name with
  | none => none
  | some r =>
    match stripSuffix ".tonwal".toList r with
    | none => none
    | some t => if t.length ≠ 20 then none else parseU64 t

/-! ## Listing -/

/-- An object of the store. -/
structure WFile where
  path : List Char
  name : List Char
  data : Bytes
deriving Repr, DecidableEq

/-- `SegmentDescriptor` (storage.rs:498-505), with the content of the file. -/
structure Seg where
  seq : Nat
  path : List Char
  data : Bytes
deriving Repr, DecidableEq

/-- `describe_segment` (storage.rs:434-458). -/
def describe (f : WFile) : Option Seg :=
  match segmentSequence f.name with
  | none => none
  | some n => some ⟨n, f.path, f.data⟩

/-- `Vec::dedup_by` with the comparison of storage.rs:149. -/
def dedupSegs : List Seg → List Seg
  | [] => []
  | a :: as =>
    match dedupSegs as with
    | [] => [a]
    | b :: bs => if a.seq = b.seq ∧ a.path = b.path then a :: bs else a :: b :: bs

/-- `should_attempt_fallback` (storage.rs:200-212). -/
def shouldFallback (isS3 : Bool) (hint : Option Nat) (entries : List Seg) : Bool :=
  isS3 && match hint with
    | none => false
    | some h => !entries.any (fun e => e.seq == h)

/-- `list_segments_with_hint` (storage.rs:111-151). `dir` is the listing of the WAL directory in the
order of the store, `root` the part of the root listing below it (storage.rs:228-258). -/
def listSegments (isS3 : Bool) (hint : Option Nat) (dir root : List WFile) : List Seg :=
  let entries := dir.filterMap describe
  let entries := if shouldFallback isS3 hint entries then entries ++ root.filterMap describe else entries
  dedupSegs (entries.insertionSort (fun a b => a.seq ≤ b.seq))

/-- `prune_below` (storage.rs:154-168): the files left. -/
def pruneBelow (floor : Nat) (segs : List Seg) : List Seg :=
  if floor = 0 then segs else segs.filter (fun s => decide (floor ≤ s.seq))

/-! ## Replay -/

variable {A : Type}

/-- The part of a `WalSegmentRef` that replay uses (manifest/domain.rs): segment number and first frame. -/
structure Floor where
  seq : Nat
  firstFrame : Nat
deriving Repr, DecidableEq

/-- `header.seq < floor_frame` (replay.rs:165-167). -/
def belowFrame (ff : Option Nat) (seq : Nat) : Bool :=
  match ff with
  | some f => decide (seq < f)
  | none => false

/-- `segment.seq < seq` (replay.rs:98-101). -/
def belowSegment (floor : Option Floor) (n : Nat) : Bool :=
  match floor with
  | some f => decide (n < f.seq)
  | none => false

/-- `segment_floor_first_frame` (replay.rs:102-105). -/
def floorFrame (floor : Option Floor) (n : Nat) : Option Nat :=
  match floor with
  | some f => if n = f.seq then some f.firstFrame else none
  | none => none

/-- What replay does with one frame (replay.rs:165-176): skip it below the floor, else decode it. -/
def replayVisit (c : Ipc (Batch A)) (ff : Option Nat) (acc : List (Event A)) (h : Header)
    (p : Bytes) : Except WErr (Option (List (Event A))) :=
  if belowFrame ff h.seq.toNat then .ok (some acc)
  else
    match decodeFrame c h.type p with
    | .error e => .error e
    | .ok ev => .ok (some (acc ++ [ev]))

/-- The segment loop of `scan_with_floor` (replay.rs:95-179): a torn segment ends the scan. -/
def scanLoop (c : Ipc (Batch A)) (floor : Option Floor) :
    List Seg → List (Event A) → Except WErr (List (Event A))
  | [], acc => .ok acc
  | s :: ss, acc =>
    if belowSegment floor s.seq then scanLoop c floor ss acc
    else
      match walk (replayVisit c (floorFrame floor s.seq)) s.data.length acc s.data with
      | .error e => .error e
      | .ok (acc', some _) => .ok acc'
      | .ok (acc', none) => scanLoop c floor ss acc'

/-- `scan_with_floor` (replay.rs:48-186) in one of the two implemented recovery modes. -/
def scanWithFloor (c : Ipc (Batch A)) (floor : Option Floor) (segs : List Seg) :
    Except WErr (List (Event A)) := scanLoop c floor segs []

/-! ## The tail -/

/-- `FrameTailMeta` (storage.rs:461-465). -/
structure TailMeta where
  seq : Nat
  id : Option Nat
  endOffset : Nat
deriving Repr, DecidableEq

/-- The body of the loop of `scan_tail` (storage.rs:358-379). -/
def tailVisit (last : Option TailMeta) (h : Header) (p : Bytes) : Except WErr (Option (Option TailMeta)) :=
  let off := match last with | some m => m.endOffset | none => 0
  if h.type = .txnAppend ∨ h.type = .txnCommit then
    if p.length < 8 then .ok none
    else .ok (some (some ⟨h.seq.toNat, some (fromLe (p.take 8)), off + headerSize + p.length⟩))
  else .ok (some (some ⟨h.seq.toNat, none, off + headerSize + p.length⟩))

/-- `scan_tail` (storage.rs:316-398). -/
def scanTail (data : Bytes) : Except WErr (Option TailMeta) :=
  match walk tailVisit data.length none data with
  | .error e => .error e
  | .ok (last, _) => .ok last

/-- `TailMetadata` (storage.rs:522-531). -/
structure Tail where
  active : Seg
  completed : List Seg
  lastFrame : Option Nat
  lastId : Option Nat
deriving Repr, DecidableEq

/-- `tail_metadata_with_hint` (storage.rs:261-314) on the listed segments. The active segment is
rewritten to its valid prefix when something follows it; `.data` is the content afterwards. -/
def tailMetadata (segs : List Seg) : Except WErr (Option Tail) :=
  match segs.getLast? with
  | none => .ok none
  | some active =>
    match scanTail active.data with
    | .error e => .error e
    | .ok last =>
      let safe := match last with | some m => m.endOffset | none => 0
      .ok (some ⟨{ active with data := active.data.take safe }, segs.dropLast,
        last.map (·.seq), last.bind (·.id)⟩)

/-- The part of `WalState` (state.rs:22-36) the restart looks at. -/
structure WState where
  lastSegment : Option Nat
  lastFrame : Option Nat
  lastCommit : Option Nat
deriving Repr, DecidableEq

/-- The first numbers after `enable_wal` (wal/mod.rs:953-965, writer.rs:184-186, 510-545):
provisional transaction id, frame sequence, active segment and next segment. `u64` additions
saturate in the code; here they do not. -/
structure Resume where
  nextId : Nat
  nextFrame : Nat
  segment : Nat
  nextSegment : Nat
deriving Repr, DecidableEq

/-- One more, or a default. -/
def succOr (d : Nat) : Option Nat → Nat
  | none => d
  | some n => n + 1

/-- `enable_wal` and `WriterContext::new` (wal/mod.rs:946-999, writer.rs:493-545). `st` is the state
file, if a state store is configured. -/
def resume (tail : Option Tail) (st : Option WState) : Resume :=
  let nextId := succOr initialFrameSeq (tail.bind (·.lastId))
  let initial := succOr initialFrameSeq (tail.bind (·.lastFrame))
  let frame0 := match st.bind (·.lastFrame) with
    | some s => max initial (s + 1)
    | none => initial
  let seg := match tail with | some t => t.active.seq | none => 0
  let nseg := match st.bind (·.lastSegment) with
    | some s => max (seg + 1) (s + 1)
    | none => seg + 1
  ⟨nextId, max frame0 (max initial initialFrameSeq), seg, nseg⟩

/-- The body of the loop of `decode_frame_bounds` (storage.rs:541-548). -/
def boundsVisit (acc : Option (Nat × Nat)) (h : Header) (_ : Bytes) : Except WErr (Option (Option (Nat × Nat))) :=
  match acc with
  | none => .ok (some (some (h.seq.toNat, h.seq.toNat)))
  | some (f, _) => .ok (some (some (f, h.seq.toNat)))

/-- `decode_frame_bounds` (storage.rs:533-557): first and last frame of a segment. -/
def frameBounds (data : Bytes) : Except WErr (Option (Nat × Nat)) :=
  match walk boundsVisit data.length none data with
  | .error e => .error e
  | .ok (_, some e) => .error e
  | .ok (b, none) => .ok b

end Tonbo.Model.Wal
