import Verif.Model.Frame

/-!
# WAL commands, record batches with a commit column, and decoded events
(src/wal/mod.rs:310-425, src/wal/frame.rs:300-626)

A record batch is its list of columns, each with its field name and nullability, and the schema
metadata. A column is either a `UInt64Array` or something else (`other`): its length, whether it has
nulls, and content of an arbitrary type `A`. Batches without any column (which carry only a row
count) are not modelled. The Arrow IPC stream codec is a parameter `Ipc`: an encoder and a decoder
giving back all batches of a stream.
-/

namespace Tonbo.Model.Wal

/-- A column (arrow-array). -/
inductive Col (A : Type) where
  | u64 (vals : List (Option (BitVec 64)))
  | other (len : Nat) (nulls : Bool) (content : A)
deriving Repr, DecidableEq

/-- `Array::len`. -/
def Col.len {A : Type} : Col A → Nat
  | .u64 vs => vs.length
  | .other n _ _ => n

/-- `null_count() > 0`. -/
def Col.hasNulls {A : Type} : Col A → Bool
  | .u64 vs => vs.any (·.isNone)
  | .other _ b _ => b

/-- A field of the schema with its column. -/
structure Fld (A : Type) where
  name : String
  nullable : Bool
  col : Col A
deriving Repr, DecidableEq

/-- `RecordBatch`. -/
structure Batch (A : Type) where
  cols : List (Fld A)
  md : List (String × String)
deriving Repr, DecidableEq

variable {A : Type}

/-- `RecordBatch::num_rows`. -/
def Batch.rows (b : Batch A) : Nat :=
  match b.cols with
  | [] => 0
  | f :: _ => f.col.len

/-- `RecordBatch::try_new` (arrow-array): at least one column, equal lengths, no nulls in a
non-nullable column. -/
def Batch.tryNew (b : Batch A) : Except WErr (Batch A) :=
  if b.cols.isEmpty then .error .codec
  else if b.cols.any (fun f => f.col.len != b.rows) then .error .codec
  else if b.cols.any (fun f => !f.nullable && f.col.hasNulls) then .error .codec
  else .ok b

/-- `MVCC_COMMIT_COL` (src/mvcc/mod.rs:8). -/
def commitCol : String := "_commit_ts"

/-- `MVCC_TOMBSTONE_COL` (src/inmem/immutable/memtable.rs:14). -/
def tombstoneCol : String := "_tombstone"

/-- All values are present and equal to the first (wal/mod.rs:334-338, 396-400; frame.rs:558-562). -/
def uniform : List (Option (BitVec 64)) → Bool
  | [] => true
  | v :: vs => (v :: vs).all (fun x => x.isSome && x == v)

/-- `append_commit_column` (wal/mod.rs:310-368). -/
def appendCommit (b : Batch A) (ts : Col A) : Except WErr (Batch A) :=
  if ts.len ≠ b.rows then .error .codec
  else
    match ts with
    | .other _ _ _ => .error .codec
    | .u64 vs =>
      if vs.any (·.isNone) then .error .codec
      else if !(vs.isEmpty || uniform vs) then .error .codec
      else if b.cols.any (·.name == commitCol) then .error .codec
      else if b.cols.any (·.name == tombstoneCol) then .error .codec
      else Batch.tryNew ⟨b.cols ++ [⟨commitCol, false, .u64 vs⟩], b.md⟩

/-- The check on a commit column shared by wal/mod.rs:381-405 and frame.rs:545-567: the timestamp, if
there is a row. -/
def commitHint : Col A → Except WErr (Option (BitVec 64))
  | .other _ _ _ => .error .codec
  | .u64 vs =>
    if vs.any (·.isNone) then .error .codec
    else
      match vs with
      | [] => .ok none
      | v :: _ => if uniform vs then .ok v else .error .codec

/-- `split_commit_column` (wal/mod.rs:371-425): the batch without the column, the timestamp, and the
column. -/
def splitCommit (b : Batch A) : Except WErr (Batch A × Option (BitVec 64) × Col A) :=
  match b.cols.findIdx? (·.name == commitCol) with
  | none => .error .codec
  | some i =>
    match b.cols[i]? with
    | none => .error .codec
    | some f =>
      match commitHint f.col with
      | .error e => .error e
      | .ok hint =>
        match Batch.tryNew ⟨b.cols.eraseIdx i, b.md⟩ with
        | .error e => .error e
        | .ok stripped => .ok (stripped, hint, f.col)

/-- `extract_delete_commit_hint` (frame.rs:538-568). -/
def deleteHint (b : Batch A) : Except WErr (Option (BitVec 64)) :=
  match b.cols.find? (·.name == commitCol) with
  | none => .error .codec
  | some f => commitHint f.col

/-- Arrow IPC streaming (`StreamWriter`, `StreamReader`): `dec` gives all batches of the stream, or
`none` when the reader fails. -/
structure Ipc (B : Type) where
  enc : B → Bytes
  dec : Bytes → Option (List B)

/-- What is assumed of the IPC codec: a batch written alone is read back alone, and its encoding is
not empty (a stream starts with the schema message). -/
structure Ipc.Lawful {B : Type} (c : Ipc B) : Prop where
  dec_enc : ∀ b, c.dec (c.enc b) = some [b]
  enc_ne : ∀ b, c.enc b ≠ []

/-- `WalCommand` and `DynBatchPayload` (wal/mod.rs:256-307). -/
inductive Cmd (A : Type) where
  | begin (id : BitVec 64)
  | row (id : BitVec 64) (batch : Batch A) (ts : Col A)
  | delete (id : BitVec 64) (batch : Batch A)
  | commit (id ts : BitVec 64)
  | abort (id : BitVec 64)
deriving Repr, DecidableEq

/-- `WalEvent` (frame.rs:572-626). -/
inductive Event (A : Type) where
  | begin (id : BitVec 64)
  | append (id : BitVec 64) (batch : Batch A) (hint : Option (BitVec 64)) (ts : Col A)
  | delete (id : BitVec 64) (batch : Batch A) (hint : Option (BitVec 64))
  | commit (id ts : BitVec 64)
  | abort (id : BitVec 64)
  | sealMarker
deriving Repr, DecidableEq

/-- `DynRowMode::as_u8` (frame.rs:69-74): 0 for rows, 1 for key-only deletes. -/
def rowModeByte (isDelete : Bool) : Byte := if isDelete then 1 else 0

/-- `encode_txn_append_batch` (frame.rs:365-388): id, mode byte (0, dynamic), row mode, six reserved
zero bytes, IPC bytes. -/
def encodeAppend (c : Ipc (Batch A)) (id : BitVec 64) (isDelete : Bool) (b : Batch A) : Bytes :=
  leBytes 8 id.toNat ++ [0] ++ [rowModeByte isDelete] ++ [0, 0, 0, 0, 0, 0] ++ c.enc b

/-- `encode_command` (frame.rs:300-344, 390-403). -/
def encodeCmd (c : Ipc (Batch A)) : Cmd A → Except WErr (List Frame)
  | .begin id => .ok [⟨.txnBegin, leBytes 8 id.toNat⟩]
  | .row id b ts =>
    match appendCommit b ts with
    | .error e => .error e
    | .ok wb => .ok [⟨.txnAppend, encodeAppend c id false wb⟩]
  | .delete id b => .ok [⟨.txnAppend, encodeAppend c id true b⟩]
  | .commit id ts => .ok [⟨.txnCommit, leBytes 8 id.toNat ++ leBytes 8 ts.toNat⟩]
  | .abort id => .ok [⟨.txnAbort, leBytes 8 id.toNat⟩]

/-- `decode_dyn_append` (frame.rs:446-496). -/
def decodeDynAppend (c : Ipc (Batch A)) (id : BitVec 64) (isDelete : Bool) (bs : Bytes) :
    Except WErr (Event A) :=
  if bs.isEmpty then .error .codec
  else
    match c.dec bs with
    | none => .error .codec
    | some [] => .error .codec
    | some (_ :: _ :: _) => .error .codec
    | some [b] =>
      if isDelete then
        match deleteHint b with
        | .error e => .error e
        | .ok hint => .ok (.delete id b hint)
      else
        match splitCommit b with
        | .error e => .error e
        | .ok (stripped, hint, col) => .ok (.append id stripped hint col)

/-- `decode_txn_append` (frame.rs:427-444) with `DynRowMode::from_u8` (frame.rs:76-82). -/
def decodeAppend (c : Ipc (Batch A)) (p : Bytes) : Except WErr (Event A) :=
  if p.length < 16 then .error .size
  else
    let id := BitVec.ofNat 64 (fromLe (slice p 0 8))
    let mode := (p.getD 8 0).toNat
    let rowMode := (p.getD 9 0).toNat
    if rowMode > 1 then .error .rowMode
    else if mode = 0 then decodeDynAppend c id (rowMode == 1) (p.drop 16)
    else if mode = 1 then .error .unimplemented
    else .error .appendMode

/-- `decode_frame` (frame.rs:406-425, 498-529). -/
def decodeFrame (c : Ipc (Batch A)) (t : FrameType) (p : Bytes) : Except WErr (Event A) :=
  match t with
  | .txnBegin => if p.length ≠ 8 then .error .size else .ok (.begin (BitVec.ofNat 64 (fromLe p)))
  | .txnAppend => decodeAppend c p
  | .txnCommit =>
    if p.length ≠ 16 then .error .size
    else .ok (.commit (BitVec.ofNat 64 (fromLe (slice p 0 8))) (BitVec.ofNat 64 (fromLe (slice p 8 16))))
  | .txnAbort => if p.length ≠ 8 then .error .size else .ok (.abort (BitVec.ofNat 64 (fromLe p)))
  | .sealMarker => if p.isEmpty then .ok .sealMarker else .error .size
  | .typedAppend => .error .unimplemented

end Tonbo.Model.Wal
