/-!
# WAL frames  (src/wal/frame.rs)

A byte is a `BitVec 8`, a byte string a list of bytes. `u16`, `u32` and `u64` fields are bit vectors
of that width, so every truncation the code performs is performed here too. `crc32c` is the external
crate's function, modelled as the standard CRC-32C (Castagnoli, reflected, initial value and final
xor all ones), bit by bit. `usize` is unbounded (the code runs on 64-bit targets).
-/

namespace Tonbo.Model.Wal

deriving instance DecidableEq for Except

abbrev Byte := BitVec 8
abbrev Bytes := List Byte

/-- `to_le_bytes` of an `n`-byte integer (used at frame.rs:225-230, 371, 392-393, 398, 402). -/
def leBytes : Nat → Nat → Bytes
  | 0, _ => []
  | n + 1, v => BitVec.ofNat 8 v :: leBytes n (v / 256)

/-- `from_le_bytes` (used at frame.rs:242, 249, 256, 263, 270, 274, 423, 434, 506-507, 520). -/
def fromLe : Bytes → Nat
  | [] => 0
  | b :: bs => b.toNat + 256 * fromLe bs

/-! ## CRC-32C (external crate `crc32c`, called at frame.rs:219 and 282) -/

/-- The reflected Castagnoli polynomial. -/
def crcPoly : BitVec 32 := 0x82F63B78#32

/-- One shift of the CRC register. -/
def crcShift (x : BitVec 32) : BitVec 32 :=
  (x >>> 1) ^^^ (if x.getLsbD 0 then crcPoly else 0#32)

/-- Feed one message bit. -/
def crcBit (s : BitVec 32) (b : Bool) : BitVec 32 :=
  crcShift (s ^^^ (if b then 1#32 else 0#32))

/-- The bits of one byte, least significant first. -/
def byteBits (b : Byte) : List Bool :=
  [b.getLsbD 0, b.getLsbD 1, b.getLsbD 2, b.getLsbD 3,
   b.getLsbD 4, b.getLsbD 5, b.getLsbD 6, b.getLsbD 7]

/-- `crc32c(payload)` (frame.rs:219, 282). -/
def crc32c (p : Bytes) : BitVec 32 :=
  ((p.flatMap byteBits).foldl crcBit 0xFFFFFFFF#32) ^^^ 0xFFFFFFFF#32

/-! ## Header -/

/-- `FRAME_MAGIC` (frame.rs:24). -/
def frameMagic : Nat := 0x544F4E51

/-- `FRAME_VERSION` (frame.rs:20). -/
def frameVersion : Nat := 1

/-- `INITIAL_FRAME_SEQ` (frame.rs:31). -/
def initialFrameSeq : Nat := 1

/-- `FRAME_HEADER_SIZE` (frame.rs:34-43): 4 + 2 + 2 + 8 + 4 + 4. -/
def headerSize : Nat := 24

/-- `FrameType` (frame.rs:133-146). -/
inductive FrameType where
  | txnBegin | txnAppend | txnCommit | txnAbort | sealMarker | typedAppend
deriving Repr, DecidableEq

/-- `FrameType::as_u16` (frame.rs:150-159). -/
def FrameType.code : FrameType → Nat
  | .txnBegin => 0
  | .txnAppend => 1
  | .txnCommit => 2
  | .txnAbort => 3
  | .sealMarker => 4
  | .typedAppend => 5

/-- `FrameType::try_from` (frame.rs:171-181). -/
def FrameType.ofCode : Nat → Option FrameType
  | 0 => some .txnBegin
  | 1 => some .txnAppend
  | 2 => some .txnCommit
  | 3 => some .txnAbort
  | 4 => some .sealMarker
  | 5 => some .typedAppend
  | _ => none

/-- Why decoding fails: the `WalError` values of frame.rs:235-283, 76-82 and 406-568. `codec` covers
all `WalError::Codec` messages; `fuel` is never returned (`Lemmas/FrameWalk.lean`). -/
inductive WErr where
  | headerTruncated | magic | version | frameType | seqZero | payloadTruncated | crc
  | size | rowMode | appendMode | unimplemented | codec | fuel
deriving Repr, DecidableEq

/-- `FrameHeader` (frame.rs:186-207) without the constant magic and version. -/
structure Header where
  type : FrameType
  seq : BitVec 64
  len : BitVec 32
  crc : BitVec 32
deriving Repr, DecidableEq

/-- `Frame` (frame.rs:87-90). -/
structure Frame where
  type : FrameType
  payload : Bytes
deriving Repr, DecidableEq

/-- `FrameHeader::new` (frame.rs:211-221). `payload.len() as u32` keeps the low 32 bits. -/
def Header.new (seq : BitVec 64) (t : FrameType) (payload : Bytes) : Header :=
  ⟨t, seq, BitVec.ofNat 32 payload.length, crc32c payload⟩

/-- `FrameHeader::encode_into` (frame.rs:224-231). -/
def Header.encode (h : Header) : Bytes :=
  leBytes 4 frameMagic ++ leBytes 2 frameVersion ++ leBytes 2 h.type.code
    ++ leBytes 8 h.seq.toNat ++ leBytes 4 h.len.toNat ++ leBytes 4 h.crc.toNat

/-- `Frame::into_bytes` (frame.rs:122-128). -/
def Frame.bytes (f : Frame) (seq : BitVec 64) : Bytes :=
  (Header.new seq f.type f.payload).encode ++ f.payload

/-- A slice `bytes[a..b]` of a header. -/
def slice (bs : Bytes) (a b : Nat) : Bytes := (bs.drop a).take (b - a)

/-- `FrameHeader::decode_from` (frame.rs:234-296): the header and the bytes after the payload. -/
def decodeFrom (bytes : Bytes) : Except WErr (Header × Bytes) :=
  if bytes.length < headerSize then .error .headerTruncated
  else
    let hb := bytes.take headerSize
    let rest := bytes.drop headerSize
    if fromLe (slice hb 0 4) ≠ frameMagic then .error .magic
    else if fromLe (slice hb 4 6) ≠ frameVersion then .error .version
    else
      match FrameType.ofCode (fromLe (slice hb 6 8)) with
      | none => .error .frameType
      | some t =>
        let seq := BitVec.ofNat 64 (fromLe (slice hb 8 16))
        if seq = 0 then .error .seqZero
        else
          let len := BitVec.ofNat 32 (fromLe (slice hb 16 20))
          let crc := BitVec.ofNat 32 (fromLe (slice hb 20 24))
          if rest.length < len.toNat then .error .payloadTruncated
          else if crc32c (rest.take len.toNat) ≠ crc then .error .crc
          else .ok (⟨t, seq, len, crc⟩, rest.drop len.toNat)

/-! ## Reading a byte string frame by frame -/

/-- The two reasons treated as the end of the log (replay.rs:140-142, storage.rs:341-343). -/
def WErr.isTruncation : WErr → Bool
  | .headerTruncated => true
  | .payloadTruncated => true
  | _ => false

/-- The loop shared by `scan_with_floor` (replay.rs:133-178), `scan_tail` (storage.rs:334-380) and
`decode_frame_bounds` (storage.rs:541-548): decode a header, hand header and payload to `visit`, go
on behind the payload. `visit` may fail or ask to stop (`none`). The second component tells why the
loop ended before the end of the data, if it did. The explicit check `payload_end > data.len()`
(replay.rs:161-163, storage.rs:353-356) can never succeed after `decode_from`; it is left out. -/
def walk {σ : Type} (visit : σ → Header → Bytes → Except WErr (Option σ)) :
    Nat → σ → Bytes → Except WErr (σ × Option WErr)
  | _, st, [] => .ok (st, none)
  | 0, _, _ :: _ => .error .fuel
  | fuel + 1, st, b :: bs =>
    match decodeFrom (b :: bs) with
    | .error e => if e.isTruncation then .ok (st, some e) else .error e
    | .ok (h, rest) =>
      match visit st h (((b :: bs).drop headerSize).take h.len.toNat) with
      | .error e => .error e
      | .ok none => .ok (st, some .payloadTruncated)
      | .ok (some st') => walk visit fuel st' rest

/-- One decoded frame: type, sequence number and payload. -/
abbrev RawFrame := FrameType × BitVec 64 × Bytes

/-- Collect all frames of a byte string: `walk` with a visitor that keeps everything. -/
def readLog (data : Bytes) : Except WErr (List RawFrame × Option WErr) :=
  walk (fun acc h p => .ok (some (acc ++ [(h.type, h.seq, p)]))) data.length [] data

end Tonbo.Model.Wal
