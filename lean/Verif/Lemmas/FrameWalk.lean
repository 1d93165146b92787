import Verif.Lemmas.Crc

/-!
# Encoding and decoding one frame, and walking over a byte string
-/

namespace Tonbo.Lemmas.FrameWalk
open Tonbo.Model.Wal Tonbo.Spec

theorem leBytes_len (n v : Nat) : (leBytes n v).length = n := by
  induction n generalizing v with
  | zero => rfl
  | succ n ih => simp [leBytes, ih]

theorem fromLe_leBytes (n v : Nat) : fromLe (leBytes n v) = v % 256 ^ n := by
  induction n generalizing v with
  | zero => simp [leBytes, fromLe, Nat.mod_one]
  | succ n ih =>
    simp only [leBytes, fromLe, ih, BitVec.toNat_ofNat]
    rw [show (256 : Nat) ^ (n + 1) = 256 * 256 ^ n by rw [Nat.pow_succ, Nat.mul_comm], Nat.mod_mul]

theorem fromLe_lt (bs : Bytes) : fromLe bs < 256 ^ bs.length := by
  induction bs with
  | nil => simp [fromLe]
  | cons b bs ih =>
    simp only [fromLe, List.length_cons, Nat.pow_succ]
    have := b.isLt
    omega

theorem leBytes_fromLe (bs : Bytes) : leBytes bs.length (fromLe bs) = bs := by
  induction bs with
  | nil => rfl
  | cons b bs ih =>
    have hb := b.isLt
    have e1 : (b.toNat + 256 * fromLe bs) / 256 = fromLe bs := by omega
    simp only [List.length_cons, leBytes, fromLe, e1, ih]
    congr 1
    apply BitVec.eq_of_toNat_eq
    simp only [BitVec.toNat_ofNat]
    omega

theorem fromLe_inj {a b : Bytes} (hl : a.length = b.length) (h : fromLe a = fromLe b) : a = b := by
  rw [← leBytes_fromLe a, ← leBytes_fromLe b, hl, h]

/-- `decode_from` in terms of the header's fields. -/
def decodeFields (m v t s l c : Nat) (rest : Bytes) : Except WErr (Header × Bytes) :=
  if m ≠ frameMagic then .error .magic
  else if v ≠ frameVersion then .error .version
  else
    match FrameType.ofCode t with
    | none => .error .frameType
    | some ty =>
      if BitVec.ofNat 64 s = 0 then .error .seqZero
      else if rest.length < (BitVec.ofNat 32 l).toNat then .error .payloadTruncated
      else if crc32c (rest.take (BitVec.ofNat 32 l).toNat) ≠ BitVec.ofNat 32 c then .error .crc
      else .ok (⟨ty, BitVec.ofNat 64 s, BitVec.ofNat 32 l, BitVec.ofNat 32 c⟩,
        rest.drop (BitVec.ofNat 32 l).toNat)

theorem decode_parts {m v t s l c : Bytes} (rest : Bytes) (hm : m.length = 4) (hv : v.length = 2)
    (ht : t.length = 2) (hs : s.length = 8) (hl : l.length = 4) (hc : c.length = 4) :
    decodeFrom (m ++ v ++ t ++ s ++ l ++ c ++ rest) =
      decodeFields (fromLe m) (fromLe v) (fromLe t) (fromLe s) (fromLe l) (fromLe c) rest := by
  match m, hm with
  | [_, _, _, _], _ =>
  match v, hv with
  | [_, _], _ =>
  match t, ht with
  | [_, _], _ =>
  match s, hs with
  | [_, _, _, _, _, _, _, _], _ =>
  match l, hl with
  | [_, _, _, _], _ =>
  match c, hc with
  | [_, _, _, _], _ =>
    unfold decodeFrom decodeFields
    rw [if_neg (by simp [headerSize])]
    rfl

theorem ofCode_code (t : FrameType) : FrameType.ofCode t.code = some t := by cases t <;> rfl

theorem code_of_ofCode {n : Nat} {t : FrameType} (h : FrameType.ofCode n = some t) : t.code = n := by
  unfold FrameType.ofCode at h
  split at h <;> first | (cases h; rfl) | cases h

theorem bytes_eq (t : FrameType) (p : Bytes) (seq : BitVec 64) (rest : Bytes) :
    Frame.bytes ⟨t, p⟩ seq ++ rest =
      leBytes 4 frameMagic ++ leBytes 2 frameVersion ++ leBytes 2 t.code ++ leBytes 8 seq.toNat
        ++ leBytes 4 (BitVec.ofNat 32 p.length).toNat ++ leBytes 4 (crc32c p).toNat ++ (p ++ rest) := by
  simp only [Frame.bytes, Header.encode, Header.new, List.append_assoc]

theorem bytes_len (t : FrameType) (p : Bytes) (seq : BitVec 64) :
    (Frame.bytes ⟨t, p⟩ seq).length = 24 + p.length := by
  simp only [Frame.bytes, Header.encode, List.length_append, leBytes_len]

/-- What follows the header of an encoded frame decides: any bytes `body` behind it. -/
theorem decode_header (t : FrameType) (p : Bytes) (seq : BitVec 64) (body : Bytes) (hs : seq ≠ 0) :
    decodeFrom ((Header.new seq t p).encode ++ body) =
      if body.length < (BitVec.ofNat 32 p.length).toNat then .error .payloadTruncated
      else if crc32c (body.take (BitVec.ofNat 32 p.length).toNat) ≠ crc32c p then .error .crc
      else .ok (Header.new seq t p, body.drop (BitVec.ofNat 32 p.length).toNat) := by
  have := decode_parts (m := leBytes 4 frameMagic) (v := leBytes 2 frameVersion)
    (t := leBytes 2 t.code) (s := leBytes 8 seq.toNat)
    (l := leBytes 4 (BitVec.ofNat 32 p.length).toNat) (c := leBytes 4 (crc32c p).toNat) body
    (leBytes_len _ _) (leBytes_len _ _) (leBytes_len _ _) (leBytes_len _ _) (leBytes_len _ _)
    (leBytes_len _ _)
  simp only [Header.encode, Header.new] at this ⊢
  rw [this]
  simp only [fromLe_leBytes]
  have h1 : frameMagic % 256 ^ 4 = frameMagic := by decide
  have h2 : frameVersion % 256 ^ 2 = frameVersion := by decide
  have h3 : t.code % 256 ^ 2 = t.code := by cases t <;> rfl
  have h4 : seq.toNat % 256 ^ 8 = seq.toNat := Nat.mod_eq_of_lt seq.isLt
  have h5 : (BitVec.ofNat 32 p.length).toNat % 256 ^ 4 = (BitVec.ofNat 32 p.length).toNat :=
    Nat.mod_eq_of_lt (BitVec.ofNat 32 p.length).isLt
  have h6 : (crc32c p).toNat % 256 ^ 4 = (crc32c p).toNat := Nat.mod_eq_of_lt (crc32c p).isLt
  rw [h1, h2, h3, h4, h5, h6]
  simp only [decodeFields, ofCode_code, BitVec.ofNat_toNat, BitVec.setWidth_eq]
  simp only [ne_eq, not_true_eq_false, if_false, hs]

theorem len_small {p : Bytes} (hp : p.length < 4294967296) : (BitVec.ofNat 32 p.length).toNat = p.length := by
  simp only [BitVec.toNat_ofNat]
  exact Nat.mod_eq_of_lt hp

theorem decode_bytes (t : FrameType) (p : Bytes) (seq : BitVec 64) (rest : Bytes) (hs : seq ≠ 0)
    (hp : p.length < 4294967296) :
    decodeFrom (Frame.bytes ⟨t, p⟩ seq ++ rest) = .ok (Header.new seq t p, rest) := by
  unfold Frame.bytes
  rw [List.append_assoc, decode_header t p seq _ hs, len_small hp]
  simp

/-- A proper prefix of a frame is recognised as truncated. -/
theorem decode_cut (t : FrameType) (p : Bytes) (seq : BitVec 64) (n : Nat) (hs : seq ≠ 0)
    (hp : p.length < 4294967296) (hn : n < 24 + p.length) :
    ∃ e : WErr, e.isTruncation = true ∧ decodeFrom ((Frame.bytes ⟨t, p⟩ seq).take n) = .error e := by
  by_cases h : n < 24
  · refine ⟨.headerTruncated, rfl, ?_⟩
    unfold decodeFrom
    rw [if_pos]
    rw [List.length_take, bytes_len]
    simp only [headerSize]; omega
  · refine ⟨.payloadTruncated, rfl, ?_⟩
    have hl : (Header.new seq t p).encode.length = 24 := by
      simp only [Header.encode, List.length_append, leBytes_len]
    unfold Frame.bytes
    simp only
    rw [List.take_append, hl, List.take_of_length_le (by omega), decode_header t p seq _ hs, if_pos]
    rw [len_small hp, List.length_take]
    omega

theorem bytes_cons (t : FrameType) (p : Bytes) (seq : BitVec 64) :
    ∃ (b : Byte) (bs : Bytes), Frame.bytes ⟨t, p⟩ seq = b :: bs := ⟨_, _, rfl⟩

theorem payload_slice (t : FrameType) (p : Bytes) (seq : BitVec 64) (rest : Bytes)
    (hp : p.length < 4294967296) :
    ((Frame.bytes ⟨t, p⟩ seq ++ rest).drop headerSize).take (Header.new seq t p).len.toNat = p := by
  have hl : (Header.new seq t p).encode.length = 24 := by
    simp only [Header.encode, List.length_append, leBytes_len]
  unfold Frame.bytes
  simp only
  rw [List.append_assoc, List.drop_append, show headerSize = 24 from rfl, hl,
    List.drop_eq_nil_of_le (by omega)]
  simp only [Header.new, len_small hp]
  simp

variable {σ : Type} (visit : σ → Header → Bytes → Except WErr (Option σ))

theorem walk_nil (fuel : Nat) (st : σ) : walk visit fuel st [] = .ok (st, none) := by
  cases fuel <;> rfl

theorem walk_frame (fuel : Nat) (st : σ) (t : FrameType) (p : Bytes) (seq : BitVec 64) (rest : Bytes)
    (hs : seq ≠ 0) (hp : p.length < 4294967296) :
    walk visit (fuel + 1) st (Frame.bytes ⟨t, p⟩ seq ++ rest) =
      match visit st (Header.new seq t p) p with
      | .error e => .error e
      | .ok none => .ok (st, some .payloadTruncated)
      | .ok (some st') => walk visit fuel st' rest := by
  have hd := decode_bytes t p seq rest hs hp
  have hq := payload_slice t p seq rest hp
  obtain ⟨b, bs, hb⟩ := bytes_cons t p seq
  rw [hb, List.cons_append] at hd hq ⊢
  simp only [walk, hd, hq]
  cases visit st (Header.new seq t p) p with
  | error e => rfl
  | ok o => cases o <;> rfl

/-- Running a visitor over decoded frames; `tail` is what is reported when they are all accepted. -/
def visitAll (tail : Option WErr) : σ → List RawFrame → Except WErr (σ × Option WErr)
  | st, [] => .ok (st, tail)
  | st, (t, seq, p) :: fs =>
    match visit st (Header.new seq t p) p with
    | .error e => .error e
    | .ok none => .ok (st, some .payloadTruncated)
    | .ok (some st') => visitAll tail st' fs

/-- Reading the first `n` bytes of a log visits exactly the complete frames. -/
theorem walk_cut : ∀ (fs : List RawFrame) (n fuel : Nat), WellFormed fs → fs.length ≤ fuel →
    ∃ tail : Option WErr, (∀ e, tail = some e → e.isTruncation = true) ∧
      (tail = none ↔ (logBytes fs).take n = logBytes (framesWithin n fs)) ∧
      ∀ st : σ, walk visit fuel st ((logBytes fs).take n) = visitAll visit tail st (framesWithin n fs)
  | [], n, fuel, _, _ => by
    refine ⟨none, by simp, by simp [logBytes, framesWithin], fun st => ?_⟩
    simp only [logBytes, List.take_nil, walk_nil, framesWithin, visitAll]
  | (t, seq, p) :: fs, n, fuel, hw, hf => by
    obtain ⟨hs, hp⟩ := hw _ (by simp : (t, seq, p) ∈ (t, seq, p) :: fs)
    simp only at hs hp
    obtain ⟨fuel, rfl⟩ : ∃ k, fuel = k + 1 := ⟨fuel - 1, by simp at hf; omega⟩
    by_cases h : 24 + p.length ≤ n
    · obtain ⟨tail, h1, h2, h3⟩ := walk_cut fs (n - (24 + p.length)) fuel
        (fun f hf => hw f (by simp [hf])) (by simp at hf; omega)
      have e : (logBytes ((t, seq, p) :: fs)).take n
          = Frame.bytes ⟨t, p⟩ seq ++ (logBytes fs).take (n - (24 + p.length)) := by
        simp only [logBytes]
        rw [List.take_append, bytes_len, List.take_of_length_le (by rw [bytes_len]; omega)]
      refine ⟨tail, h1, ?_, fun st => ?_⟩
      · rw [h2, e]
        simp only [framesWithin, if_pos h, logBytes, List.append_cancel_left_eq]
      · rw [e, walk_frame visit fuel st t p seq _ hs hp]
        simp only [framesWithin, if_pos h, visitAll]
        cases visit st (Header.new seq t p) p with
        | error e => rfl
        | ok o =>
          cases o with
          | none => rfl
          | some st' => exact h3 st'
    · have e : (logBytes ((t, seq, p) :: fs)).take n = (Frame.bytes ⟨t, p⟩ seq).take n := by
        simp only [logBytes]
        rw [List.take_append, bytes_len, show n - (24 + p.length) = 0 by omega]
        simp
      rw [e]
      simp only [framesWithin, if_neg h, visitAll, logBytes]
      clear e
      cases n with
      | zero => exact ⟨none, by simp, by simp, fun st => by simp [walk_nil]⟩
      | succ n =>
        obtain ⟨er, h1, h2⟩ := decode_cut t p seq (n + 1) hs hp (by omega)
        obtain ⟨b, bs, hb⟩ := bytes_cons t p seq
        refine ⟨some er, by simpa using h1, by simp [hb], fun st => ?_⟩
        rw [hb, List.take_succ_cons] at h2 ⊢
        simp only [walk, h2, h1, if_true]

theorem framesWithin_all : ∀ (fs : List RawFrame), framesWithin (logBytes fs).length fs = fs
  | [] => rfl
  | (t, seq, p) :: fs => by
    simp only [framesWithin, logBytes, List.length_append, bytes_len]
    rw [if_pos (by omega), Nat.add_sub_cancel_left, framesWithin_all fs]

theorem framesWithin_prefix : ∀ (n : Nat) (fs : List RawFrame), framesWithin n fs <+: fs
  | _, [] => List.prefix_refl _
  | n, (t, seq, p) :: fs => by
    simp only [framesWithin]
    by_cases h : 24 + p.length ≤ n
    · rw [if_pos h]
      exact (List.cons_prefix_cons).2 ⟨rfl, framesWithin_prefix _ fs⟩
    · rw [if_neg h]; exact List.nil_prefix

theorem log_len_ge (fs : List RawFrame) : fs.length ≤ (logBytes fs).length := by
  induction fs with
  | nil => simp [logBytes]
  | cons f fs ih =>
    obtain ⟨t, seq, p⟩ := f
    simp only [logBytes, List.length_append, bytes_len, List.length_cons]; omega

/-- A successful decode leaves strictly fewer bytes. -/
theorem decode_shorter {bs : Bytes} {h : Header} {r : Bytes} (hd : decodeFrom bs = .ok (h, r)) :
    r.length + 24 ≤ bs.length := by
  unfold decodeFrom at hd
  split at hd
  · cases hd
  · rename_i h1
    simp only at hd
    split at hd
    · cases hd
    · split at hd
      · cases hd
      · split at hd
        · cases hd
        · split at hd
          · cases hd
          · split at hd
            · cases hd
            · split at hd
              · cases hd
              · cases hd
                simp only [headerSize, Nat.not_lt, List.length_drop] at h1 ⊢
                omega

/-- More fuel changes nothing. -/
theorem walk_fuel : ∀ (f1 f2 : Nat) (st : σ) (data : Bytes), data.length ≤ f1 → data.length ≤ f2 →
    walk visit f1 st data = walk visit f2 st data
  | f1, f2, st, [], _, _ => by rw [walk_nil, walk_nil]
  | 0, _, _, _ :: _, h, _ => by simp at h
  | _, 0, _, _ :: _, _, h => by simp at h
  | f1 + 1, f2 + 1, st, b :: bs, h1, h2 => by
    simp only [walk]
    cases hd : decodeFrom (b :: bs) with
    | error e => rfl
    | ok hr =>
      obtain ⟨hh, r⟩ := hr
      simp only
      cases visit st hh (((b :: bs).drop headerSize).take hh.len.toNat) with
      | error e => rfl
      | ok o =>
        cases o with
        | none => rfl
        | some st' =>
          have := decode_shorter hd
          exact walk_fuel f1 f2 st' r (by simp at *; omega) (by simp at *; omega)

theorem decode_not_fuel (bs : Bytes) : decodeFrom bs ≠ .error .fuel := by
  unfold decodeFrom
  intro h
  split at h
  · cases h
  · simp only at h
    split at h
    · cases h
    · split at h
      · cases h
      · split at h
        · cases h
        · split at h
          · cases h
          · split at h
            · cases h
            · split at h
              · cases h
              · cases h

/-- The loop never runs out of fuel. -/
theorem walk_not_fuel (hv : ∀ st h p, visit st h p ≠ .error .fuel) :
    ∀ (f : Nat) (st : σ) (data : Bytes), data.length ≤ f → walk visit f st data ≠ .error .fuel
  | f, st, [], _ => by rw [walk_nil]; intro h; cases h
  | 0, _, _ :: _, h => by simp at h
  | f + 1, st, b :: bs, h1 => by
    simp only [walk]
    cases hd : decodeFrom (b :: bs) with
    | error e =>
      have := decode_not_fuel (b :: bs)
      rw [hd] at this
      simp only
      split
      · intro h; cases h
      · intro h; cases h; exact this rfl
    | ok hr =>
      obtain ⟨hh, r⟩ := hr
      simp only
      have hvv := hv st hh (((b :: bs).drop headerSize).take hh.len.toNat)
      cases hvx : visit st hh (((b :: bs).drop headerSize).take hh.len.toNat) with
      | error e => rw [hvx] at hvv; intro h; cases h; exact hvv rfl
      | ok o =>
        cases o with
        | none => intro h; cases h
        | some st' =>
          have := decode_shorter hd
          exact walk_not_fuel hv f st' r (by simp at *; omega)

end Tonbo.Lemmas.FrameWalk
