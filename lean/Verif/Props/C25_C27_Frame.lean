import Verif.Lemmas.FrameWalk

/-!
# C25: frames round-trip. C26: a torn log decodes to a prefix. C27: corruption is detected
-/

namespace Tonbo.Props.C25
open Tonbo.Model.Wal Tonbo.Spec Tonbo.Lemmas.FrameWalk

/-- **C25, one frame.** Missing: payloads of 4 GiB and more (see `long_payload_does_not_round_trip`). -/
theorem frame_round_trip_partial (t : FrameType) (p : Bytes) (seq : BitVec 64) (rest : Bytes)
    (hs : seq ≠ 0) (hp : p.length < 4294967296) :
    decodeFrom (Frame.bytes ⟨t, p⟩ seq ++ rest)
      = .ok (⟨t, seq, BitVec.ofNat 32 p.length, crc32c p⟩, rest)
    ∧ ((Frame.bytes ⟨t, p⟩ seq ++ rest).drop 24).take p.length = p := by
  refine ⟨decode_bytes t p seq rest hs hp, ?_⟩
  have := payload_slice t p seq rest hp
  simpa only [Header.new, len_small hp, headerSize] using this

theorem visitAll_collect (tail : Option WErr) : ∀ (fs acc : List RawFrame),
    visitAll (fun (acc : List RawFrame) h p => .ok (some (acc ++ [(h.type, h.seq, p)]))) tail acc fs
      = .ok (acc ++ fs, tail)
  | [], acc => by simp [visitAll]
  | (t, seq, p) :: fs, acc => by
    simp only [visitAll, visitAll_collect tail fs, Header.new, List.append_assoc, List.cons_append,
      List.nil_append]

/-- **C25, a whole log.** Missing: payloads of 4 GiB and more. -/
theorem log_round_trip_partial (fs : List RawFrame) (hw : WellFormed fs) :
    readLog (logBytes fs) = .ok (fs, none) := by
  obtain ⟨tail, _, h2, h3⟩ := walk_cut
    (fun (acc : List RawFrame) h p => .ok (some (acc ++ [(h.type, h.seq, p)]))) fs
    (logBytes fs).length (logBytes fs).length hw (log_len_ge fs)
  have ht := h2.2 (by rw [framesWithin_all, List.take_length])
  subst ht
  have := h3 []
  rw [List.take_length, framesWithin_all, visitAll_collect] at this
  simpa [readLog] using this

/-- Different logs have different bytes. -/
theorem encoding_is_injective_partial (fs gs : List RawFrame) (hf : WellFormed fs) (hg : WellFormed gs)
    (h : logBytes fs = logBytes gs) : fs = gs := by
  have h1 := log_round_trip_partial fs hf
  rw [h, log_round_trip_partial gs hg] at h1
  cases h1; rfl

/-- **C25 fails for payloads of 4 GiB and more:** the stored length is cut to 32 bits, so decoding
fails or swallows a part of the payload as if it were the next frame. -/
theorem long_payload_does_not_round_trip (t : FrameType) (p : Bytes) (seq : BitVec 64) (rest : Bytes)
    (hp : 4294967296 ≤ p.length) (h : Header) (r : Bytes) :
    decodeFrom (Frame.bytes ⟨t, p⟩ seq ++ rest) = .ok (h, r) → r ≠ rest := by
  intro hd hr
  by_cases hs : seq = 0
  · subst hs
    rw [bytes_eq, decode_parts _ (leBytes_len _ _) (leBytes_len _ _) (leBytes_len _ _) (leBytes_len _ _)
      (leBytes_len _ _) (leBytes_len _ _)] at hd
    simp only [fromLe_leBytes] at hd
    have h1 : frameMagic % 256 ^ 4 = frameMagic := by decide
    have h2 : frameVersion % 256 ^ 2 = frameVersion := by decide
    have h3 : t.code % 256 ^ 2 = t.code := by cases t <;> rfl
    rw [h1, h2, h3] at hd
    simp [decodeFields, ofCode_code] at hd
  · unfold Frame.bytes at hd
    rw [List.append_assoc, decode_header t p seq _ hs] at hd
    split at hd
    · cases hd
    · split at hd
      · cases hd
      · cases hd
        have := congrArg List.length hr
        simp only [List.length_drop, List.length_append] at this
        have hlt := (BitVec.ofNat 32 p.length).isLt
        omega

/-- A frame numbered zero is never accepted. -/
theorem zero_sequence_is_refused (t : FrameType) (p rest : Bytes) :
    decodeFrom (Frame.bytes ⟨t, p⟩ 0 ++ rest) = .error .seqZero := by
  rw [bytes_eq, decode_parts _ (leBytes_len _ _) (leBytes_len _ _) (leBytes_len _ _) (leBytes_len _ _)
    (leBytes_len _ _) (leBytes_len _ _)]
  simp only [fromLe_leBytes]
  have h1 : frameMagic % 256 ^ 4 = frameMagic := by decide
  have h2 : frameVersion % 256 ^ 2 = frameVersion := by decide
  have h3 : t.code % 256 ^ 2 = t.code := by cases t <;> rfl
  rw [h1, h2, h3]
  simp [decodeFields, ofCode_code]

/-- The model's CRC gives the published check value of CRC-32C for the ASCII digits 1 to 9. -/
example : crc32c [0x31, 0x32, 0x33, 0x34, 0x35, 0x36, 0x37, 0x38, 0x39] = 0xE3069283#32 := by decide +kernel

/-- The hypotheses are met by a log of two frames, and reading it back works. -/
example : WellFormed [(.txnBegin, 1, [7, 0, 0, 0, 0, 0, 0, 0]), (.sealMarker, 2, [])]
    ∧ readLog (logBytes [(.txnBegin, 1, [7, 0, 0, 0, 0, 0, 0, 0]), (.sealMarker, 2, [])])
      = .ok ([(.txnBegin, 1, [7, 0, 0, 0, 0, 0, 0, 0]), (.sealMarker, 2, [])], none) := by
  refine ⟨?_, by decide +kernel⟩
  intro f hf
  rcases List.mem_cons.1 hf with rfl | hf
  · decide
  · rcases List.mem_cons.1 hf with rfl | hf
    · decide
    · cases hf

/-- Payloads of 4 GiB exist. -/
example : 4294967296 ≤ (List.replicate 4294967296 (0 : Byte)).length := by
  rw [List.length_replicate]

end Tonbo.Props.C25

namespace Tonbo.Props.C26
open Tonbo.Model.Wal Tonbo.Spec Tonbo.Lemmas.FrameWalk

/-- **C26.** Cutting the bytes of a log anywhere yields exactly the frames written completely before
the cut. The reader reports a torn tail exactly if the cut is not at the end of a frame.
Missing: payloads of 4 GiB and more. -/
theorem torn_log_is_a_prefix_partial (fs : List RawFrame) (hw : WellFormed fs) (n : Nat) :
    ∃ tail : Option WErr,
      readLog ((logBytes fs).take n) = .ok (framesWithin n fs, tail)
      ∧ framesWithin n fs <+: fs
      ∧ (∀ e, tail = some e → e = .headerTruncated ∨ e = .payloadTruncated)
      ∧ (tail = none ↔ (logBytes fs).take n = logBytes (framesWithin n fs)) := by
  by_cases hn : n ≤ (logBytes fs).length
  · obtain ⟨tail, h1, h2, h3⟩ := walk_cut
      (fun (acc : List RawFrame) h p => .ok (some (acc ++ [(h.type, h.seq, p)]))) fs
      n (max n fs.length) hw (by omega)
    refine ⟨tail, ?_, framesWithin_prefix n fs, ?_, h2⟩
    · have := h3 []
      rw [C25.visitAll_collect] at this
      unfold readLog
      rw [walk_fuel _ _ (max n fs.length) _ _ (Nat.le_refl _) (by rw [List.length_take]; omega), this]
      rfl
    · intro e he
      have := h1 e he
      cases e <;> first | exact Or.inl rfl | exact Or.inr rfl | cases this
  · refine ⟨none, ?_, framesWithin_prefix n fs, by simp, ?_⟩
    · rw [List.take_of_length_le (by omega), C25.log_round_trip_partial fs hw]
      congr 2
      have : ∀ (fs : List RawFrame) (n : Nat), (logBytes fs).length ≤ n → framesWithin n fs = fs := by
        intro fs
        induction fs with
        | nil => intros; rfl
        | cons f fs ih =>
          obtain ⟨t, seq, p⟩ := f
          intro n hn
          simp only [logBytes, List.length_append, bytes_len] at hn
          simp only [framesWithin]
          rw [if_pos (by omega), ih _ (by omega)]
      exact (this fs n (by omega)).symm
    · have : ∀ (fs : List RawFrame) (n : Nat), (logBytes fs).length ≤ n → framesWithin n fs = fs := by
        intro fs
        induction fs with
        | nil => intros; rfl
        | cons f fs ih =>
          obtain ⟨t, seq, p⟩ := f
          intro n hn
          simp only [logBytes, List.length_append, bytes_len] at hn
          simp only [framesWithin]
          rw [if_pos (by omega), ih _ (by omega)]
      simp [this fs n (by omega), List.take_of_length_le (by omega : (logBytes fs).length ≤ n)]

theorem walk_append {σ : Type} (visit : σ → Header → Bytes → Except WErr (Option σ)) (extra : Bytes) :
    ∀ (fs : List RawFrame) (fuel : Nat) (st : σ), WellFormed fs →
      (∀ st h p, ∃ st', visit st h p = .ok (some st')) →
      ∃ st', walk visit (fuel + fs.length) st (logBytes fs ++ extra) = walk visit fuel st' extra
  | [], fuel, st, _, _ => ⟨st, rfl⟩
  | (t, seq, p) :: fs, fuel, st, hw, hv => by
    obtain ⟨hs, hp⟩ := hw _ (by simp : (t, seq, p) ∈ (t, seq, p) :: fs)
    obtain ⟨s1, h1⟩ := hv st (Header.new seq t p) p
    obtain ⟨s2, h2⟩ := walk_append visit extra fs fuel s1 (fun f hf => hw f (by simp [hf])) hv
    refine ⟨s2, ?_⟩
    simp only [logBytes, List.append_assoc, List.length_cons, ← Nat.add_assoc]
    rw [walk_frame visit (fuel + fs.length) st t p seq _ hs hp, h1]
    exact h2

/-- A tail that the file system filled with zero bytes (24 or more) instead of cutting it makes the
whole log unreadable: no frame before it is returned. (The documentation of the default recovery mode
promises to stop at the first unreadable frame and to keep what came before.) -/
theorem zero_filled_tail_is_an_error (fs : List RawFrame) (hw : WellFormed fs) (k : Nat) :
    readLog (logBytes fs ++ List.replicate (24 + k) 0) = .error .magic := by
  obtain ⟨st', h⟩ := walk_append
    (fun (acc : List RawFrame) h p => .ok (some (acc ++ [(h.type, h.seq, p)])))
    (List.replicate (24 + k) 0) fs (24 + k + (logBytes fs).length) [] hw (fun st h p => ⟨_, rfl⟩)
  unfold readLog
  rw [walk_fuel _ _ (24 + k + (logBytes fs).length + fs.length) _ _ (Nat.le_refl _)
    (by simp; omega), h]
  have e : List.replicate (24 + k) (0 : Byte) = 0 :: List.replicate (23 + k) 0 := by
    rw [show 24 + k = (23 + k) + 1 by omega]; rfl
  have hd : decodeFrom (0 :: List.replicate (23 + k) (0 : Byte)) = .error .magic := by
    have e2 : (0 : Byte) :: List.replicate (23 + k) 0
        = List.replicate 4 0 ++ List.replicate 2 0 ++ List.replicate 2 0 ++ List.replicate 8 0
          ++ List.replicate 4 0 ++ List.replicate 4 0 ++ List.replicate k 0 := by
      simp only [List.replicate_append_replicate]
      rw [← e]
    rw [e2, decode_parts _ (by simp) (by simp) (by simp) (by simp) (by simp) (by simp)]
    have : fromLe (List.replicate 4 0) = 0 := by decide
    rw [this]
    simp [decodeFields, frameMagic]
  rw [e]
  have e3 : 24 + k + (logBytes fs).length = (23 + k + (logBytes fs).length) + 1 := by omega
  rw [e3]
  simp only [walk, hd]
  rfl

/-- A cut in the middle of the second frame: the first is kept. -/
example : readLog ((logBytes [(.txnBegin, 1, [7, 0, 0, 0, 0, 0, 0, 0]),
      (.txnAbort, 2, [7, 0, 0, 0, 0, 0, 0, 0])]).take 60)
    = .ok ([(.txnBegin, 1, [7, 0, 0, 0, 0, 0, 0, 0])], some .payloadTruncated)
    ∧ framesWithin 60 [(.txnBegin, 1, [7, 0, 0, 0, 0, 0, 0, 0]), (.txnAbort, 2, [7, 0, 0, 0, 0, 0, 0, 0])]
      = [(.txnBegin, 1, [7, 0, 0, 0, 0, 0, 0, 0])] := by
  decide +kernel

end Tonbo.Props.C26

namespace Tonbo.Props.C27
open Tonbo.Model.Wal Tonbo.Spec Tonbo.Lemmas.FrameWalk Tonbo.Lemmas.Crc

/-- **C27, payload.** Whatever follows: if the stored payload differs from the written one in bits that
lie within 32 consecutive bits, decoding reports a checksum mismatch. -/
theorem payload_burst_is_detected (t : FrameType) (p q rest : Bytes) (seq : BitVec 64) (hs : seq ≠ 0)
    (hp : p.length < 4294967296) (h : Burst p q) :
    decodeFrom ((Header.new seq t p).encode ++ q ++ rest) = .error .crc := by
  rw [List.append_assoc, decode_header t p seq _ hs, len_small hp]
  have hl := h.1
  rw [if_neg (by simp; omega), if_pos]
  rw [hl, List.take_left]
  exact fun hc => crc_burst h hc.symm

theorem flipOne_burst {p q : Bytes} {i : Nat} (h : FlipOne p q i) : Burst p q := by
  obtain ⟨hl, hi, hj⟩ := h
  refine ⟨hl, fun e => hi (by rw [e]), i, fun j hj' => hj j (by omega)⟩

/-- **C27, single bit.** -/
theorem payload_bit_flip_is_detected (t : FrameType) (p q rest : Bytes) (seq : BitVec 64) (i : Nat)
    (hs : seq ≠ 0) (hp : p.length < 4294967296) (h : FlipOne p q i) :
    decodeFrom ((Header.new seq t p).encode ++ q ++ rest) = .error .crc :=
  payload_burst_is_detected t p q rest seq hs hp (flipOne_burst h)

/-- Any change within four consecutive bytes is such a burst. -/
theorem four_bytes_burst (a x y b : Bytes) (hl : x.length = y.length) (h4 : x.length ≤ 4) (hne : x ≠ y) :
    Burst (a ++ x ++ b) (a ++ y ++ b) := by
  refine ⟨by simp [hl], by simpa using hne, 8 * a.length, ?_⟩
  intro i hi
  unfold bitAt
  have : (a ++ x ++ b).getD (i / 8) 0 = (a ++ y ++ b).getD (i / 8) 0 := by
    simp only [List.getD_eq_getElem?_getD]
    congr 1
    rcases hi with hi | hi
    · have : i / 8 < a.length := by omega
      rw [List.append_assoc, List.append_assoc, List.getElem?_append_left this,
        List.getElem?_append_left this]
    · have : a.length + 4 ≤ i / 8 := by omega
      rw [List.getElem?_append_right (by simp; omega), List.getElem?_append_right (by simp; omega)]
      simp [hl]
  rw [this]

/-- A header split into its fields: every byte string of at least 24 bytes is of this form. -/
theorem fields_of (bs : Bytes) (h : 24 ≤ bs.length) :
    ∃ m v t s l c rest : Bytes, m.length = 4 ∧ v.length = 2 ∧ t.length = 2 ∧ s.length = 8
      ∧ l.length = 4 ∧ c.length = 4 ∧ bs = m ++ v ++ t ++ s ++ l ++ c ++ rest := by
  refine ⟨bs.take 4, (bs.drop 4).take 2, (bs.drop 6).take 2, (bs.drop 8).take 8,
    (bs.drop 16).take 4, (bs.drop 20).take 4, bs.drop 24, ?_, ?_, ?_, ?_, ?_, ?_, ?_⟩
  · simp; omega
  · simp; omega
  · simp; omega
  · simp; omega
  · simp; omega
  · simp; omega
  · have step : ∀ a n : Nat, bs.take a ++ (bs.drop a).take n = bs.take (a + n) := by
      intro a n; rw [List.take_add]
    rw [step 4 2, step 6 2, step 8 8, step 16 4, step 20 4, List.take_append_drop]

/-- **C27, magic.** Bytes that do not start with the magic number are refused. -/
theorem wrong_magic_is_refused (bs : Bytes) (h : 24 ≤ bs.length)
    (hm : bs.take 4 ≠ leBytes 4 frameMagic) : decodeFrom bs = .error .magic := by
  obtain ⟨m, v, t, s, l, c, rest, h1, h2, h3, h4, h5, h6, rfl⟩ := fields_of bs h
  rw [decode_parts rest h1 h2 h3 h4 h5 h6]
  have e : (m ++ v ++ t ++ s ++ l ++ c ++ rest).take 4 = m := by
    simp only [List.append_assoc]; rw [List.take_left' h1]
  rw [e] at hm
  unfold decodeFields
  rw [if_pos]
  intro hc
  apply hm
  apply fromLe_inj (by rw [h1, leBytes_len])
  rw [hc, fromLe_leBytes]; rfl

/-- **C27, version.** With the right magic number, any version field but 1 is refused. -/
theorem wrong_version_is_refused (v rest : Bytes) (hv : v.length = 2) (hr : 18 ≤ rest.length)
    (hne : v ≠ leBytes 2 frameVersion) :
    decodeFrom (leBytes 4 frameMagic ++ v ++ rest) = .error .version := by
  obtain ⟨m, v', t, s, l, c, rest', h1, h2, h3, h4, h5, h6, e⟩ :=
    fields_of (leBytes 4 frameMagic ++ v ++ rest) (by simp [leBytes_len, hv]; omega)
  rw [e, decode_parts rest' h1 h2 h3 h4 h5 h6]
  simp only [List.append_assoc] at e
  obtain ⟨e1, e⟩ := List.append_inj e (by rw [leBytes_len, h1])
  obtain ⟨e2, e⟩ := List.append_inj e (by rw [hv, h2])
  subst e1 e2
  unfold decodeFields
  rw [if_neg (by rw [fromLe_leBytes]; decide), if_pos]
  intro hc
  apply hne
  apply fromLe_inj (by rw [hv, leBytes_len])
  rw [hc, fromLe_leBytes]; rfl

/-- **C27, type.** A type field that is not one of the six known numbers is refused. -/
theorem unknown_type_is_refused (t rest : Bytes) (ht : t.length = 2) (hr : 16 ≤ rest.length)
    (hne : ∀ k ≤ 5, t ≠ leBytes 2 k) :
    decodeFrom (leBytes 4 frameMagic ++ leBytes 2 frameVersion ++ t ++ rest) = .error .frameType := by
  obtain ⟨m, v', t', s, l, c, rest', h1, h2, h3, h4, h5, h6, e⟩ :=
    fields_of (leBytes 4 frameMagic ++ leBytes 2 frameVersion ++ t ++ rest)
      (by simp [leBytes_len, ht]; omega)
  rw [e, decode_parts rest' h1 h2 h3 h4 h5 h6]
  simp only [List.append_assoc] at e
  obtain ⟨e1, e⟩ := List.append_inj e (by rw [leBytes_len, h1])
  obtain ⟨e2, e⟩ := List.append_inj e (by rw [leBytes_len, h2])
  obtain ⟨e3, e⟩ := List.append_inj e (by rw [ht, h3])
  subst e1 e2 e3
  unfold decodeFields
  rw [if_neg (by rw [fromLe_leBytes]; decide), if_neg (by rw [fromLe_leBytes]; decide)]
  cases ho : FrameType.ofCode (fromLe t) with
  | none => rfl
  | some ty =>
    exfalso
    have hcode := code_of_ofCode ho
    refine hne ty.code (by cases ty <;> decide) ?_
    have hb := leBytes_fromLe t
    rw [ht, ← hcode] at hb
    exact hb.symm

/-- **C27, sequence zero.** A zero sequence field is refused. -/
theorem zero_sequence_field_is_refused (t : FrameType) (rest : Bytes) (hr : 8 ≤ rest.length) :
    decodeFrom (leBytes 4 frameMagic ++ leBytes 2 frameVersion ++ leBytes 2 t.code
      ++ List.replicate 8 0 ++ rest) = .error .seqZero := by
  obtain ⟨m, v', t', s, l, c, rest', h1, h2, h3, h4, h5, h6, e⟩ :=
    fields_of (leBytes 4 frameMagic ++ leBytes 2 frameVersion ++ leBytes 2 t.code
      ++ List.replicate 8 0 ++ rest) (by simp [leBytes_len]; omega)
  rw [e, decode_parts rest' h1 h2 h3 h4 h5 h6]
  simp only [List.append_assoc] at e
  obtain ⟨e1, e⟩ := List.append_inj e (by rw [leBytes_len, h1])
  obtain ⟨e2, e⟩ := List.append_inj e (by rw [leBytes_len, h2])
  obtain ⟨e3, e⟩ := List.append_inj e (by rw [leBytes_len, h3])
  obtain ⟨e4, e⟩ := List.append_inj e (by rw [h4]; rfl)
  subst e1 e2 e3 e4
  have hz : fromLe (List.replicate 8 0) = 0 := by decide
  have hc : fromLe (leBytes 2 t.code) = t.code := by rw [fromLe_leBytes]; cases t <;> rfl
  unfold decodeFields
  rw [if_neg (by rw [fromLe_leBytes]; decide), if_neg (by rw [fromLe_leBytes]; decide), hc, ofCode_code,
    hz]
  rfl

/-- **C27, checksum field.** A changed checksum field is refused. -/
theorem changed_checksum_is_refused (t : FrameType) (p rest c : Bytes) (seq : BitVec 64) (hs : seq ≠ 0)
    (hp : p.length < 4294967296) (hc : c.length = 4) (hne : c ≠ leBytes 4 (crc32c p).toNat) :
    decodeFrom (leBytes 4 frameMagic ++ leBytes 2 frameVersion ++ leBytes 2 t.code
      ++ leBytes 8 seq.toNat ++ leBytes 4 p.length ++ c ++ (p ++ rest)) = .error .crc := by
  rw [decode_parts _ (leBytes_len _ _) (leBytes_len _ _) (leBytes_len _ _) (leBytes_len _ _)
    (leBytes_len _ _) hc]
  simp only [fromLe_leBytes]
  have h1 : frameMagic % 256 ^ 4 = frameMagic := by decide
  have h2 : frameVersion % 256 ^ 2 = frameVersion := by decide
  have h3 : t.code % 256 ^ 2 = t.code := by cases t <;> rfl
  have h4 : seq.toNat % 256 ^ 8 = seq.toNat := Nat.mod_eq_of_lt seq.isLt
  have h5 : p.length % 256 ^ 4 = p.length := Nat.mod_eq_of_lt hp
  rw [h1, h2, h3, h4, h5]
  have hlt := fromLe_lt c
  rw [hc] at hlt
  simp only [decodeFields, ofCode_code, BitVec.ofNat_toNat, BitVec.setWidth_eq, len_small hp]
  rw [if_neg (by simp), if_neg (by simp), if_neg hs, if_neg (by simp), List.take_left, if_pos]
  intro he
  apply hne
  apply fromLe_inj (by rw [hc, leBytes_len])
  rw [fromLe_leBytes, he]
  simp only [BitVec.toNat_ofNat]
  have hk : fromLe c % 2 ^ 32 = fromLe c := Nat.mod_eq_of_lt hlt
  rw [hk]
  exact (Nat.mod_eq_of_lt hlt).symm

/-- The header's sequence number and length are not covered by the checksum. A changed (non-zero)
sequence number is accepted as if it had been written. -/
theorem changed_sequence_is_not_detected (t : FrameType) (p rest : Bytes) (seq seq' : BitVec 64)
    (hs' : seq' ≠ 0) (hp : p.length < 4294967296) :
    decodeFrom (leBytes 4 frameMagic ++ leBytes 2 frameVersion ++ leBytes 2 t.code
      ++ leBytes 8 seq'.toNat ++ leBytes 4 (BitVec.ofNat 32 p.length).toNat ++ leBytes 4 (crc32c p).toNat
      ++ (p ++ rest)) = .ok (Header.new seq' t p, rest)
    ∧ (seq ≠ seq' → Header.new seq' t p ≠ Header.new seq t p) := by
  refine ⟨?_, fun h e => h (by simpa [Header.new] using (congrArg Header.seq e).symm)⟩
  rw [← bytes_eq, decode_bytes t p seq' rest hs' hp]

/-- A length field that was changed to more than what follows looks like a torn tail: the reader
stops silently and drops this frame and everything after it. -/
theorem enlarged_length_looks_like_a_torn_tail (t : FrameType) (seq : BitVec 64) (c l rest : Bytes)
    (hs : seq ≠ 0) (hc : c.length = 4) (hl : l.length = 4) (hlen : rest.length < fromLe l) :
    ∃ e : WErr, e.isTruncation = true ∧
      decodeFrom (leBytes 4 frameMagic ++ leBytes 2 frameVersion ++ leBytes 2 t.code
        ++ leBytes 8 seq.toNat ++ l ++ c ++ rest) = .error e := by
  refine ⟨.payloadTruncated, rfl, ?_⟩
  rw [decode_parts _ (leBytes_len _ _) (leBytes_len _ _) (leBytes_len _ _) (leBytes_len _ _) hl hc]
  simp only [fromLe_leBytes]
  have h1 : frameMagic % 256 ^ 4 = frameMagic := by decide
  have h2 : frameVersion % 256 ^ 2 = frameVersion := by decide
  have h3 : t.code % 256 ^ 2 = t.code := by cases t <;> rfl
  have h4 : seq.toNat % 256 ^ 8 = seq.toNat := Nat.mod_eq_of_lt seq.isLt
  rw [h1, h2, h3, h4]
  have hlt := fromLe_lt l
  rw [hl] at hlt
  have hk : fromLe l % 2 ^ 32 = fromLe l := Nat.mod_eq_of_lt hlt
  simp only [decodeFields, ofCode_code, BitVec.ofNat_toNat, BitVec.setWidth_eq]
  rw [if_neg (by simp), if_neg (by simp), if_neg hs, if_pos]
  simp only [BitVec.toNat_ofNat, hk]
  exact hlen

/-- A flipped bit in a one-byte payload, and its detection. -/
example : FlipOne [5] [4] 0 ∧
    decodeFrom ((Header.new 1 .txnAppend [5]).encode ++ [4] ++ []) = .error .crc := by
  refine ⟨⟨rfl, by decide, ?_⟩, by decide +kernel⟩
  intro j hj
  unfold bitAt
  by_cases h : j < 8
  · have : j = 1 ∨ j = 2 ∨ j = 3 ∨ j = 4 ∨ j = 5 ∨ j = 6 ∨ j = 7 := by omega
    rcases this with rfl | rfl | rfl | rfl | rfl | rfl | rfl <;> decide
  · obtain ⟨k, hk⟩ : ∃ k, j / 8 = k + 1 := ⟨j / 8 - 1, by omega⟩
    rw [hk]; rfl

/-- A change of four bytes is a burst. -/
example : Burst ([1, 2] ++ [9, 9, 9, 9] ++ [7]) ([1, 2] ++ [0, 8, 1, 4] ++ [7]) :=
  four_bytes_burst _ _ _ _ rfl (by decide) (by decide)

/-- Enlarging the length of the first of two frames makes both disappear without an error. -/
example : readLog (leBytes 4 frameMagic ++ leBytes 2 frameVersion ++ leBytes 2 4 ++ leBytes 8 1
    ++ leBytes 4 1024 ++ leBytes 4 0 ++ Frame.bytes ⟨.sealMarker, []⟩ 2)
    = .ok ([], some .payloadTruncated) := by decide +kernel

end Tonbo.Props.C27
