import Verif.Spec.WalBatchView
import Verif.Lemmas.FrameWalk

/-!
# C47: the commit column travels unchanged with a batch; commands survive the log (C25)
-/

namespace Tonbo.Props.C47
open Tonbo.Model.Wal Tonbo.Spec Tonbo.Lemmas.FrameWalk

variable {A : Type}

theorem tryNew_ok {b : Batch A} (h : ValidBatch b) : b.tryNew = .ok b := by
  obtain ⟨h1, h2, h3⟩ := h
  unfold Batch.tryNew
  rw [if_neg (by simpa using h1), if_neg, if_neg]
  · simp only [List.any_eq_true, not_exists, not_and]
    intro f hf hb
    simp only [Bool.and_eq_true, Bool.not_eq_true'] at hb
    rw [h3 f hf hb.1] at hb
    cases hb.2
  · simp only [List.any_eq_true, not_exists, not_and]
    intro f hf hb
    simp [h2 f hf] at hb

theorem tryNew_valid {b b' : Batch A} (h : b.tryNew = .ok b') : b' = b ∧ ValidBatch b := by
  unfold Batch.tryNew at h
  split at h
  · cases h
  · rename_i h1
    split at h
    · cases h
    · rename_i h2
      split at h
      · cases h
      · rename_i h3
        cases h
        refine ⟨rfl, by simpa using h1, ?_, ?_⟩
        · intro f hf
          simp only [List.any_eq_true, not_exists, not_and, bne_iff_ne, ne_eq, not_not] at h2
          exact h2 f hf
        · intro f hf hn
          simp only [List.any_eq_true, not_exists, not_and, Bool.and_eq_true, Bool.not_eq_true',
            Bool.not_eq_true] at h3
          cases hc : f.col.hasNulls with
          | false => rfl
          | true => exact absurd hc (by simpa using h3 f hf hn)

theorem uniform_replicate (n : Nat) (t : BitVec 64) : uniform (List.replicate n (some t)) = true := by
  cases n with
  | zero => rfl
  | succ n => simp [List.replicate_succ, uniform, List.all_replicate]

theorem uniform_spec {v : Option (BitVec 64)} {vs : List (Option (BitVec 64))}
    (h : uniform (v :: vs) = true) : ∃ t, v :: vs = List.replicate (vs.length + 1) (some t) := by
  simp only [uniform, List.all_eq_true, Bool.and_eq_true, beq_iff_eq] at h
  obtain ⟨t, ht⟩ := Option.isSome_iff_exists.1 (h v (by simp)).1
  subst ht
  refine ⟨t, List.eq_replicate_iff.2 ⟨rfl, fun b hb => (h b hb).2⟩⟩

theorem valid_append {b : Batch A} (hv : ValidBatch b) (t : BitVec 64) :
    ValidBatch ⟨b.cols ++ [⟨commitCol, false, tsColumn b.rows t⟩], b.md⟩ := by
  obtain ⟨h1, h2, h3⟩ := hv
  have hr : Batch.rows ⟨b.cols ++ [⟨commitCol, false, tsColumn b.rows t⟩], b.md⟩ = b.rows := by
    unfold Batch.rows
    cases hc : b.cols with
    | nil => exact absurd hc h1
    | cons f fs => simp
  refine ⟨by simp, ?_, ?_⟩
  · intro f hf
    rw [hr]
    rcases List.mem_append.1 hf with hf | hf
    · exact h2 f hf
    · simp only [List.mem_singleton] at hf
      subst hf; simp [Col.len, tsColumn]
  · intro f hf hn
    rcases List.mem_append.1 hf with hf | hf
    · exact h3 f hf hn
    · simp only [List.mem_singleton] at hf
      subst hf; simp [Col.hasNulls, tsColumn]

/-- **C47, appending.** A batch without reserved column names accepts a uniform timestamp column of
its length, which becomes the last column. -/
theorem append_accepts (b : Batch A) (t : BitVec 64) (hv : ValidBatch b) (hn : NoReserved b) :
    appendCommit b (tsColumn b.rows t)
      = .ok ⟨b.cols ++ [⟨"_commit_ts", false, tsColumn b.rows t⟩], b.md⟩ := by
  have h := tryNew_ok (valid_append hv t)
  unfold tsColumn at h ⊢
  unfold appendCommit
  rw [if_neg (by simp [Col.len])]
  simp only
  rw [if_neg (by simp), if_neg (by simp [uniform_replicate]), if_neg, if_neg]
  · exact h
  · simp only [List.any_eq_true, not_exists, not_and, beq_iff_eq]
    exact fun f hf => (hn f hf).2
  · simp only [List.any_eq_true, not_exists, not_and, beq_iff_eq]
    exact fun f hf => (hn f hf).1

theorem find_last {cs : List (Fld A)} {f : Fld A} (hn : ∀ g ∈ cs, g.name ≠ commitCol)
    (hf : f.name = commitCol) :
    (cs ++ [f]).findIdx? (·.name == commitCol) = some cs.length := by
  rw [List.findIdx?_append]
  have : cs.findIdx? (·.name == commitCol) = none := by
    rw [List.findIdx?_eq_none_iff]
    intro x hx
    simpa using hn x hx
  rw [this]
  simp [List.findIdx?_cons, hf]

theorem hint_replicate (n : Nat) (t : BitVec 64) :
    commitHint (tsColumn (A := A) n t) = .ok (if n = 0 then none else some t) := by
  unfold commitHint tsColumn
  cases n with
  | zero => rfl
  | succ n =>
    have := uniform_replicate (n + 1) t
    rw [List.replicate_succ] at this ⊢
    simp only
    rw [if_neg (by simp), if_pos this]
    rfl

/-- **C47, round trip.** Appending the commit column and splitting it off again gives back the batch,
the timestamp (if there is any row) and the column. -/
theorem commit_column_round_trip (b : Batch A) (t : BitVec 64) (hv : ValidBatch b) (hn : NoReserved b) :
    ∃ wb, appendCommit b (tsColumn b.rows t) = .ok wb ∧
      splitCommit wb = .ok (b, if b.rows = 0 then none else some t, tsColumn b.rows t) := by
  refine ⟨_, append_accepts b t hv hn, ?_⟩
  unfold splitCommit
  simp only
  rw [find_last (f := ⟨"_commit_ts", false, tsColumn b.rows t⟩) (fun g hg => (hn g hg).1) rfl]
  simp only [List.getElem?_append_right (Nat.le_refl _), Nat.sub_self, List.getElem?_cons_zero,
    hint_replicate]
  have he : (b.cols ++ [(⟨"_commit_ts", false, tsColumn b.rows t⟩ : Fld A)]).eraseIdx b.cols.length
      = b.cols := by
    rw [List.eraseIdx_append_of_length_le (Nat.le_refl _)]; simp
  rw [he]
  have := tryNew_ok hv
  rw [show (⟨b.cols, b.md⟩ : Batch A) = b from rfl, this]

/-- **C47, what may be appended.** Whenever appending succeeds, the batch had no reserved column, the
column was a `u64` column of the batch's length without nulls whose values are all equal, and splitting
gives everything back. -/
theorem append_only_accepts_uniform (b wb : Batch A) (ts : Col A) (hv : ValidBatch b)
    (h : appendCommit b ts = .ok wb) :
    NoReserved b ∧ ∃ t, ts = tsColumn b.rows t ∧
      splitCommit wb = .ok (b, if b.rows = 0 then none else some t, ts) := by
  have hh := h
  unfold appendCommit at h
  split at h
  · cases h
  · rename_i h1
    split at h
    · cases h
    · rename_i vs
      split at h
      · cases h
      · rename_i h2
        split at h
        · cases h
        · rename_i h3
          split at h
          · cases h
          · rename_i h4
            split at h
            · cases h
            · rename_i h5
              have hn : NoReserved b := by
                intro f hf
                simp only [List.any_eq_true, not_exists, not_and, beq_iff_eq] at h4 h5
                exact ⟨h4 f hf, h5 f hf⟩
              have hts : ∃ t, (Col.u64 vs : Col A) = tsColumn b.rows t := by
                simp only [Col.len, ne_eq, not_not] at h1
                cases vs with
                | nil => exact ⟨0, by simp [tsColumn, ← h1]⟩
                | cons v vs =>
                  have hu : uniform (v :: vs) = true := by
                    simpa using h3
                  obtain ⟨t, ht⟩ := uniform_spec hu
                  refine ⟨t, ?_⟩
                  unfold tsColumn
                  rw [← h1]
                  simp only [List.length_cons]
                  rw [← ht]
              obtain ⟨t, ht⟩ := hts
              refine ⟨hn, t, ht, ?_⟩
              rw [ht] at hh ⊢
              obtain ⟨wb', e1, e2⟩ := commit_column_round_trip b t hv hn
              rw [hh] at e1
              cases e1
              exact e2

/-- **C47, rejection.** A log batch whose commit column is missing, not a `u64` column, contains a null
or contains two different values is rejected, for rows and for deletes. -/
theorem bad_commit_column_is_rejected (b : Batch A)
    (hbad : (∀ f ∈ b.cols, f.name ≠ "_commit_ts") ∨
      ∃ (pre post : List (Fld A)) (f : Fld A), b.cols = pre ++ f :: post
        ∧ (∀ g ∈ pre, g.name ≠ "_commit_ts") ∧ f.name = "_commit_ts"
        ∧ ∀ n t, f.col ≠ tsColumn n t) :
    splitCommit b = .error .codec ∧ deleteHint b = .error .codec := by
  rcases hbad with h | ⟨pre, post, f, hb, hpre, hf, hcol⟩
  · constructor
    · unfold splitCommit
      have : b.cols.findIdx? (·.name == commitCol) = none := by
        rw [List.findIdx?_eq_none_iff]; intro x hx; simpa [commitCol] using h x hx
      rw [this]
    · unfold deleteHint
      have : b.cols.find? (·.name == commitCol) = none := by
        rw [List.find?_eq_none]; intro x hx; simpa [commitCol] using h x hx
      rw [this]
  · have hh : commitHint f.col = .error .codec := by
      cases hc : f.col with
      | other n nl c => rfl
      | u64 vs =>
        unfold commitHint
        simp only
        split
        · rfl
        · cases vs with
          | nil => exact absurd (by rw [hc]; rfl) (hcol 0 0)
          | cons v vs =>
            simp only
            split
            · rename_i hu
              obtain ⟨t, ht⟩ := uniform_spec hu
              exact absurd (by rw [hc, ht]; rfl) (hcol (vs.length + 1) t)
            · rfl
    constructor
    · unfold splitCommit
      have : b.cols.findIdx? (·.name == commitCol) = some pre.length := by
        rw [hb, List.findIdx?_append]
        have : pre.findIdx? (·.name == commitCol) = none := by
          rw [List.findIdx?_eq_none_iff]; intro x hx; simpa [commitCol] using hpre x hx
        rw [this]
        simp [List.findIdx?_cons, hf, commitCol]
      rw [this]
      simp only [hb, List.getElem?_append_right (Nat.le_refl _), Nat.sub_self, List.getElem?_cons_zero, hh]
    · unfold deleteHint
      have : b.cols.find? (·.name == commitCol) = some f := by
        rw [hb, List.find?_append]
        have : pre.find? (·.name == commitCol) = none := by
          rw [List.find?_eq_none]; intro x hx; simpa [commitCol] using hpre x hx
        rw [this]
        simp [List.find?_cons, hf, commitCol]
      rw [this]
      exact hh

/-- **C25/C47, commands.** Every command the database writes comes back from its frame as the same
command: row batches with their uniform timestamp column, delete batches whose first `_commit_ts`
column is uniform, and begin, commit and abort records. -/
theorem command_round_trip (c : Ipc (Batch A)) (hc : c.Lawful) (cmd : Cmd A) (t : BitVec 64)
    (hrow : ∀ id b ts, cmd = .row id b ts → ValidBatch b ∧ NoReserved b ∧ ts = tsColumn b.rows t)
    (hdel : ∀ id b, cmd = .delete id b → ∃ (pre post : List (Fld A)) (nl : Bool),
      b.cols = pre ++ ⟨"_commit_ts", nl, tsColumn b.rows t⟩ :: post ∧ ∀ g ∈ pre, g.name ≠ "_commit_ts") :
    ∃ f, encodeCmd c cmd = .ok [f] ∧ decodeFrame c f.type f.payload = .ok (eventOf cmd t) := by
  have h8 : ∀ x : BitVec 64, BitVec.ofNat 64 (fromLe (leBytes 8 x.toNat)) = x := by
    intro x
    rw [fromLe_leBytes, Nat.mod_eq_of_lt x.isLt, BitVec.ofNat_toNat, BitVec.setWidth_eq]
  have app : ∀ (id : BitVec 64) (del : Bool) (b : Batch A),
      decodeAppend c (encodeAppend c id del b) = decodeDynAppend c id del (c.enc b) := by
    intro id del b
    unfold decodeAppend encodeAppend
    have hl := leBytes_len 8 id.toNat
    have e8 := h8 id
    revert hl e8
    generalize leBytes 8 id.toNat = w
    intro hl e8
    match w, hl with
    | [b0, b1, b2, b3, b4, b5, b6, b7], _ =>
      rw [if_neg (by simp)]
      have hs : slice ([b0, b1, b2, b3, b4, b5, b6, b7] ++ [0] ++ [rowModeByte del] ++ [0, 0, 0, 0, 0, 0] ++ c.enc b) 0 8
          = [b0, b1, b2, b3, b4, b5, b6, b7] := rfl
      simp only [hs, e8]
      cases del <;> rfl
  cases cmd with
  | begin id =>
    refine ⟨_, rfl, ?_⟩
    simp only [decodeFrame, leBytes_len, ne_eq, not_true_eq_false, if_false, h8, eventOf]
  | abort id =>
    refine ⟨_, rfl, ?_⟩
    simp only [decodeFrame, leBytes_len, ne_eq, not_true_eq_false, if_false, h8, eventOf]
  | commit id ts =>
    refine ⟨_, rfl, ?_⟩
    simp only [decodeFrame, List.length_append, leBytes_len, eventOf, slice]
    rw [if_neg (by omega)]
    rw [List.drop_zero, List.drop_left' (leBytes_len 8 _), List.take_left' (leBytes_len 8 _),
      List.take_of_length_le (by rw [leBytes_len]), h8, h8]
  | row id b ts =>
    obtain ⟨hv, hn, rfl⟩ := hrow id b ts rfl
    obtain ⟨wb, e1, e2⟩ := commit_column_round_trip b t hv hn
    refine ⟨⟨.txnAppend, encodeAppend c id false wb⟩, by simp only [encodeCmd, e1], ?_⟩
    simp only [decodeFrame, app, decodeDynAppend, hc.dec_enc, e2, eventOf]
    rw [if_neg (by simpa using hc.enc_ne wb)]
    rfl
  | delete id b =>
    obtain ⟨pre, post, nl, hb, hpre⟩ := hdel id b rfl
    refine ⟨_, rfl, ?_⟩
    have hd : deleteHint b = .ok (if b.rows = 0 then none else some t) := by
      unfold deleteHint
      have : b.cols.find? (·.name == commitCol) = some ⟨"_commit_ts", nl, tsColumn b.rows t⟩ := by
        conv => lhs; rw [hb]
        rw [List.find?_append]
        have : pre.find? (·.name == commitCol) = none := by
          rw [List.find?_eq_none]; intro x hx; simpa [commitCol] using hpre x hx
        rw [this]
        simp [List.find?_cons, commitCol]
      rw [this]
      exact hint_replicate b.rows t
    simp only [decodeFrame, app, decodeDynAppend, hc.dec_enc, hd, eventOf]
    rw [if_neg (by simpa using hc.enc_ne b)]
    rfl

/-- A commit column that is accepted has one timestamp on every row. -/
theorem hint_spec {col : Col A} {hint : Option (BitVec 64)} (h : commitHint col = .ok hint) :
    ∃ n t, col = tsColumn n t ∧ hint = if n = 0 then none else some t := by
  cases col with
  | other => simp [commitHint] at h
  | u64 vs =>
    simp only [commitHint] at h
    split at h
    · cases h
    · cases vs with
      | nil =>
        simp only [Except.ok.injEq] at h
        exact ⟨0, 0, rfl, h.symm⟩
      | cons v vs =>
        simp only at h
        split at h
        · rename_i hu
          obtain ⟨t, ht⟩ := uniform_spec hu
          simp only [Except.ok.injEq] at h
          refine ⟨vs.length + 1, t, by rw [tsColumn, ht], ?_⟩
          rw [if_neg (Nat.succ_ne_zero _), ← h]
          rw [List.replicate_succ] at ht
          exact (List.cons.inj ht).1
        · cases h

/-- **C47, what is read from the log.** A payload that is accepted holds exactly one batch; this batch has
a commit column with one timestamp on every row, without nulls, and the timestamp of the event is that one. -/
theorem accepted_payloads_carry_one_timestamp (c : Ipc (Batch A)) (id : BitVec 64) (del : Bool) (bs : Bytes)
    (ev : Event A) (h : decodeDynAppend c id del bs = .ok ev) :
    ∃ b f n t, c.dec bs = some [b] ∧ f ∈ b.cols ∧ f.name = "_commit_ts" ∧ f.col = tsColumn n t ∧
      (if del then ev = .delete id b (if n = 0 then none else some t)
       else ∃ pre post, b.cols = pre ++ f :: post ∧
        ev = .append id ⟨pre ++ post, b.md⟩ (if n = 0 then none else some t) (tsColumn n t)) := by
  unfold decodeDynAppend at h
  split at h
  · cases h
  · cases hd : c.dec bs with
    | none => rw [hd] at h; cases h
    | some l =>
      rw [hd] at h
      match l, h with
      | [], h => cases h
      | _ :: _ :: _, h => cases h
      | [b], h =>
        simp only at h
        cases del with
        | true =>
          simp only [if_true] at h ⊢
          cases hh : deleteHint b with
          | error e => rw [hh] at h; cases h
          | ok hint =>
            rw [hh] at h
            simp only [Except.ok.injEq] at h
            unfold deleteHint at hh
            cases hf : b.cols.find? (·.name == commitCol) with
            | none => rw [hf] at hh; cases hh
            | some f =>
              rw [hf] at hh
              obtain ⟨n, t, h1, h2⟩ := hint_spec hh
              exact ⟨b, f, n, t, rfl, List.mem_of_find?_eq_some hf,
                by simpa [commitCol] using List.find?_some hf, h1, by rw [← h2]; exact h.symm⟩
        | false =>
          simp only [Bool.false_eq_true, if_false] at h ⊢
          cases hs : splitCommit b with
          | error e => rw [hs] at h; cases h
          | ok r =>
            obtain ⟨stripped, hint, col⟩ := r
            rw [hs] at h
            simp only [Except.ok.injEq] at h
            unfold splitCommit at hs
            cases hi : b.cols.findIdx? (·.name == commitCol) with
            | none => rw [hi] at hs; cases hs
            | some i =>
              rw [hi] at hs
              simp only at hs
              cases hg : b.cols[i]? with
              | none => rw [hg] at hs; cases hs
              | some f =>
                rw [hg] at hs
                simp only at hs
                cases hc : commitHint f.col with
                | error e => rw [hc] at hs; cases hs
                | ok hint' =>
                  rw [hc] at hs
                  simp only at hs
                  cases ht : Batch.tryNew ⟨b.cols.eraseIdx i, b.md⟩ with
                  | error e => rw [ht] at hs; cases hs
                  | ok b' =>
                    rw [ht] at hs
                    simp only [Except.ok.injEq, Prod.mk.injEq] at hs
                    obtain ⟨rfl, rfl, rfl⟩ := hs
                    obtain ⟨n, t, h1, h2⟩ := hint_spec hc
                    obtain ⟨hlt, hgi⟩ := List.getElem?_eq_some_iff.1 hg
                    have hname : f.name = "_commit_ts" := by
                      have := (List.findIdx?_eq_some_iff_getElem.1 hi)
                      obtain ⟨hl, hp, _⟩ := this
                      rw [hgi] at hp
                      simpa [commitCol] using hp
                    refine ⟨b, f, n, t, rfl, List.mem_of_getElem? hg, hname, h1, b.cols.take i, b.cols.drop (i + 1),
                      ?_, ?_⟩
                    · rw [← hgi, ← List.drop_eq_getElem_cons hlt, List.take_append_drop]
                    · rw [← h, (tryNew_valid ht).1, h1, h2, List.eraseIdx_eq_take_drop_succ]

/-- A two-column batch of two rows meets the hypotheses. -/
example : ValidBatch (A := String) ⟨[⟨"id", false, .u64 [some 1, some 2]⟩, ⟨"v", true, .other 2 true "x"⟩], []⟩
    ∧ NoReserved (A := String) ⟨[⟨"id", false, .u64 [some 1, some 2]⟩, ⟨"v", true, .other 2 true "x"⟩], []⟩
    ∧ splitCommit (A := String)
      ⟨[⟨"id", false, .u64 [some 1, some 2]⟩, ⟨"_commit_ts", false, .u64 [some 5, some 6]⟩], []⟩
      = .error .codec := by
  refine ⟨⟨by simp, by simp [Batch.rows, Col.len], by simp [Col.hasNulls]⟩, by simp [NoReserved], ?_⟩
  decide

/-- A payload that is accepted: one batch with the timestamp 5 on both rows. With two batches it is not. -/
example :
    let b : Batch String := ⟨[⟨"id", false, .u64 [some 1, some 2]⟩, ⟨"_commit_ts", false, .u64 [some 5, some 5]⟩], []⟩
    decodeDynAppend ⟨fun _ => [1], fun _ => some [b]⟩ 7 false [1] =
      .ok (.append 7 ⟨[⟨"id", false, .u64 [some 1, some 2]⟩], []⟩ (some 5) (.u64 [some 5, some 5])) ∧
    decodeDynAppend ⟨fun _ => [1], fun _ => some [b, b]⟩ 7 false [1] = .error .codec := by
  decide

/-- A lawful codec exists (for a one-element batch type), so the assumption can be met. -/
example : Ipc.Lawful (B := Unit) ⟨fun _ => [1], fun _ => some [()]⟩ :=
  ⟨fun _ => rfl, fun _ => by simp⟩

end Tonbo.Props.C47
