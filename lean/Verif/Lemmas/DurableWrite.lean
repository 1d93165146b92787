import Verif.Lemmas.DurableInv

/-!
# Steps of a writer that write to the log
-/

set_option linter.unusedSectionVars false

namespace Tonbo.Lemmas.Durable
open Tonbo.Model Tonbo.Model.Manifest Tonbo.Model.Lsm Tonbo.Model.Durable Tonbo.Spec Tonbo.Spec.Durable
open Tonbo.Model.Wal (Event Batch Sch commitCol)
open Tonbo.Spec.Wal (GoodPayload payloadWrites bodyOf payloadOf finishes)
open Tonbo.Lemmas.Lsm (Inv Cont doneRuns At Lst)
open Tonbo.Lemmas.Replay (Fine body_snoc)

variable {A K R : Type} [LinearOrder K]

/-! ## The payloads of a writer -/

theorem toNat_ofNat {n : Nat} (h : n < 2 ^ 64) : (BitVec.ofNat 64 n).toNat = n := by
  rw [BitVec.toNat_ofNat, Nat.mod_eq_of_lt h]

theorem ofNat_ne {a b : Nat} (ha : a < 2 ^ 64) (hb : b < 2 ^ 64) (h : a ≠ b) : BitVec.ofNat 64 a ≠ BitVec.ofNat 64 b := by
  intro he
  apply h
  have := congrArg BitVec.toNat he
  rwa [toNat_ofNat ha, toNat_ofNat hb] at this

theorem up_writes {c : Ctx A K R} {w : Writer K R} (hdec : Decodes c w.rows w.keys (BitVec.ofNat 64 w.ts))
    (hts : w.ts < 2 ^ 64) :
    lastOnly (payloadWrites c.ext c.sch (BitVec.ofNat 64 w.ts) (w.upEvent c)) = batchWrites c.ext w.putOp := by
  unfold batchWrites
  congr 1
  unfold Writer.upEvent Writer.putOp payloadWrites opWrites putWrites
  simp only [hdec.1, Option.getD_some, toNat_ofNat hts, List.filterMap_map]
  rfl

theorem del_writes {c : Ctx A K R} {w : Writer K R} (hdec : Decodes c w.rows w.keys (BitVec.ofNat 64 w.ts))
    (hts : w.ts < 2 ^ 64) :
    lastOnly (payloadWrites c.ext c.sch (BitVec.ofNat 64 w.ts) (w.delEvent c)) = batchWrites c.ext w.delOp := by
  unfold batchWrites
  congr 1
  unfold Writer.delEvent Writer.delOp payloadWrites opWrites delWrites
  simp only [hdec.2.1, Option.getD_some, toNat_ofNat hts, List.filterMap_map, List.map_map]
  induction w.keys with
  | nil => rfl
  | cons k ks ih =>
    rw [List.map_cons, ← ih]
    rfl

theorem hasUp_rows {w : Writer K R} (h : w.mode = .plain → w.rows ≠ []) (hu : w.hasUp = true) : w.rows ≠ [] := by
  unfold Writer.hasUp at hu
  simp only [Bool.or_eq_true, beq_iff_eq, Bool.not_eq_true', List.isEmpty_eq_false_iff] at hu
  rcases hu with hu | hu
  · exact h hu
  · exact hu

theorem hasDel_keys {w : Writer K R} (hd : w.hasDel = true) : w.keys ≠ [] := by
  unfold Writer.hasDel at hd
  simp only [Bool.and_eq_true, Bool.not_eq_true', List.isEmpty_eq_false_iff] at hd
  exact hd.2

theorem up_good {c : Ctx A K R} {w : Writer K R} (hdec : Decodes c w.rows w.keys (BitVec.ofNat 64 w.ts))
    (hr : w.mode = .plain → w.rows ≠ []) (hk : ∀ r ∈ w.rows, c.ext r ≠ none) (hu : w.hasUp = true) :
    GoodPayload c.ext c.sch (BitVec.ofNat 64 w.ts) (w.upEvent c) :=
  ⟨w.rows, hdec.1, hasUp_rows hr hu, hk, rfl⟩

theorem del_good {c : Ctx A K R} {w : Writer K R} (hdec : Decodes c w.rows w.keys (BitVec.ofNat 64 w.ts))
    (hd : w.hasDel = true) : GoodPayload c.ext c.sch (BitVec.ofNat 64 w.ts) (w.delEvent c) := by
  refine ⟨w.keys, hdec.2.1, hasDel_keys hd, ?_⟩
  have h := hdec.2.2
  cases hf : (c.enc.keys w.keys (BitVec.ofNat 64 w.ts)).cols.find? (·.name == commitCol) with
  | none => rw [hf] at h; cases h
  | some f =>
    rw [hf] at h
    exact ⟨f, rfl, by simpa using h⟩

/-! ## Frames -/

theorem pushLast_seqs (segs : List (LSeg A)) (p : Nat × Event A) :
    (pushLast segs p).map (·.seq) = segs.map (·.seq) := by
  unfold pushLast
  cases h : segs.getLast? with
  | none => rfl
  | some g =>
    obtain ⟨ys, rfl⟩ := List.getLast?_eq_some_iff.1 h
    simp

theorem logOk_frame {c : Ctx A K R} {s : Sys A K R} (h : LogOk c s) (e : Event A) (com : List (Ver K R))
    (ws : List (Writer K R)) (hcom : ∀ v ∈ s.committed, v ∈ com) (hid : evId e < s.nextId)
    (hgood : ∀ id ts, e = .commit id ts → ∀ p ∈ bodyOf id (evs (entries s.segs)),
      GoodPayload c.ext c.sch ts p ∧ ∀ v ∈ lastOnly (payloadWrites c.ext c.sch ts p), v ∈ com) :
    LogOk c { s with segs := pushLast s.segs (s.nextFrame, e), nextFrame := s.nextFrame + 1, committed := com, writers := ws } := by
  obtain ⟨g, hg, hgm, hle⟩ := last_seg h
  have hE := entries_push hg (s.nextFrame, e)
  have hseq := pushLast_seqs s.segs (s.nextFrame, e)
  refine ⟨?_, ?_, ?_, ?_, ?_, ?_, ?_⟩
  · simp only
    intro h0
    rw [h0] at hseq
    exact h.ne (List.map_eq_nil_iff.1 hseq.symm)
  · have := h.asc
    simp only
    rw [← List.pairwise_map (f := fun g : LSeg A => g.seq) (R := fun a b => a < b)] at this ⊢
    rw [hseq]; exact this
  · simp only
    intro g' hg'
    have : g'.seq ∈ s.segs.map (·.seq) := by rw [← hseq]; exact List.mem_map_of_mem hg'
    obtain ⟨g2, hg2, he⟩ := List.mem_map.1 this
    rw [← he]
    exact h.next g2 hg2
  · simp
  · simp only [hE]
    unfold Ord
    rw [List.pairwise_append]
    refine ⟨h.ord, List.pairwise_singleton _ _, ?_⟩
    intro a ha b hb
    rw [List.mem_singleton.1 hb]
    exact ⟨hle a ha, (h.lt a ha).2.1⟩
  · simp only [hE]
    intro x hx
    rcases List.mem_append.1 hx with hx | hx
    · have := h.lt x hx
      exact ⟨this.1, by omega, this.2.2⟩
    · rw [List.mem_singleton.1 hx]
      exact ⟨h.frame1, by simp, hid⟩
  · simp only [hE, evs_append]
    refine allTxns_snoc (allTxns_mono h.good (fun ts e he => ⟨he.1, fun v hv => hcom v (he.2 v hv)⟩)) ?_
    exact hgood

theorem floorOf_congr {c : Ctx A K R} {s s' : Sys A K R} (h : s'.db.kv = s.db.kv) : floorOf c s' = floorOf c s := by
  unfold floorOf; rw [h]

theorem base_congr {c : Ctx A K R} {s s' : Sys A K R} (h : s'.db.kv = s.db.kv)
    (hw : s'.writers.map (·.refs) = s.writers.map (·.refs)) : base c s' = base c s := by
  unfold base; rw [floorOf_congr h, hw]

/-- Nothing of the state changes that another writer depends on. -/
theorem wok_other {c : Ctx A K R} {s s' : Sys A K R} {log log' : List (Ver K R)} {x : Writer K R} (h : WOk c s log x)
    (ht : x.isTxn = false) (hn : s.nextId ≤ s'.nextId)
    (hr : ∀ lo hi, s.range = some (lo, hi) → ∃ lo' hi', s'.range = some (lo', hi') ∧ lo' ≤ lo)
    (hb : ∀ e ∈ bodyOf (BitVec.ofNat 64 x.id) (evs (entries s'.segs)), e ∈ bodyOf (BitVec.ofNat 64 x.id) (evs (entries s.segs)))
    (hc : ∀ v ∈ s.committed, v ∈ s'.committed) (hl : ∀ v ∈ log, v ∈ log') : WOk c s' log' x := by
  refine ⟨h.mode, h.rows, h.keyed, h.dec, h.ts, h.id, Nat.lt_of_lt_of_le h.idLt hn, fun hu e he => h.body hu e (hb e he), ?_, ?_,
    fun hu v hv => hc v (h.com hu v hv), fun hp v hv => hl v (h.half hp v hv), fun hp v hv => hl v (h.all hp v hv)⟩
  · intro hp sp hsp
    obtain ⟨lo, hi, h1, h2⟩ := h.range hp sp hsp
    obtain ⟨lo', hi', h3, h4⟩ := hr lo hi h1
    exact ⟨lo', hi', h3, Nat.le_trans h4 h2⟩
  · intro h0
    rw [ht] at h0
    cases h0

/-- A frame of one of the writers. -/
theorem d_frame {c : Ctx A K R} {s : Sys A K R} {n : Nat} {log : List (Ver K R)} {logs : List (List (Ver K R))}
    {cur : List (Ver K R)} (h : D c s n log logs cur) {i : Nat} {w w' : Writer K R} (hw : s.writers[i]? = some w) (e : Event A)
    (com : List (Ver K R)) (hcom : ∀ v ∈ s.committed, v ∈ com) (hid : evId e < s.nextId)
    (hgood : ∀ id ts, e = .commit id ts → ∀ p ∈ bodyOf id (evs (entries s.segs)),
      GoodPayload c.ext c.sch ts p ∧ ∀ v ∈ lastOnly (payloadWrites c.ext c.sch ts p), v ∈ com)
    (hrefs : w'.refs = w.refs ∧ w'.id = w.id ∧ w'.mode = w.mode)
    (hoth : ∀ id, id ≠ BitVec.ofNat 64 w.id → finishes id e = false ∧ payloadOf id e = false)
    (hpay : ∀ g Ls, AllCov Ls g → PayOk c (entries s.segs) Ls w →
      PayOk c (entries s.segs ++ [(g, s.nextFrame, e)]) Ls w')
    (hok : WOk c { s with segs := pushLast s.segs (s.nextFrame, e), nextFrame := s.nextFrame + 1, committed := com, writers := s.writers.set i w' }
      log w') :
    D c { s with segs := pushLast s.segs (s.nextFrame, e), nextFrame := s.nextFrame + 1, committed := com, writers := s.writers.set i w' }
      n log logs cur := by
  obtain ⟨g, hg, hgm, hle⟩ := last_seg h.lg
  have hE := entries_push hg (s.nextFrame, e)
  have hbase : base c { s with segs := pushLast s.segs (s.nextFrame, e), nextFrame := s.nextFrame + 1, committed := com, writers := s.writers.set i w' }
      = base c s := base_congr rfl (refs_set hw hrefs.1)
  have happ : ∀ r, RefGood (entries s.segs) r → RefGood (entries s.segs ++ [(g.seq, s.nextFrame, e)]) r :=
    fun r hr => refGood_append hr (fun y hy => (h.lg.lt y hy).2.1)
  have hwm := List.mem_of_getElem? hw
  have hne : ∀ x ∈ s.writers, x.id ≠ w.id → BitVec.ofNat 64 x.id ≠ BitVec.ofNat 64 w.id :=
    fun x hx hid => ofNat_ne (h.writer x hx).id (h.writer w hwm).id hid
  have hsafe : ∀ Ls range rngs logs, (∀ refs ∈ Ls, ∀ r ∈ refs, RefGood (entries s.segs) r) →
      Safe c (entries s.segs) Ls range rngs logs cur s.writers →
      Safe c (entries s.segs ++ [(g.seq, s.nextFrame, e)]) Ls range rngs logs cur (s.writers.set i w') := by
    intro Ls range rngs logs hrg hs
    have hm : ∀ v g' n, LoggedAt c.ext c.sch (entries s.segs) v g' n → AllCov Ls g' →
        LoggedAt c.ext c.sch (entries s.segs ++ [(g.seq, s.nextFrame, e)]) v g' n ∧ AllCov Ls g' :=
      fun v g' n h1 h2 => ⟨logged_append h1 _, h2⟩
    refine ⟨hs.runs.imp (fun _ _ hr => runOk_mono hr hm), runOk_mono hs.cur hm, ?_⟩
    intro x hx
    rcases wsOk_other h.one hw hx with rfl | ⟨h1, h2, _⟩
    · exact hpay g.seq Ls (fun refs hr => covers_last (hrg refs hr) hle) (hs.pay w hwm)
    · refine payOk_mono (hs.pay x h1) hm (fun e' g' n' ho hcv => ⟨open_append ho _ ?_, hcv⟩)
      simpa using (hoth _ (hne x h1 h2)).1
  refine ⟨h.open_, h.inv, h.cont, h.acked, fun v hv => hcom v (h.sub v hv), h.fine, h.len,
    logOk_frame h.lg e com _ hcom hid hgood, ?_,
    wsOk_set h.one hw hrefs.2.1 hrefs.2.2 (fun ht => ?_), ?_, ?_, ?_⟩
  · rw [hbase]
    simp only [hE]
    exact fun refs hr r hrr => happ r (h.refs refs hr r hrr)
  · rw [hrefs.1]
    refine h.one.plain w hwm ?_
    unfold Writer.isTxn at ht ⊢
    rw [← hrefs.2.2]
    exact ht
  · intro x hx
    rcases wsOk_other h.one hw hx with rfl | ⟨h1, h2, h3, _⟩
    · exact hok
    · refine wok_other (h.writer x h1) h3 (Nat.le_refl _) (fun lo hi hr => ⟨lo, hi, hr, Nat.le_refl _⟩) ?_ hcom (fun _ h => h)
      simp only [hE, evs_append]
      have he : evs [((g.seq, s.nextFrame, e) : Ent A)] = [e] := rfl
      obtain ⟨f1, f2⟩ := hoth _ (hne x h1 h2)
      rw [he, body_snoc, f1, f2]
      simp
  · rw [hbase]
    simp only [hE]
    exact hsafe _ _ _ _ h.refs h.safe
  · intro p k hp
    obtain ⟨d, refs, h1, h2, h3⟩ := h.flush p k hp
    refine ⟨d, refs, h1, ?_, ?_⟩
    · simp only [hE]
      exact fun r hr => happ r (h2 r hr)
    · rw [hbase]
      simp only [hE]
      refine hsafe _ _ _ _ ?_ h3
      intro rs hrs
      rcases List.mem_cons.1 hrs with rfl | hrs
      · exact h2
      · exact h.refs rs hrs

theorem plain_same {ws : List (Writer K R)} (h : WsOk ws) {w w' : Writer K R} (hw : w ∈ ws)
    (hrefs : w'.refs = w.refs) (hm : w'.mode = w.mode) (ht : w'.isTxn = false) : w'.refs = [] := by
  rw [hrefs]
  refine h.plain w hw ?_
  unfold Writer.isTxn at ht ⊢
  rw [← hm]
  exact ht

/-- A writer moves on, and nothing else changes. -/
theorem d_writer {c : Ctx A K R} {s : Sys A K R} {n : Nat} {log : List (Ver K R)} {logs : List (List (Ver K R))}
    {cur : List (Ver K R)} (h : D c s n log logs cur) {i : Nat} {w w' : Writer K R} (hw : s.writers[i]? = some w)
    (hrefs : w'.refs = w.refs ∧ w'.id = w.id ∧ w'.mode = w.mode)
    (hpay : ∀ Ls, PayOk c (entries s.segs) Ls w → PayOk c (entries s.segs) Ls w')
    (hok : WOk c { s with writers := s.writers.set i w' } log w') :
    D c { s with writers := s.writers.set i w' } n log logs cur := by
  have hwm := List.mem_of_getElem? hw
  have hbase : base c { s with writers := s.writers.set i w' } = base c s := base_congr rfl (refs_set hw hrefs.1)
  have hsafe : ∀ Ls range rngs logs, Safe c (entries s.segs) Ls range rngs logs cur s.writers →
      Safe c (entries s.segs) Ls range rngs logs cur (s.writers.set i w') := by
    intro Ls range rngs logs hs
    refine ⟨hs.runs, hs.cur, ?_⟩
    intro x hx
    rcases wsOk_other h.one hw hx with rfl | ⟨h1, _⟩
    · exact hpay Ls (hs.pay w hwm)
    · exact hs.pay x h1
  refine ⟨h.open_, h.inv, h.cont, h.acked, h.sub, h.fine, h.len, ⟨h.lg.ne, h.lg.asc, h.lg.next, h.lg.frame1, h.lg.ord, h.lg.lt, h.lg.good⟩,
    by rw [hbase]; exact h.refs, wsOk_set h.one hw hrefs.2.1 hrefs.2.2 (plain_same h.one hwm hrefs.1 hrefs.2.2), ?_,
    by rw [hbase]; exact hsafe _ _ _ _ h.safe, ?_⟩
  · intro x hx
    rcases wsOk_other h.one hw hx with rfl | ⟨h1, _, h3, _⟩
    · exact hok
    · exact wok_other (h.writer x h1) h3 (Nat.le_refl _) (fun lo hi hr => ⟨lo, hi, hr, Nat.le_refl _⟩) (fun _ h => h)
        (fun _ h => h) (fun _ h => h)
  · intro p k hp
    obtain ⟨d, refs, h1, h2, h3⟩ := h.flush p k hp
    exact ⟨d, refs, h1, h2, by rw [hbase]; exact hsafe _ _ _ _ h3⟩

/-- A writer goes. -/
theorem d_drop {c : Ctx A K R} {s : Sys A K R} {n : Nat} {log : List (Ver K R)} {logs : List (List (Ver K R))}
    {cur : List (Ver K R)} (h : D c s n log logs cur) (i : Nat) (ack : List (Ver K R)) (hack : ∀ v ∈ ack, v ∈ log) :
    D c { s with writers := s.writers.eraseIdx i, acked := s.acked ++ ack } n log logs cur := by
  have hmem : ∀ x ∈ s.writers.eraseIdx i, x ∈ s.writers := fun x hx => List.mem_of_mem_eraseIdx hx
  have hsub : ∀ refs ∈ base c { s with writers := s.writers.eraseIdx i, acked := s.acked ++ ack }, refs ∈ base c s := by
    intro refs hr
    unfold base at hr ⊢
    rcases List.mem_cons.1 hr with rfl | hr
    · exact List.mem_cons_self
    · obtain ⟨x, hx, rfl⟩ := List.mem_map.1 hr
      exact List.mem_cons_of_mem _ (List.mem_map.2 ⟨x, hmem x hx, rfl⟩)
  have hsafe : ∀ Ls Ls' range rngs logs, (∀ refs ∈ Ls', refs ∈ Ls) →
      Safe c (entries s.segs) Ls range rngs logs cur s.writers →
      Safe c (entries s.segs) Ls' range rngs logs cur (s.writers.eraseIdx i) := by
    intro Ls Ls' range rngs logs hl hs
    have := safe_lists hs (Ls' := Ls') (fun g hg refs hr => hg refs (hl refs hr))
    exact ⟨this.runs, this.cur, fun x hx => this.pay x (hmem x hx)⟩
  refine ⟨h.open_, h.inv, h.cont, ?_, h.sub, h.fine, h.len, ⟨h.lg.ne, h.lg.asc, h.lg.next, h.lg.frame1, h.lg.ord, h.lg.lt, h.lg.good⟩,
    fun refs hr => h.refs refs (hsub refs hr), wsOk_erase h.one i, ?_, hsafe _ _ _ _ _ hsub h.safe, ?_⟩
  · intro v hv
    rcases List.mem_append.1 hv with hv | hv
    · exact h.acked v hv
    · exact hack v hv
  · intro x hx
    have := h.writer x (hmem x hx)
    exact ⟨this.mode, this.rows, this.keyed, this.dec, this.ts, this.id, this.idLt, this.body, this.range, this.live, this.com,
      this.half, this.all⟩
  · intro p k hp
    obtain ⟨d, refs, h1, h2, h3⟩ := h.flush p k hp
    refine ⟨d, refs, h1, h2, hsafe _ _ _ _ _ ?_ h3⟩
    intro rs hrs
    rcases List.mem_cons.1 hrs with rfl | hrs
    · exact List.mem_cons_self
    · exact List.mem_cons_of_mem _ (hsub rs hrs)

end Tonbo.Lemmas.Durable
