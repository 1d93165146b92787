import Verif.Lemmas.DurableWrite

/-!
# The steps of a writer up to its commit record
-/

set_option linter.unusedSectionVars false

namespace Tonbo.Lemmas.Durable
open Tonbo.Model Tonbo.Model.Manifest Tonbo.Model.Lsm Tonbo.Model.Durable Tonbo.Spec Tonbo.Spec.Durable
open Tonbo.Model.Wal (Event Batch Sch commitCol)
open Tonbo.Spec.Wal (GoodPayload payloadWrites bodyOf payloadOf finishes)
open Tonbo.Lemmas.Lsm (Inv Cont doneRuns At Lst)
open Tonbo.Lemmas.Replay (Fine body_snoc)

variable {A K R : Type} [LinearOrder K]

theorem live_extend (w : Writer K R) (r : Nat × Nat) (rf : List WalRef) (p : Phase) {l : Nat} (h : w.live = some l) :
    ∃ l', ({ w with span := extend w.span r, refs := rf, phase := p } : Writer K R).live = some l' ∧ l' ≤ l := by
  unfold Writer.live at h ⊢
  cases hp : w.prev with
  | none =>
    cases hs : w.span with
    | none => simp [hp, hs] at h
    | some sp =>
      simp only [hp, hs, extend] at h ⊢
      cases h
      exact ⟨_, rfl, Nat.min_le_left _ _⟩
  | some p =>
    cases hs : w.span with
    | none =>
      simp only [hp, hs, extend] at h ⊢
      cases h
      exact ⟨_, rfl, Nat.min_le_left _ _⟩
    | some sp =>
      simp only [hp, hs, extend] at h ⊢
      cases h
      exact ⟨_, rfl, by omega⟩

theorem wok_move {c : Ctx A K R} {s s' : Sys A K R} {log log' : List (Ver K R)} {w : Writer K R} (h : WOk c s log w)
    (sp : Option (Nat × Nat)) (rf : List WalRef) (p : Phase) (hdone : doneRuns s'.db = doneRuns s.db)
    (hr : s'.range = s.range) (hrs : s'.ranges = s.ranges) (hn : s.nextId ≤ s'.nextId)
    (hlive : early p = true → early w.phase = true ∧
      ∀ l, w.live = some l → ∃ l', ({ w with span := sp, refs := rf, phase := p } : Writer K R).live = some l' ∧ l' ≤ l)
    (hbody : uncommitted p = true → ∀ e ∈ bodyOf (BitVec.ofNat 64 w.id) (evs (entries s'.segs)),
      (e = w.upEvent c ∧ w.hasUp = true) ∨ (e = w.delEvent c ∧ w.hasDel = true))
    (hrange : p = .applyUp ∨ p = .applyDel → ∀ x, sp = some x → ∃ lo hi, s.range = some (lo, hi) ∧ lo ≤ x.1)
    (hcom : uncommitted p = false → ∀ v ∈ w.writes c, v ∈ s'.committed)
    (hhalf : p = .applyDel → ∀ v ∈ upPart c w, v ∈ log')
    (hall : applied p = true → ∀ v ∈ w.writes c, v ∈ log') :
    WOk c s' log' { w with span := sp, refs := rf, phase := p } := by
  refine ⟨h.mode, h.rows, h.keyed, h.dec, h.ts, h.id, Nat.lt_of_lt_of_le h.idLt hn, hbody, ?_, ?_, hcom, hhalf, hall⟩
  · rw [hr]; exact hrange
  · intro ht he lo hi hm
    rw [hr, hrs, hdone] at hm
    obtain ⟨h1, h2⟩ := hlive he
    obtain ⟨l, h3, h4⟩ := h.live ht h1 lo hi hm
    obtain ⟨l', h5, h6⟩ := h2 l h3
    exact ⟨l', h5, Nat.le_trans h6 h4⟩

section
variable {c : Ctx A K R} {s : Sys A K R} {n : Nat} {log : List (Ver K R)} {logs : List (List (Ver K R))}
  {cur : List (Ver K R)} {w : Writer K R}

theorem same_live (w : Writer K R) (p : Phase) (l : Nat) (h : w.live = some l) :
    ∃ l', ({ w with span := w.span, refs := w.refs, phase := p } : Writer K R).live = some l' ∧ l' ≤ l :=
  ⟨l, h, Nat.le_refl _⟩

theorem placed_span {E : List (Ent A)} {Ls : List (List WalRef)} {sp : Option (Nat × Nat)} {rf : List WalRef} {p : Phase}
    {e : Event A} (h : Placed E Ls w e) (r : Nat × Nat) (hsp : sp = extend w.span r) :
    Placed E Ls { w with span := sp, refs := rf, phase := p } e := by
  obtain ⟨lo, hi, g, n, h1, h2, h3⟩ := h
  refine ⟨min lo r.1, max hi r.2, g, n, ?_, Nat.le_trans (Nat.min_le_left _ _) h2, h3⟩
  rw [hsp, h1]
  rfl

/-- A payload event of this transaction finishes no transaction. -/
theorem placed_append {E : List (Ent A)} {Ls : List (List WalRef)} {e : Event A} (h : Placed E Ls w e) (x : Ent A)
    (hx : finishes (BitVec.ofNat 64 w.id) x.2.2 = false) : Placed (E ++ [x]) Ls w e :=
  placed_mono h (fun g n ho hc => ⟨open_append ho _ (by simpa using hx), hc⟩)

theorem placed_new (E : List (Ent A)) {Ls : List (List WalRef)} {e : Event A} {g n : Nat} (hc : AllCov Ls g)
    (hp : payloadOf (BitVec.ofNat 64 w.id) e = true) (rf : List WalRef) (p : Phase) :
    Placed (E ++ [(g, n, e)]) Ls { w with span := extend w.span (n, n), refs := rf, phase := p } e := by
  cases hs : w.span with
  | none => exact ⟨n, n, g, n, by simp [extend], Nat.le_refl _, open_new E g n hp, hc⟩
  | some sp => exact ⟨min sp.1 n, max sp.2 n, g, n, by simp [extend], Nat.min_le_right _ _, open_new E g n hp, hc⟩

theorem d_begin (h : D c s n log logs cur) {i : Nat} (hw : s.writers[i]? = some w) (hp : w.phase = .begin) :
    D c { (advance c s w).1 with writers := setWriter s.writers i (advance c s w).2 } n log logs cur := by
  have hok := h.writer w (List.mem_of_getElem? hw)
  obtain ⟨g, hg, _, _⟩ := last_seg h.lg
  unfold advance
  simp only [hp]
  unfold frameStep
  cases hb : w.isTxn with
  | false =>
    simp only [Bool.false_eq_true, if_false, setWriter]
    refine d_writer h hw ⟨rfl, rfl, rfl⟩ (fun Ls _ => by unfold PayOk; simp [Writer.at]) ?_
    exact wok_move hok w.span w.refs .up rfl rfl rfl (Nat.le_refl _)
      (fun _ => ⟨by rw [hp]; rfl, same_live w .up⟩) (fun _ => hok.body (by rw [hp]; rfl)) (by simp) (by simp [uncommitted])
      (by simp) (by simp [applied])
  | true =>
    simp only [if_true, setWriter]
    refine d_frame h hw (.begin (BitVec.ofNat 64 w.id)) s.committed (fun _ h => h) ?_ (by simp) ⟨rfl, rfl, rfl⟩
      (fun id hne => ⟨rfl, rfl⟩)
      (fun g Ls _ _ => by unfold PayOk; simp [Writer.at]) ?_
    · simp only [evId, toNat_ofNat hok.id]
      exact hok.idLt
    · refine wok_move hok _ w.refs .up rfl rfl rfl (Nat.le_refl _)
        (fun _ => ⟨by rw [hp]; rfl, fun l hl => live_extend w _ _ _ hl⟩) ?_ (by simp) (by simp [uncommitted])
        (by simp) (by simp [applied])
      intro _ e he
      simp only [entries_push hg, evs_append] at he
      refine hok.body (by rw [hp]; rfl) e ?_
      have : evs [((g.seq, s.nextFrame, Event.begin (BitVec.ofNat 64 w.id)) : Ent A)] = [.begin (BitVec.ofNat 64 w.id)] := rfl
      rw [this, body_snoc] at he
      simpa [finishes, payloadOf] using he

theorem d_up (h : D c s n log logs cur) {i : Nat} (hw : s.writers[i]? = some w) (hp : w.phase = .up) :
    D c { (advance c s w).1 with writers := setWriter s.writers i (advance c s w).2 } n log logs cur := by
  have hok := h.writer w (List.mem_of_getElem? hw)
  obtain ⟨g, hg, _, _⟩ := last_seg h.lg
  unfold advance
  simp only [hp]
  unfold frameStep
  cases hb : w.hasUp with
  | false =>
    simp only [Bool.false_eq_true, if_false, setWriter]
    refine d_writer h hw ⟨rfl, rfl, rfl⟩ (fun Ls _ => ?_) ?_
    · unfold PayOk
      simp only [Writer.at]
      intro hu
      change w.hasUp = true at hu
      rw [hb] at hu
      cases hu
    · exact wok_move hok w.span w.refs .del rfl rfl rfl (Nat.le_refl _)
        (fun _ => ⟨by rw [hp]; rfl, same_live w .del⟩) (fun _ => hok.body (by rw [hp]; rfl)) (by simp) (by simp [uncommitted])
        (by simp) (by simp [applied])
  | true =>
    simp only [if_true, setWriter]
    refine d_frame h hw (w.upEvent c) s.committed (fun _ h => h) ?_ (by simp [Writer.upEvent]) ⟨rfl, rfl, rfl⟩
      (fun id hne => ⟨rfl, beq_eq_false_iff_ne.2 (Ne.symm hne)⟩) ?_ ?_
    · simp only [Writer.upEvent, evId, toNat_ofNat hok.id]
      exact hok.idLt
    · intro g Ls hc _
      unfold PayOk
      simp only [Writer.at, frame]
      intro _
      exact placed_new (w := w) (entries s.segs) hc (by simp [Writer.upEvent, payloadOf]) w.refs .del
    · refine wok_move hok _ w.refs .del rfl rfl rfl (Nat.le_refl _)
        (fun _ => ⟨by rw [hp]; rfl, fun l hl => live_extend w _ _ _ hl⟩) ?_ (by simp) (by simp [uncommitted])
        (by simp) (by simp [applied])
      intro _ e he
      simp only [entries_push hg, evs_append] at he
      have : evs [((g.seq, s.nextFrame, w.upEvent c) : Ent A)] = [w.upEvent c] := rfl
      rw [this, body_snoc] at he
      have hf : finishes (BitVec.ofNat 64 w.id) (w.upEvent c) = false := rfl
      rw [hf] at he
      simp only [Bool.false_eq_true, if_false] at he
      rcases List.mem_append.1 he with he | he
      · exact hok.body (by rw [hp]; rfl) e he
      · left
        refine ⟨?_, hb⟩
        split at he
        · exact List.mem_singleton.1 he
        · cases he

theorem d_del (h : D c s n log logs cur) {i : Nat} (hw : s.writers[i]? = some w) (hp : w.phase = .del) :
    D c { (advance c s w).1 with writers := setWriter s.writers i (advance c s w).2 } n log logs cur := by
  have hok := h.writer w (List.mem_of_getElem? hw)
  obtain ⟨g, hg, _, _⟩ := last_seg h.lg
  unfold advance
  simp only [hp]
  unfold frameStep
  cases hb : w.hasDel with
  | false =>
    simp only [Bool.false_eq_true, if_false, setWriter]
    refine d_writer h hw ⟨rfl, rfl, rfl⟩ (fun Ls hpay => ?_) ?_
    · unfold PayOk at hpay ⊢
      simp only [hp] at hpay
      simp only [Writer.at]
      refine ⟨hpay, ?_⟩
      intro hu
      change w.hasDel = true at hu
      rw [hb] at hu
      cases hu
    · exact wok_move hok w.span w.refs .commit rfl rfl rfl (Nat.le_refl _)
        (fun _ => ⟨by rw [hp]; rfl, same_live w .commit⟩) (fun _ => hok.body (by rw [hp]; rfl)) (by simp)
        (by simp [uncommitted]) (by simp) (by simp [applied])
  | true =>
    simp only [if_true, setWriter]
    refine d_frame h hw (w.delEvent c) s.committed (fun _ h => h) ?_ (by simp [Writer.delEvent]) ⟨rfl, rfl, rfl⟩
      (fun id hne => ⟨rfl, beq_eq_false_iff_ne.2 (Ne.symm hne)⟩) ?_ ?_
    · simp only [Writer.delEvent, evId, toNat_ofNat hok.id]
      exact hok.idLt
    · intro g Ls hc hpay
      unfold PayOk at hpay ⊢
      simp only [hp] at hpay
      simp only [Writer.at, frame]
      refine ⟨?_, ?_⟩
      · intro hu
        exact placed_span (rf := w.refs) (p := .commit) (placed_append (hpay hu) (g, s.nextFrame, w.delEvent c) rfl)
          (s.nextFrame, s.nextFrame) rfl
      · intro _
        exact placed_new (w := w) (entries s.segs) hc (by simp [Writer.delEvent, payloadOf]) w.refs .commit
    · refine wok_move hok _ w.refs .commit rfl rfl rfl (Nat.le_refl _)
        (fun _ => ⟨by rw [hp]; rfl, fun l hl => live_extend w _ _ _ hl⟩) ?_ (by simp) (by simp [uncommitted])
        (by simp) (by simp [applied])
      intro _ e he
      simp only [entries_push hg, evs_append] at he
      have : evs [((g.seq, s.nextFrame, w.delEvent c) : Ent A)] = [w.delEvent c] := rfl
      rw [this, body_snoc] at he
      have hf : finishes (BitVec.ofNat 64 w.id) (w.delEvent c) = false := rfl
      rw [hf] at he
      simp only [Bool.false_eq_true, if_false] at he
      rcases List.mem_append.1 he with he | he
      · exact hok.body (by rw [hp]; rfl) e he
      · right
        refine ⟨?_, hb⟩
        split at he
        · exact List.mem_singleton.1 he
        · cases he

theorem runOk_of_placed {E : List (Ent A)} {Ls : List (List WalRef)} {e : Event A} {l : List (Ver K R)}
    (h : Placed E Ls w e) (g' n' : Nat) (ts : BitVec 64)
    (hl : lastOnly (payloadWrites c.ext c.sch ts e) = l) :
    RunOk c (E ++ [(g', n', Event.commit (BitVec.ofNat 64 w.id) ts)]) Ls (extend w.span (n', n')) l := by
  intro v hv
  obtain ⟨lo, hi, g, n, h1, h2, h3, h4⟩ := h
  refine ⟨min lo n', max hi n', g, n, by rw [h1]; rfl, Nat.le_trans (Nat.min_le_left _ _) h2, ?_, h4⟩
  exact logged_of_open h3 g' n' (by rw [hl]; exact hv)

theorem runOk_append {E : List (Ent A)} {Ls : List (List WalRef)} {r : Option (Nat × Nat)} {a b : List (Ver K R)}
    (ha : RunOk c E Ls r a) (hb : RunOk c E Ls r b) : RunOk c E Ls r (a ++ b) := by
  intro v hv
  rcases List.mem_append.1 hv with hv | hv
  · exact ha v hv
  · exact hb v hv

theorem d_commit (h : D c s n log logs cur) {i : Nat} (hw : s.writers[i]? = some w) (hp : w.phase = .commit) :
    D c { (advance c s w).1 with writers := setWriter s.writers i (advance c s w).2 } n log logs cur := by
  have hok := h.writer w (List.mem_of_getElem? hw)
  unfold advance
  simp only [hp, setWriter]
  refine d_frame h hw (.commit (BitVec.ofNat 64 w.id) (BitVec.ofNat 64 w.ts)) (s.committed ++ w.writes c)
    (fun _ h => List.mem_append_left _ h) ?_ ?_ ⟨rfl, rfl, rfl⟩
    (fun id hne => ⟨beq_eq_false_iff_ne.2 (Ne.symm hne), rfl⟩) ?_ ?_
  · simp only [evId, toNat_ofNat hok.id]
    exact hok.idLt
  · intro id ts he p hpb
    cases he
    rcases hok.body (by rw [hp]; rfl) p hpb with ⟨rfl, hu⟩ | ⟨rfl, hu⟩
    · refine ⟨up_good hok.dec hok.rows hok.keyed hu, ?_⟩
      rw [up_writes hok.dec hok.ts]
      intro v hv
      refine List.mem_append_right _ ?_
      unfold Writer.writes
      rw [if_pos hu]
      exact List.mem_append_left _ hv
    · refine ⟨del_good hok.dec hu, ?_⟩
      rw [del_writes hok.dec hok.ts]
      intro v hv
      refine List.mem_append_right _ ?_
      unfold Writer.writes
      rw [if_pos hu]
      exact List.mem_append_right _ hv
  · intro g Ls hc hpay
    unfold PayOk at hpay ⊢
    simp only [hp] at hpay
    simp only [Writer.at, frame]
    have e1 : (⟨w.mode, w.id, w.ts, w.rows, w.keys, extend w.span (s.nextFrame, s.nextFrame), w.prev, w.refs, .record⟩ :
        Writer K R).writes c = upPart c w ++ delPart c w := rfl
    rw [e1]
    refine runOk_append ?_ ?_
    · unfold upPart
      cases hu : w.hasUp with
      | false => intro v hv; simp at hv
      | true =>
        rw [if_pos rfl]
        exact runOk_of_placed (hpay.1 hu) g s.nextFrame _ (up_writes hok.dec hok.ts)
    · unfold delPart
      cases hu : w.hasDel with
      | false => intro v hv; simp at hv
      | true =>
        rw [if_pos rfl]
        exact runOk_of_placed (hpay.2 hu) g s.nextFrame _ (del_writes hok.dec hok.ts)
  · refine wok_move hok _ w.refs .record rfl rfl rfl (Nat.le_refl _)
      (fun _ => ⟨by rw [hp]; rfl, fun l hl => live_extend w _ _ _ hl⟩) (by simp [uncommitted]) (by simp) ?_
      (by simp) (by simp [applied])
    intro _ v hv
    exact List.mem_append_right _ hv

end

end Tonbo.Lemmas.Durable
