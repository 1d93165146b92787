import Verif.Spec.Split
import Mathlib.Tactic.Common

/-!
# The caps of a merge
-/

set_option linter.unusedSectionVars false

namespace Tonbo.Lemmas.CompactCaps
open Tonbo.Model Tonbo.Model.Mem Tonbo.Model.Sst Tonbo.Model.Flush Tonbo.Model.Compact Tonbo.Spec.Split

variable {K R : Type} [LinearOrder K]

/-- What an open output holds. -/
def fileIn (o : Out K R) : File K R :=
  ⟨o.batches.flatMap (·.data) ++ o.data, o.batches.flatMap (fun b => b.kts .del) ++ o.dels⟩

def CFull (cfg : Cfg K R) (f : File K R) : Prop := Full cfg.maxRows cfg.maxBytes cfg.sizeData cfg.sizeDel f

def CTight (cfg : Cfg K R) (f : File K R) : Prop := Tight cfg.maxRows cfg.maxBytes cfg.sizeData cfg.sizeDel f

theorem hits_mono {c : Option Nat} {n m : Nat} (h : n ≤ m) : Hits c n → Hits c m := by
  rintro ⟨k, hk, hn⟩
  exact ⟨k, hk, Nat.le_trans hn h⟩

theorem full_mono {cfg : Cfg K R} {f g : File K R} (h : OneLess f g) (hg : CFull cfg g) : CFull cfg f := by
  rcases h with ⟨p, h1, h2⟩ | ⟨x, h1, h2⟩
  · rcases hg with hg | hg
    · exact .inl (hits_mono (by simp [h1]) hg)
    · exact .inr (hits_mono (by simp [weight, h1, h2]) hg)
  · rcases hg with hg | hg
    · exact .inl (by rw [h2]; exact hg)
    · exact .inr (hits_mono (by simp [weight, h1, h2]) hg)

theorem oneLess_of_ne {f : File K R} (h : ¬ Bare f) : ∃ g, OneLess f g := by
  by_cases hd : f.data = []
  · have hx : f.dels ≠ [] := fun hx => h ⟨hd, hx⟩
    exact ⟨⟨f.data, f.dels.dropLast⟩, .inr ⟨f.dels.getLast hx, (List.dropLast_append_getLast hx).symm, rfl⟩⟩
  · exact ⟨⟨f.data.dropLast, f.dels⟩, .inl ⟨f.data.getLast hd, (List.dropLast_append_getLast hd).symm, rfl⟩⟩

theorem tight_of_not_full {cfg : Cfg K R} {f : File K R} (h : ¬ Bare f) (hf : ¬ CFull cfg f) : CTight cfg f := by
  obtain ⟨g, hg⟩ := oneLess_of_ne h
  exact ⟨g, hg, .inr (fun hx => hf (full_mono hg hx))⟩

/-- The counters of an output are right. -/
structure Meas (cfg : Cfg K R) (o : Out K R) : Prop where
  rows : o.rows = (fileIn o).data.length
  bytes : o.bytes = weight cfg.sizeData cfg.sizeDel (fileIn o)

theorem exceeds_iff {cfg : Cfg K R} {o : Out K R} (h : Meas cfg o) :
    o.exceeds cfg.maxRows cfg.maxBytes = true ↔ CFull cfg (fileIn o) := by
  have hov : ∀ c n, over c n = true ↔ Hits c n := by
    intro c n
    unfold over Hits
    cases c <;> simp
  unfold Out.exceeds CFull Full
  rw [Bool.or_eq_true, hov, hov, h.rows, h.bytes]

theorem fileIn_flush (o : Out K R) : fileIn o.flushChunk = fileIn o := by
  unfold Out.flushChunk
  split
  · rfl
  · unfold fileIn
    simp only [List.flatMap_append, List.flatMap_cons, List.flatMap_nil, List.append_nil]
    by_cases hx : o.dels = []
    · simp [hx, Batch.kts]
    · simp [hx, Batch.kts]

theorem meas_flush {cfg : Cfg K R} {o : Out K R} (h : Meas cfg o) : Meas cfg o.flushChunk := by
  have h1 : o.flushChunk.rows = o.rows := by unfold Out.flushChunk; split <;> rfl
  have h2 : o.flushChunk.bytes = o.bytes := by unfold Out.flushChunk; split <;> rfl
  exact ⟨by rw [h1, fileIn_flush]; exact h.rows, by rw [h2, fileIn_flush]; exact h.bytes⟩

theorem flush_rest (o : Out K R) : o.flushChunk.data = [] ∧ o.flushChunk.dels = [] := by
  unfold Out.flushChunk
  split
  · assumption
  · exact ⟨rfl, rfl⟩

theorem segments_bare : ∀ (bs : List (Batch K R)) (s : Stats K), bs.flatMap (·.data) = [] → bs.flatMap (fun b => b.kts .del) = [] →
    (bs.foldl stageStream s).segments = s.segments
  | [], _, _, _ => rfl
  | b :: bs, s, h1, h2 => by
    rw [List.flatMap_cons, List.append_eq_nil_iff] at h1 h2
    rw [List.foldl_cons]
    have : stageStream s b = s := by
      unfold stageStream
      rw [if_pos ⟨by rw [h1.1]; rfl, by rw [h2.1]; rfl⟩]
    rw [this]
    exact segments_bare bs s h1.2 h2.2

/-- What is written is what the output held, and that was something. -/
theorem finish_file {o : Out K R} {id : Nat} {wal : Option (List Nat)} {t : OTable K R} (h : o.finish id wal = .ok t) :
    t.file = fileIn o ∧ ¬ Bare (fileIn o) := by
  obtain ⟨e1, e2⟩ := flush_rest o
  have hf : (⟨o.flushChunk.batches.flatMap (·.data), o.flushChunk.batches.flatMap (·.kts .del)⟩ : File K R) = fileIn o := by
    rw [← fileIn_flush o]
    unfold fileIn
    rw [e1, e2, List.append_nil, List.append_nil]
  unfold Out.finish at h
  simp only at h
  split at h
  · cases h
  · rename_i hs
    cases h
    refine ⟨hf, fun hb => hs ?_⟩
    rw [← hf] at hb
    rw [segments_bare _ _ hb.1 hb.2]
    rfl

/-- The state of the main loop. -/
structure Caps (cfg : Cfg K R) (st : St K R) : Prop where
  meas : Meas cfg st.out
  opened : Bare (fileIn st.out) ∨ ¬ CFull cfg (fileIn st.out)
  tables : ∀ t ∈ st.tables, CFull cfg t.file ∧ CTight cfg t.file

theorem append_caps {cfg : Cfg K R} {srcs : List (Cursor K R)} {e : HEntry K} {o o' : Out K R} (hm : Meas cfg o)
    (h : append cfg srcs e o = some o') : Meas cfg o' ∧ (o' = o ∨ OneLess (fileIn o') (fileIn o)) := by
  have hdata : ∀ p, Meas cfg (o.pushData p (cfg.sizeData p)) ∧ OneLess (fileIn (o.pushData p (cfg.sizeData p))) (fileIn o) := by
    intro p
    refine ⟨⟨?_, ?_⟩, .inl ⟨p, ?_, rfl⟩⟩
    · simp [Out.pushData, fileIn, hm.rows]; omega
    · simp [Out.pushData, fileIn, hm.bytes, weight]; omega
    · simp [Out.pushData, fileIn]
  have hdel : ∀ x, Meas cfg (o.pushDel x (cfg.sizeDel x)) ∧ OneLess (fileIn (o.pushDel x (cfg.sizeDel x))) (fileIn o) := by
    intro x
    refine ⟨⟨?_, ?_⟩, .inr ⟨x, ?_, rfl⟩⟩
    · simp [Out.pushDel, fileIn, hm.rows]
    · simp [Out.pushDel, fileIn, hm.bytes, weight]; omega
    · simp [Out.pushDel, fileIn]
  unfold append at h
  split at h
  · cases h
  · split at h
    · cases h; exact ⟨hm, .inl rfl⟩
    · split at h
      · rw [Option.map_eq_some_iff] at h
        obtain ⟨p, _, rfl⟩ := h
        exact ⟨(hdata p).1, .inr (hdata p).2⟩
      · split at h
        · cases h; exact ⟨hm, .inl rfl⟩
        · rw [Option.map_eq_some_iff] at h
          obtain ⟨x, _, rfl⟩ := h
          exact ⟨(hdel x).1, .inr (hdel x).2⟩

theorem rollOver_caps {cfg : Cfg K R} {st st' : St K R} (hm : Meas cfg st.out)
    (ho : Bare (fileIn st.out) ∨ ¬ CFull cfg (fileIn st.out) ∨ CTight cfg (fileIn st.out))
    (ht : ∀ t ∈ st.tables, CFull cfg t.file ∧ CTight cfg t.file) (h : rollOver cfg st = .ok st') : Caps cfg st' := by
  obtain ⟨o, e, hmo, hfo⟩ : ∃ o, (if cfg.chunkRows ≤ st.out.pending then st.out.flushChunk else st.out) = o ∧
      Meas cfg o ∧ fileIn o = fileIn st.out := by
    split
    · exact ⟨_, rfl, meas_flush hm, fileIn_flush _⟩
    · exact ⟨_, rfl, hm, rfl⟩
  unfold rollOver at h
  simp only [e] at h
  split at h
  · rename_i hx
    rw [exceeds_iff hmo] at hx
    split at h
    · cases h
    · rename_i id _
      cases hf : o.finish id cfg.wal with
      | error err => rw [hf] at h; cases h
      | ok t =>
        rw [hf] at h
        simp only at h
        obtain ⟨f1, f2⟩ := finish_file hf
        split at h
        · cases h
        · cases h
          refine ⟨⟨rfl, rfl⟩, .inl ⟨rfl, rfl⟩, ?_⟩
          intro t' ht'
          rcases List.mem_append.1 ht' with ht' | ht'
          · exact ht t' ht'
          · rw [List.mem_singleton.1 ht', f1]
            refine ⟨hx, ?_⟩
            rw [hfo] at f2 hx ⊢
            rcases ho with ho | ho | ho
            · exact absurd ho f2
            · exact absurd hx ho
            · exact ho
  · rename_i hx
    rw [exceeds_iff hmo] at hx
    cases h
    exact ⟨hmo, .inr hx, ht⟩

theorem body_caps {cfg : Cfg K R} {H : Heap K} {st st' : St K R} {e : HEntry K} {heap : List (HEntry K)}
    (hc : Caps cfg st) (h : body cfg H st e heap = .ok st') : Caps cfg st' := by
  unfold body at h
  simp only at h
  split at h
  · cases h
  · cases ha : append cfg st.srcs e st.out with
    | none => rw [ha] at h; cases h
    | some o =>
      rw [ha] at h
      simp only at h
      obtain ⟨a1, a2⟩ := append_caps hc.meas ha
      split at h
      · cases h
      · rename_i srcs' heap' _
        refine rollOver_caps (st := ⟨srcs', heap', o, st.tables, st.cur, st.next, st.iters + 1⟩) a1 ?_ hc.tables h
        simp only
        rcases a2 with rfl | a2
        · rcases hc.opened with h1 | h1
          · exact .inl h1
          · exact .inr (.inl h1)
        · exact .inr (.inr ⟨_, a2, hc.opened⟩)

theorem loop_caps {cfg : Cfg K R} {H : Heap K} : ∀ (n : Nat) {st st' : St K R}, Caps cfg st → loop cfg H n st = .ok st' →
    Caps cfg st'
  | 0, _, _, _, h => by cases h
  | n + 1, st, st', hc, h => by
    rw [loop] at h
    split at h
    · cases h; exact hc
    · rename_i e heap _
      cases hb : body cfg H st e heap with
      | error err => rw [hb] at h; cases h
      | ok s1 =>
        rw [hb] at h
        exact loop_caps n (body_caps hc hb) h

theorem execute_caps {cfg : Cfg K R} {H : Heap K} {next : Option Nat} {inputs : List (List (Batch K R))}
    {tables : List (OTable K R)} (h : execute cfg H next inputs = .ok tables) :
    (∀ t ∈ tables.dropLast, CFull cfg t.file) ∧ ∀ t ∈ tables, CTight cfg t.file := by
  unfold execute at h
  split at h
  · cases h
  · split at h
    · cases h
    · split at h
      · cases h
      · rename_i st hl
        have hc : Caps cfg st := loop_caps _ ⟨⟨rfl, rfl⟩, .inl ⟨rfl, rfl⟩, fun t ht => by cases ht⟩ hl
        unfold finishAll at h
        split at h
        · split at h
          · cases h
          · rename_i id _
            cases hf : st.out.finish id cfg.wal with
            | error err => rw [hf] at h; cases h
            | ok t =>
              rw [hf] at h
              cases h
              obtain ⟨f1, f2⟩ := finish_file hf
              refine ⟨?_, ?_⟩
              · rw [List.dropLast_concat]
                exact fun u hu => (hc.tables u hu).1
              · intro u hu
                rcases List.mem_append.1 hu with hu | hu
                · exact (hc.tables u hu).2
                · rw [List.mem_singleton.1 hu, f1]
                  rcases hc.opened with h1 | h1
                  · exact absurd h1 f2
                  · exact tight_of_not_full f2 h1
        · split at h
          · cases h
          · cases h
            exact ⟨fun u hu => (hc.tables u ((List.dropLast_sublist _).subset hu)).1, fun u hu => (hc.tables u hu).2⟩

end Tonbo.Lemmas.CompactCaps
