import Verif.Model.IngestT
import Verif.Props.C54_EndToEnd

/-!
# C46: several rows for one key in one batch
-/

set_option linter.unusedSectionVars false

namespace Tonbo.Props.C46
open Tonbo.Model Tonbo.Model.Lsm Tonbo.Model.IngestT
open Tonbo.Spec
open Tonbo.Lemmas.Mem (mem_lastOnly lastWrite_mem lastWrite_append lastWrite_exists lastOnly_mem)
open Tonbo.Props.C54 (NoRestart)

variable {K R : Type} [LinearOrder K]

/-- What a batch says, row by row: a row with its bit set deletes its key. -/
def said (ext : R → Option K) (ts : Nat) : List R → List Bool → List (Ver K R)
  | r :: rows, b :: flags =>
    match ext r with
    | some k => ⟨k, ts, if b then .del else .put r⟩ :: said ext ts rows flags
    | none => said ext ts rows flags
  | _, _ => []

/-- No key of the batch has both a row to upsert and a row to delete. -/
def Unmixed (ext : R → Option K) (rows : List R) (flags : List Bool) : Prop :=
  ∀ v ∈ said ext 0 rows flags, ∀ u ∈ said ext 0 rows flags, v.key = u.key → (v.op = .del ↔ u.op = .del)

theorem said_ts {ext : R → Option K} {ts : Nat} : ∀ {rows : List R} {flags : List Bool} {v : Ver K R},
    v ∈ said ext ts rows flags → v.ts = ts
  | r :: rows, b :: flags, v, h => by
    unfold said at h
    split at h
    · rcases List.mem_cons.1 h with rfl | h
      · rfl
      · exact said_ts h
    · exact said_ts h
  | [], _, _, h => by simp [said] at h
  | _ :: _, [], _, h => by simp [said] at h

theorem said_ups (ext : R → Option K) (ts : Nat) : ∀ (rows : List R) (flags : List Bool),
    (said ext ts rows flags).filter (fun v => match v.op with | .del => false | .put _ => true) =
      putWrites ext ((split rows flags).1.map (fun r => (r, ts)))
  | r :: rows, b :: flags => by
    have ih := said_ups ext ts rows flags
    unfold said split
    cases hk : ext r <;> cases b <;> simp [ih, hk, putWrites]
  | [], _ => by simp [said, split, putWrites]
  | _ :: _, [] => by simp [said, split, putWrites]

theorem said_dels (ext : R → Option K) (ts : Nat) : ∀ (rows : List R) (flags : List Bool) (keys : List K),
    (split rows flags).2.mapM ext = some keys →
    (said ext ts rows flags).filter (fun v => match v.op with | .del => true | .put _ => false) =
      delWrites (keys.map (fun k => (k, ts)))
  | r :: rows, b :: flags, keys, h => by
    unfold said
    unfold split at h
    cases b with
    | false =>
      simp only [Bool.false_eq_true, if_false] at h
      have ih := said_dels ext ts rows flags keys h
      cases hk : ext r <;> simp [ih]
    | true =>
      simp only [if_true, List.mapM_cons] at h
      cases hk : ext r with
      | none => simp [hk] at h
      | some k =>
        cases hks : (split rows flags).2.mapM ext with
        | none => simp [hk, hks] at h
        | some ks =>
          simp [hk, hks] at h
          subst h
          have ih := said_dels ext ts rows flags ks hks
          simp [ih, delWrites]
  | [], _, keys, h => by simp [split] at h; subst h; simp [said, delWrites]
  | _ :: _, [], keys, h => by simp [split] at h; subst h; simp [said, delWrites]

theorem split_all (rows : List R) (flags : List Bool) (hl : rows.length = flags.length) (h : (split rows flags).2 = []) :
    (split rows flags).1 = rows := by
  induction rows generalizing flags with
  | nil => cases flags <;> rfl
  | cons r rows ih =>
    cases flags with
    | nil => simp at hl
    | cons b flags =>
      unfold split at h ⊢
      cases b with
      | true => simp at h
      | false =>
        simp only [Bool.false_eq_true, if_false] at h ⊢
        rw [ih flags (by simpa using hl) h]

theorem lastWrite_filter {l : List (Ver K R)} {p : Ver K R → Bool}
    (h : ∀ v ∈ l, ∀ u ∈ l, v.key = u.key → v.ts = u.ts → p v = p u) {w : Ver K R} :
    LastWrite (l.filter p) w ↔ LastWrite l w ∧ p w = true := by
  induction l with
  | nil => simp [Lemmas.Mem.lastWrite_nil]
  | cons v l ih =>
    have ih := ih (fun a ha b hb => h a (List.mem_cons_of_mem _ ha) b (List.mem_cons_of_mem _ hb))
    rw [List.filter_cons, Lemmas.Mem.lastWrite_cons]
    split
    · rename_i hv
      rw [Lemmas.Mem.lastWrite_cons, ih]
      constructor
      · rintro (⟨rfl, h'⟩ | ⟨h', hp⟩)
        · refine ⟨.inl ⟨rfl, fun u hu hc => ?_⟩, hv⟩
          have hpu := h w List.mem_cons_self u (List.mem_cons_of_mem _ hu) hc.1.symm hc.2.symm
          exact h' u (List.mem_filter.2 ⟨hu, by rw [← hpu]; exact hv⟩) hc
        · exact ⟨.inr h', hp⟩
      · rintro ⟨⟨rfl, h'⟩ | h', hp⟩
        · exact .inl ⟨rfl, fun u hu => h' u (List.mem_filter.1 hu).1⟩
        · exact .inr ⟨h', hp⟩
    · rename_i hv
      rw [ih]
      constructor
      · rintro ⟨h', hp⟩; exact ⟨.inr h', hp⟩
      · rintro ⟨⟨rfl, _⟩ | h', hp⟩
        · exact absurd hp hv
        · exact ⟨h', hp⟩

/-- The calls of an ingest write the last row of each key. -/
theorem calls_write {ext : R → Option K} {rows : List R} {flags : List Bool} {ts : Nat} {ops : List (Mem.Op K R)}
    (hu : Unmixed ext rows flags) (h : calls ext rows flags ts = .ok ops) (w : Ver K R) :
    w ∈ ops.flatMap (batchWrites ext) ↔ LastWrite (said ext ts rows flags) w := by
  have hsame : ∀ v ∈ said ext ts rows flags, ∀ u ∈ said ext ts rows flags, v.key = u.key → (v.op = .del ↔ u.op = .del) := by
    have hmap : ∀ (rows : List R) (flags : List Bool), said ext ts rows flags =
        (said ext 0 rows flags).map (fun v => ⟨v.key, ts, v.op⟩) := by
      intro rows
      induction rows with
      | nil => intro flags; simp [said]
      | cons r rows ih =>
        intro flags
        cases flags with
        | nil => simp [said]
        | cons b flags => unfold said; cases ext r <;> simp [ih]
    rw [hmap]
    intro v hv u hu'
    obtain ⟨v', hv', rfl⟩ := List.mem_map.1 hv
    obtain ⟨u', hu'', rfl⟩ := List.mem_map.1 hu'
    exact hu v' hv' u' hu''
  let up : Ver K R → Bool := fun v => match v.op with | .del => false | .put _ => true
  let dn : Ver K R → Bool := fun v => match v.op with | .del => true | .put _ => false
  have hup : ∀ v ∈ said ext ts rows flags, ∀ u ∈ said ext ts rows flags, v.key = u.key → v.ts = u.ts → up v = up u := by
    intro v hv u hu' hk _
    have := hsame v hv u hu' hk
    simp only [up]
    cases hv : v.op <;> cases hu : u.op <;> simp_all
  have hdn : ∀ v ∈ said ext ts rows flags, ∀ u ∈ said ext ts rows flags, v.key = u.key → v.ts = u.ts → dn v = dn u := by
    intro v hv u hu' hk _
    have := hsame v hv u hu' hk
    simp only [dn]
    cases hv : v.op <;> cases hu : u.op <;> simp_all
  have h1 : ∀ w, LastWrite (putWrites ext ((split rows flags).1.map (fun r => (r, ts)))) w ↔
      LastWrite (said ext ts rows flags) w ∧ up w = true := by
    intro w; rw [← said_ups]; exact lastWrite_filter hup
  unfold calls at h
  by_cases g1 : rows.length ≠ flags.length
  · rw [if_pos g1] at h; cases h
  rw [if_neg g1] at h
  by_cases g2 : rows = []
  · rw [if_pos g2] at h
    cases h
    subst g2
    simp [said, Lemmas.Mem.lastWrite_nil]
  rw [if_neg g2] at h
  by_cases g3 : (split rows flags).2 = []
  · rw [if_pos g3] at h
    cases h
    simp only [List.flatMap_cons, List.flatMap_nil, List.append_nil]
    unfold batchWrites
    rw [mem_lastOnly]
    have hsp := split_all rows flags (by push Not at g1; exact g1) g3
    rw [show opWrites ext (.put (rows.map (fun r => (r, ts)))) = putWrites ext ((split rows flags).1.map (fun r => (r, ts))) by
      rw [hsp]; rfl]
    rw [h1 w]
    refine ⟨fun h => h.1, fun h => ⟨h, ?_⟩⟩
    have hd := said_dels ext ts rows flags [] (by rw [g3]; rfl)
    by_contra hc
    have : w ∈ (said ext ts rows flags).filter dn :=
      List.mem_filter.2 ⟨lastWrite_mem h, by simp only [up] at hc; simp only [dn]; cases ho : w.op <;> simp_all⟩
    rw [hd] at this
    simp [delWrites] at this
  · rw [if_neg g3] at h
    split at h
    · cases h
    · rename_i keys hk
      cases h
      have h2 : LastWrite (delWrites (keys.map (fun k => (k, ts)))) w ↔ LastWrite (said ext ts rows flags) w ∧ dn w = true := by
        rw [← said_dels ext ts rows flags keys hk]; exact lastWrite_filter hdn
      have h3 : w ∈ (if (split rows flags).1 = [] then [] else [(.put ((split rows flags).1.map (fun r => (r, ts))) : Mem.Op K R)]).flatMap
          (batchWrites ext) ↔ LastWrite (said ext ts rows flags) w ∧ up w = true := by
        rw [← h1 w]
        split_ifs with g
        · rw [g]; simp [putWrites, Lemmas.Mem.lastWrite_nil]
        · simp only [List.flatMap_cons, List.flatMap_nil, List.append_nil]
          exact mem_lastOnly
      rw [List.flatMap_append, List.mem_append, h3]
      simp only [List.flatMap_cons, List.flatMap_nil, List.append_nil]
      rw [show batchWrites ext (.del (keys.map (fun k => (k, ts))) : Mem.Op K R) = lastOnly (delWrites (keys.map (fun k => (k, ts)))) from rfl,
        mem_lastOnly, h2]
      constructor
      · rintro (h | h) <;> exact h.1
      · intro h
        cases ho : w.op with
        | put r => exact .inl ⟨h, by simp only [up, ho]⟩
        | del => exact .inr ⟨h, by simp only [dn, ho]⟩

theorem logOf_writes (ext : R → Option K) (ops : List (Mem.Op K R)) :
    logOf ext (ops.map Lsm.Op.write) = ops.flatMap (batchWrites ext) := by
  unfold logOf
  rw [List.flatMap_map]

theorem logOf_append' (ext : R → Option K) (a b : List (Lsm.Op K R)) : logOf ext (a ++ b) = logOf ext a ++ logOf ext b := by
  unfold logOf
  rw [List.flatMap_append]

/-- **C46, partial.** A batch with a tombstone bitmap is ingested after the history `a` at a timestamp `ts` newer
than all writes of key `k` before and after; then comes the history `b`. If `k` occurs in the batch, then a scan
at a timestamp not before the newest write returns for `k` the last row of the batch with this key, or no row if
the last one is marked as a delete. Without a bitmap (`flags` all false) this is `ingest`.

Missing: batches in which a key has both a row to upsert and a row to delete, for which the claim is false
(`a_delete_beats_a_later_row`); the conditions of C54. -/
theorem the_last_row_of_a_batch_wins_partial (ext : R → Option K) (x : Exec K R) (hn : 0 < x.readRows)
    (cap t sv : Nat) (a b : List (Lsm.Op K R)) (rows : List R) (flags : List Bool) (ts : Nat) (ops : List (Mem.Op K R))
    (hcalls : calls ext rows flags ts = .ok ops) (hu : Unmixed ext rows flags)
    (hr : NoRestart (a ++ ops.map .write ++ b))
    (hok : (Lsm.run ext x t (Db.new cap t sv) (a ++ ops.map .write ++ b)).1 = true)
    (hf : Functional (· ∈ logOf ext (a ++ ops.map .write ++ b)))
    (hfit : ∀ l e, EverListed (reached ext x cap t sv (a ++ ops.map .write ++ b)) t l e →
      ∀ f, (reached ext x cap t sv (a ++ ops.map .write ++ b)).files ⟨l, e.id⟩ = some f → Fits x.readRows f)
    (rts : Nat) (hts : ∀ w ∈ logOf ext (a ++ ops.map .write ++ b), w.ts ≤ rts)
    (k : K) (hold : ∀ w ∈ logOf ext a ++ logOf ext b, w.key = k → w.ts < ts)
    (before after : List R) (r : R) (fb fa : List Bool) (d : Bool) (hrows : rows = before ++ r :: after)
    (hflags : flags = fb ++ d :: fa) (hlen : before.length = fb.length) (hk : ext r = some k)
    (hlast : ∀ r' ∈ after, ext r' ≠ some k) :
    ∃ out, scanAll t (reached ext x cap t sv (a ++ ops.map .write ++ b)) rts = some out ∧
      ∀ r', (k, r') ∈ rowsOf out ↔ d = false ∧ r' = r := by
  obtain ⟨out, o1, o2⟩ := C54.latest_reads_see_all_writes_partial ext x hn cap t sv _ hr hok hf hfit rts hts
  refine ⟨out, o1, fun r' => ?_⟩
  rw [o2.2 k r']
  -- the last mutation of the key in the batch
  have hsaid : ∀ (before : List R) (fb : List Bool), before.length = fb.length →
      said ext ts (before ++ r :: after) (fb ++ d :: fa) =
        said ext ts before fb ++ ⟨k, ts, if d then .del else .put r⟩ :: said ext ts after fa := by
    intro before
    induction before with
    | nil => intro fb h; cases fb with
      | nil => simp [said, hk]
      | cons => simp at h
    | cons z before ih =>
      intro fb h
      cases fb with
      | nil => simp at h
      | cons y fb =>
        have := ih fb (by simpa using h)
        simp only [List.cons_append, said, this]
        cases ext z <;> rfl
  have hafter : ∀ (after : List R) (fa : List Bool), (∀ r' ∈ after, ext r' ≠ some k) →
      ∀ u ∈ said ext ts after fa, u.key ≠ k := by
    intro after
    induction after with
    | nil => intro fa _ u hu; simp [said] at hu
    | cons z after ih =>
      intro fa h u hu
      cases fa with
      | nil => simp [said] at hu
      | cons y fa =>
        unfold said at hu
        have hz := h z List.mem_cons_self
        split at hu
        · rename_i k' hk'
          rcases List.mem_cons.1 hu with rfl | hu
          · intro hc; simp only at hc; rw [hk', hc] at hz; exact hz rfl
          · exact ih fa (fun r' hr' => h r' (List.mem_cons_of_mem _ hr')) u hu
        · exact ih fa (fun r' hr' => h r' (List.mem_cons_of_mem _ hr')) u hu
  have hlw : LastWrite (said ext ts rows flags) ⟨k, ts, if d then .del else .put r⟩ := by
    rw [hrows, hflags, hsaid before fb hlen]
    exact ⟨_, _, rfl, fun u hu hc => hafter after fa hlast u hu hc.1⟩
  have hmem : (⟨k, ts, if d then .del else .put r⟩ : Ver K R) ∈ logOf ext (a ++ ops.map .write ++ b) := by
    rw [logOf_append', logOf_append', logOf_writes]
    exact List.mem_append_left _ (List.mem_append_right _ ((calls_write hu hcalls _).2 hlw))
  have hle : ∀ w ∈ logOf ext (a ++ ops.map .write ++ b), w.key = k → w.ts ≤ ts := by
    intro w hw hwk
    rw [logOf_append', logOf_append', logOf_writes] at hw
    rcases List.mem_append.1 hw with hw | hw
    · rcases List.mem_append.1 hw with hw | hw
      · exact le_of_lt (hold w (List.mem_append_left _ hw) hwk)
      · exact le_of_eq (said_ts (lastWrite_mem ((calls_write hu hcalls w).1 hw)))
    · exact le_of_lt (hold w (List.mem_append_right _ hw) hwk)
  constructor
  · rintro ⟨t', hw, h1, h2⟩
    have h3 := h2 _ hmem rfl (hts _ hmem)
    have h4 := hle _ hw rfl
    have hop : (Mut.put r' : Mut R) = (if d then .del else .put r) := hf _ _ hw hmem rfl (le_antisymm h4 h3)
    cases d with
    | true => simp at hop
    | false => simp at hop; exact ⟨rfl, hop⟩
  · rintro ⟨rfl, rfl⟩
    exact ⟨ts, hmem, hts _ hmem, fun u hu hk _ => hle u hu hk⟩

section Example
open C38

/-- Rows `12, 21, 13, 31, 32` with the last two deleted, on top of a flushed table. -/
example : calls exExt [12, 21, 13, 31, 32] [false, false, false, true, true] 5 =
    .ok [.put [(12, 5), (21, 5), (13, 5)], .del [(3, 5), (3, 5)]] := by decide

def exHist : List (Lsm.Op Nat Nat) := [.write (.put [(11, 1), (33, 1)])] ++ flushOps [seg 1]

/-- Both rules of the statement hold here: key 1 has its last row, key 3 is gone. -/
example : Unmixed exExt [12, 21, 13, 31, 32] [false, false, false, true, true] ∧
    (Lsm.run exExt exX 1 (Db.new 4 1 0) (exHist ++ [.write (.put [(12, 5), (21, 5), (13, 5)]), .write (.del [(3, 5), (3, 5)])] ++ [])).1 = true ∧
    (scanAll 1 (exS (exHist ++ [.write (.put [(12, 5), (21, 5), (13, 5)]), .write (.del [(3, 5), (3, 5)])])) 9).map rowsOf =
      some [(1, 13), (2, 21)] := by
  refine ⟨?_, by decide +kernel, by decide +kernel⟩
  have h : ∀ v ∈ said exExt 0 [12, 21, 13, 31, 32] [false, false, false, true, true],
      ∀ u ∈ said exExt 0 [12, 21, 13, 31, 32] [false, false, false, true, true], v.key = u.key →
      (v.op = .del ↔ u.op = .del) := by decide
  exact h

/-- **C46 is false** for a batch that first deletes a key and then upserts it: all upserts are applied before all
deletes, at one timestamp (src/db/wal.rs:492-503), so the delete stays. -/
theorem a_delete_beats_a_later_row : ∃ (rows : List Nat) (flags : List Bool) (ops : List (Mem.Op Nat Nat)),
    calls exExt rows flags 5 = .ok ops ∧ said exExt 5 rows flags = [⟨1, 5, .del⟩, ⟨1, 5, .put 12⟩] ∧
    (Lsm.run exExt exX 1 (Db.new 4 1 0) (ops.map .write)).1 = true ∧
    (scanAll 1 (exS (ops.map .write)) 9).map rowsOf = some [] :=
  ⟨[11, 12], [true, false], _, rfl, rfl, by decide +kernel, by decide +kernel⟩

/-- A bitmap of the wrong length is refused, and so is a delete of a null key; no call is made. -/
example : calls exExt [11] [] 5 = .error .length ∧ calls (fun _ : Nat => (none : Option Nat)) [11] [true] 5 = .error .nullKey := by
  decide

end Example
end Tonbo.Props.C46
