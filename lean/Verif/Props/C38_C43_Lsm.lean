import Verif.Lemmas.LsmKeep
import Verif.Lemmas.CompactFiles

/-!
# C38 (jobs), C41, C42, C43: compactions against the manifest, for every interleaving

A history is any list of the atomic steps of writers, flushes, compaction jobs and restarts.
-/

namespace Tonbo.Props.C38
open Tonbo.Model Tonbo.Model.Manifest Tonbo.Model.Planner Tonbo.Model.Outcome Tonbo.Model.Lsm Tonbo.Spec
open Tonbo.Lemmas.Lsm Tonbo.Lemmas.Manifest
open Tonbo.Model.Sst (File)

variable {K R : Type} [LinearOrder K]

theorem reached_inv (ext : R → Option K) (x : Exec K R) (hn : 0 < x.readRows) (cap t sv : Nat)
    (ops : List (Lsm.Op K R)) : ∃ n, Inv ext x t n (reached ext x cap t sv ops) := by
  obtain ⟨n, _, h⟩ := inv_run hn ops (inv_new ext x cap t sv)
  exact ⟨n, h⟩

theorem cleanup_none {files : Path → Option (File K R)} : ∀ (ds : List (Desc K)) (d : Desc K), d ∈ ds →
    ∀ q, d.data = some q → cleanup files ds q = none := by
  intro ds
  induction ds generalizing files with
  | nil => simp
  | cons a ds ih =>
    intro d hd q hq
    by_cases hin : ∃ d' ∈ ds, d'.data = some q
    · obtain ⟨d', h1, h2⟩ := hin
      unfold cleanup
      cases a.data <;> exact ih d' h1 q h2
    · rcases List.mem_cons.1 hd with rfl | hd
      · unfold cleanup
        rw [hq]
        simp only
        rw [cleanup_other, setFile_eq]
        intro d' h1 h2
        exact hin ⟨d', h1, h2⟩
      · exact absurd ⟨d, hd, hq⟩ hin

/-- **C38.** When a compaction job calls the manifest, it either loses or wins. A loser leaves the
manifest and the recorded garbage as they were; it removes its own outputs and no other file, and
none of its outputs was ever listed. A winner had noted the latest version as its head; all its inputs
are listed there; the new version lists its outputs and all the tables of the replaced version except
its inputs; no file changes. -/
theorem a_job_wins_or_leaves_no_trace (ext : R → Option K) (x : Exec K R) (hn : 0 < x.readRows) (cap t sv : Nat)
    (ops : List (Lsm.Op K R)) (i : Nat) (p : Pending K)
    (hi : (reached ext x cap t sv ops).jobs[i]? = some p) :
    let s := reached ext x cap t sv ops
    let s' := (Lsm.step ext x t s (.finish i)).2
    (s'.kv = s.kv ∧ s'.gc = s.gc ∧ (∀ q, s'.files q ≠ s.files q → ∃ d ∈ p.outputs, d.data = some q) ∧
      (∀ d ∈ p.outputs, ∀ q, d.data = some q → s'.files q = none) ∧
      ∀ d ∈ p.outputs, ∀ l e, EverListed s t l e → e.id ≠ d.id) ∨
    (∃ n v v', p.expected = some (some n) ∧ Published s t n v ∧ Latest s t v ∧ Published s' t (n + 1) v' ∧
      Latest s' t v' ∧ p.inputs ≠ [] ∧ p.outputs ≠ [] ∧ (∀ d ∈ p.inputs, Names v d) ∧
      Replaces v v' p.inputs p.outputs ∧ s'.files = s.files) := by
  obtain ⟨n, h⟩ := reached_inv ext x hn cap t sv ops
  generalize reached ext x cap t sv ops = s at hi h ⊢
  have hp : p ∈ pendings s := List.mem_append_right _ (List.mem_of_getElem? hi)
  simp only
  unfold Lsm.step
  simp only [hi]
  obtain ⟨s', r, e, ⟨_, _, h1, hkv, hf, _, _, hg, _⟩ | ⟨_, h1, hf, _, _, _, _, _, v, v', target, o, hj, hat, hv', hk, hl, _⟩⟩ := finish_spec h hi
  · rw [e]
    refine .inl ⟨hkv, hg, ?_, ?_, ?_⟩
    · intro q hq
      by_contra hc
      refine hq ?_
      simp only
      rw [hf]
      apply cleanup_other
      intro d hd he
      exact hc ⟨d, hd, he⟩
    · intro d hd q hq
      simp only
      rw [hf]
      exact cleanup_none _ d hd q hq
    · exact fun d hd l e he => (h.pend p hp d hd).2 l e (everListed_iff.1 he)
  · rw [e]
    refine .inr ⟨n, v, v', hj.expected, published_iff.2 hj.here, (latest_iff h).2 hj.here, published_iff.2 hat,
      (latest_iff h1).2 hat, hj.inne, hj.outne, hj.names, ?_, hf⟩
    intro l en
    rw [hl]
    have : ∀ d ∈ p.outputs, entryOf d = asEntry d := by
      intro d hd
      unfold entryOf asEntry
      rw [(h.pend p hp d hd).1.1]
      rfl
    constructor
    · rintro (⟨d, h1, h2, h3⟩ | h1)
      · exact .inl ⟨d, h1, h2, by rw [h3, this d h1]⟩
      · exact .inr h1
    · rintro (⟨d, h1, h2, h3⟩ | h1)
      · exact .inl ⟨d, h1, h2, by rw [h3, this d h1]⟩
      · exact .inr h1

/-- **C38.** Of all jobs that noted the same head at most one is ever published: once one has changed
the manifest, any other leaves it as it is, whatever happened in between. -/
theorem one_job_per_head (ext : R → Option K) (x : Exec K R) (hn : 0 < x.readRows) (cap t sv : Nat)
    (ops more : List (Lsm.Op K R)) (i j : Nat) (p q : Pending K)
    (hi : (reached ext x cap t sv ops).jobs[i]? = some p)
    (hwin : (reached ext x cap t sv (ops ++ [.finish i])).kv ≠ (reached ext x cap t sv ops).kv)
    (hj : (reached ext x cap t sv (ops ++ .finish i :: more)).jobs[j]? = some q)
    (hsame : q.expected = p.expected) :
    (reached ext x cap t sv (ops ++ .finish i :: more ++ [.finish j])).kv =
      (reached ext x cap t sv (ops ++ .finish i :: more)).kv := by
  obtain ⟨n, h⟩ := reached_inv ext x hn cap t sv ops
  have e1 : reached ext x cap t sv (ops ++ [.finish i]) = (Lsm.step ext x t (reached ext x cap t sv ops) (.finish i)).2 := by
    unfold reached; rw [run_append]; rfl
  have e2 : reached ext x cap t sv (ops ++ .finish i :: more) =
      (Lsm.run ext x t (Lsm.step ext x t (reached ext x cap t sv ops) (.finish i)).2 more).2 := by
    unfold reached; rw [run_append]; rfl
  have e3 : reached ext x cap t sv (ops ++ .finish i :: more ++ [.finish j]) =
      (Lsm.step ext x t (reached ext x cap t sv (ops ++ .finish i :: more)) (.finish j)).2 := by
    unfold reached; rw [run_append]; rfl
  rcases a_job_wins_or_leaves_no_trace ext x hn cap t sv ops i p hi with ⟨hk, _⟩ | ⟨k, v, v', hx, hv, hlat, hv', hlat', _⟩
  · rw [e1] at hwin; exact absurd hk hwin
  · obtain ⟨n1, h1, _⟩ := keeps_step h hn (.finish i)
    obtain ⟨n2, h2, hkeep⟩ := keeps_run hn more h1
    rcases a_job_wins_or_leaves_no_trace ext x hn cap t sv (ops ++ .finish i :: more) j q hj with
      ⟨hk, _⟩ | ⟨k2, w, w', hx2, hw, hlat2, _⟩
    · rw [e3]; exact hk
    · exfalso
      rw [hsame, hx] at hx2
      simp only [Option.some.injEq] at hx2
      subst hx2
      obtain ⟨m, hm, hmax⟩ := hlat2
      have hold : Published (reached ext x cap t sv (ops ++ .finish i :: more)) t (k + 1) v' := by
        rw [e2, published_iff]
        exact hkeep.versions _ _ (published_iff.1 hv')
      have hm2 := hmax _ _ hold
      -- `w` is published as both `k` and `m`
      rw [e2] at hw hm
      obtain ⟨hd2, hreg2⟩ := h2.reg
      have ts : ∀ k u, At (Lsm.run ext x t (Lsm.step ext x t (reached ext x cap t sv ops) (.finish i)).2 more).2.kv t k u → u.ts = k := by
        intro k u hu
        obtain ⟨a, b⟩ := at_le hreg2 hu
        obtain ⟨u', hu', hts, _⟩ := hreg2.some k a b
        rw [at_unique hu hu']; exact hts
      have a1 := ts _ _ (published_iff.1 hw)
      have a2 := ts _ _ (published_iff.1 hm)
      omega

/-! ## Concrete histories

Two flushes, then the same compaction started twice from the same head. -/
section Example

def exX : Exec Nat Nat :=
  ⟨none, none, 8, 8, fun _ => 1, fun _ => 1, fun f => f.data.length, Lemmas.Compact.listHeap Nat, id,
    fun _ => List.Perm.refl _⟩

/-- A row is a number; its tens are the key. -/
def exExt (r : Nat) : Option Nat := some (r / 10)

def seg (n : Nat) : WalRef := ⟨n, n + 100, n, n⟩

def flushOps (refs : List WalRef) : List (Lsm.Op Nat Nat) :=
  [.write .freeze, .flushWrite (some refs), .flushPublish, .flushDrain]

def jobOf (a b : Nat) : Lsm.Op Nat Nat := .start ⟨0, 1, [⟨0, a⟩, ⟨0, b⟩], none⟩ none 0

def exOps : List (Lsm.Op Nat Nat) :=
  [.write (.put [(11, 1), (21, 1)])] ++ flushOps [seg 1] ++
  [.write (.put [(12, 2), (31, 2)])] ++ flushOps [seg 1, seg 2] ++ [jobOf 1 2, jobOf 1 2]

/-- The first job ends, then two more flushes and a second compaction. -/
def exMore : List (Lsm.Op Nat Nat) :=
  [.write (.put [(13, 3), (21, 3)])] ++ flushOps [seg 2, seg 3] ++
  [.write (.del [(1, 4), (2, 4)])] ++ flushOps [seg 2, seg 3, seg 4] ++ [jobOf 5 6]

def exS (ops : List (Lsm.Op Nat Nat)) : Db Nat Nat := reached exExt exX 4 1 0 ops

example : 0 < exX.readRows := by decide

/-- Both jobs wait; the first wins, the second loses, and its file goes. -/
example : (exS exOps).jobs.map (fun p => (p.expected, p.outputs.map (·.id))) = [(some (some 2), [3]), (some (some 2), [4])] ∧
    (exS (exOps ++ [.finish 0])).kv ≠ (exS exOps).kv ∧
    (exS (exOps ++ .finish 0 :: exMore)).jobs.map (·.expected) = [some (some 2), some (some 5)] ∧
    (exS exOps).files ⟨1, 4⟩ ≠ none ∧ (exS (exOps ++ [.finish 0, .finish 0])).files ⟨1, 4⟩ = none := by
  refine ⟨rfl, by decide, rfl, by decide, rfl⟩

end Example

end Tonbo.Props.C38

namespace Tonbo.Props.C41
open Tonbo.Model Tonbo.Model.Manifest Tonbo.Model.Planner Tonbo.Model.Outcome Tonbo.Model.Lsm Tonbo.Spec
open Tonbo.Lemmas.Lsm Tonbo.Lemmas.Manifest
open Tonbo.Model.Sst (File)

variable {K R : Type} [LinearOrder K]

/-- **C41.** At every moment a restart can compute where to continue numbering its tables, and this is
past every table that any published version lists. -/
theorem restart_numbers_past_every_table (ext : R → Option K) (x : Exec K R) (hn : 0 < x.readRows) (cap t sv : Nat)
    (ops : List (Lsm.Op K R)) :
    ∃ k, allocator (reached ext x cap t sv ops).kv t = .ok k ∧
      ∀ l e, EverListed (reached ext x cap t sv ops) t l e → e.id < k := by
  obtain ⟨n, h⟩ := C38.reached_inv ext x hn cap t sv ops
  obtain ⟨k, h1, h2⟩ := allocator_spec h
  exact ⟨k, h1, fun l e he => h2 l e (everListed_iff.1 he)⟩

/-- **C41.** A listed table has its file, under the path its entry names, and whatever happens later,
restarts included, the entry stays readable and the file stays as it is. -/
theorem published_files_never_change (ext : R → Option K) (x : Exec K R) (hn : 0 < x.readRows) (cap t sv : Nat)
    (ops more : List (Lsm.Op K R)) (l : Nat) (e : Entry (Info K))
    (he : EverListed (reached ext x cap t sv ops) t l e) :
    EverListed (reached ext x cap t sv (ops ++ more)) t l e ∧
    ∃ f, (reached ext x cap t sv ops).files e.info.data = some f ∧
      (reached ext x cap t sv (ops ++ more)).files e.info.data = some f := by
  obtain ⟨n, h⟩ := C38.reached_inv ext x hn cap t sv ops
  obtain ⟨n', h', hk⟩ := keeps_run hn more h
  have e1 : reached ext x cap t sv (ops ++ more) = (Lsm.run ext x t (reached ext x cap t sv ops) more).2 := by
    unfold reached; rw [run_append]
  rw [e1]
  rw [everListed_iff] at he
  obtain ⟨a, _, f, hf, _⟩ := h.ent l e he
  obtain ⟨k, v, hv, hev⟩ := he
  refine ⟨everListed_iff.2 ⟨k, v, hk.versions k v hv, hev⟩, f, by rw [a]; exact hf, ?_⟩
  rw [a, hk.files l e ⟨k, v, hv, hev⟩]
  exact hf

/-- **C41.** Two tables ever listed under the same number are the same table on the same level. -/
theorem no_number_names_two_tables (ext : R → Option K) (x : Exec K R) (hn : 0 < x.readRows) (cap t sv : Nat)
    (ops : List (Lsm.Op K R)) (l l' : Nat) (e e' : Entry (Info K))
    (he : EverListed (reached ext x cap t sv ops) t l e) (he' : EverListed (reached ext x cap t sv ops) t l' e')
    (hid : e.id = e'.id) : l = l' ∧ e = e' := by
  obtain ⟨n, h⟩ := C38.reached_inv ext x hn cap t sv ops
  exact h.uniq l e l' e' (everListed_iff.1 he) (everListed_iff.1 he') hid

example : EverListed (C38.exS C38.exOps) 1 0
    ⟨2, some [101, 102], ⟨some ⟨2, 2, 0, some 1, some 3, some 2, some 2⟩, ⟨0, 2⟩, none⟩⟩ :=
  ⟨2, _, rfl, by decide⟩

/-- After a restart numbering continues at 4, past table 3 of the winner; 4 is the file of the other job, which no
version lists. -/
example : allocator (C38.exS (C38.exOps ++ [.finish 0])).kv 1 = .ok 4 := rfl

end Tonbo.Props.C41

namespace Tonbo.Props.C42
open Tonbo.Model Tonbo.Model.Manifest Tonbo.Model.Planner Tonbo.Model.Outcome Tonbo.Model.Lsm Tonbo.Spec
open Tonbo.Lemmas.Lsm Tonbo.Lemmas.Manifest

variable {K R : Type} [LinearOrder K]

/-- **C42.** Whatever a compaction removes and adds, the segments it asks to publish are as required. -/
theorem segments_of_an_outcome (v : Version (Info K)) (hv : VersionOk v) (floor : Option WalRef) (o : Outcome K) :
    ∃ L, (reconcile v floor o).wal = some L ∧ SegmentsOk v o L (reconcile v floor o).obsoleteWal :=
  Lemmas.Outcome.reconcile_spec v hv floor o

/-- **C42.** When a compaction job wins, the segments of the new version are as required: a part of
those of the version it replaces, with every segment a remaining table names, none of them before the
new first one, and no segment older than the first needed one dropped if the numbering has gaps. -/
theorem segments_of_a_published_job (ext : R → Option K) (x : Exec K R) (hn : 0 < x.readRows) (cap t sv : Nat)
    (ops : List (Lsm.Op K R)) (i : Nat) (p : Pending K)
    (hi : (reached ext x cap t sv ops).jobs[i]? = some p)
    (hwin : (reached ext x cap t sv (ops ++ [.finish i])).kv ≠ (reached ext x cap t sv ops).kv) :
    ∃ v v' o L, Latest (reached ext x cap t sv ops) t v ∧ Latest (reached ext x cap t sv (ops ++ [.finish i])) t v' ∧
      o.remove = p.inputs ∧ o.outputs = p.outputs ∧ SegmentsOk v o L o.obsoleteWal ∧ v'.wal.Perm L ∧
      (∀ w, v'.floor = some w → LeastWal v'.wal w) ∧ (v'.floor = none ↔ v'.wal = []) := by
  obtain ⟨n, h⟩ := C38.reached_inv ext x hn cap t sv ops
  have e1 : reached ext x cap t sv (ops ++ [.finish i]) = (Lsm.step ext x t (reached ext x cap t sv ops) (.finish i)).2 := by
    unfold reached; rw [run_append]; rfl
  rw [e1] at hwin ⊢
  generalize reached ext x cap t sv ops = s at hi h hwin ⊢
  have e2 : (Lsm.step ext x t s (.finish i)).2 = (finish t { s with jobs := s.jobs.eraseIdx i } p).1 := by
    unfold Lsm.step; simp only [hi]
  rw [e2] at hwin ⊢
  obtain ⟨hd, hreg⟩ := h.reg
  obtain ⟨s', r, e, ⟨_, _, h1, hkv, _⟩ | ⟨_, h1, hf, _, _, _, _, _, v, v', target, o, hj, hat, hv', hk, hl, L, hL, hw⟩⟩ := finish_spec h hi
  · rw [e] at hwin; exact absurd hkv hwin
  · rw [e]
    obtain ⟨fl, ho⟩ := hj.out
    obtain ⟨u, hu, _, _, ok⟩ := hreg.some n (at_le hreg hj.here).1 (Nat.le_refl _)
    have hvo : VersionOk v := by rw [at_unique hj.here hu]; exact ok
    have hro : o.remove = p.inputs ∧ o.outputs = p.outputs := by
      unfold outcomeOf fromOutputs at ho
      cases ha : addEntries p.outputs with
      | none => rw [ha] at ho; cases ho
      | some es =>
        rw [ha] at ho
        simp only [Option.some.injEq] at ho
        obtain ⟨_, b1, _, _, b2, _⟩ := Lemmas.Outcome.reconcile_keeps v fl
          { (⟨es, p.inputs, target, none, p.outputs.foldl maxCommit none, p.outputs, [], none, []⟩ : Outcome K) with
            obsolete := p.inputs.map (·.id) }
        rw [ho] at b1 b2
        exact ⟨b1, b2⟩
    exact ⟨v, v', o, L, (latest_iff h).2 hj.here, (latest_iff h1).2 hat, hro.1, hro.2, hL, hw, hv'.floor, hv'.floorNone⟩

theorem dedup_mem : ∀ (l : List Nat) (x : Nat), x ∈ Compact.dedup l ↔ x ∈ l
  | [], _ => Iff.rfl
  | [_], _ => Iff.rfl
  | a :: b :: l, x => by
    unfold Compact.dedup
    have ih := dedup_mem (b :: l) x
    by_cases h : a = b
    · rw [if_pos h, ih, h]; simp
    · rw [if_neg h, List.mem_cons, ih, List.mem_cons (a := x) (b := a)]

theorem dedup_lt : ∀ (l : List Nat), l.Pairwise (· ≤ ·) → (Compact.dedup l).Pairwise (· < ·)
  | [], _ => .nil
  | [_], _ => by simp [Compact.dedup]
  | a :: b :: l, h => by
    unfold Compact.dedup
    have ih := dedup_lt (b :: l) (List.pairwise_cons.1 h).2
    by_cases hab : a = b
    · rw [if_pos hab]; exact ih
    · rw [if_neg hab]
      refine List.pairwise_cons.2 ⟨fun y hy => ?_, ih⟩
      rw [dedup_mem] at hy
      have h1 := (List.pairwise_cons.1 h).1
      have h2 := h1 b (by simp)
      rcases List.mem_cons.1 hy with rfl | hy
      · omega
      · have := (List.pairwise_cons.1 (List.pairwise_cons.1 h).2).1 y hy
        omega

/-- **C42.** Every output of a job names exactly the segments that its inputs name, in ascending order
and each once. -/
theorem outputs_name_the_segments_of_the_inputs (ext : R → Option K) (x : Exec K R) (hn : 0 < x.readRows)
    (cap t sv : Nat) (ops : List (Lsm.Op K R)) (i : Nat) (p : Pending K)
    (hi : (reached ext x cap t sv ops).jobs[i]? = some p) (d : Desc K) (hd : d ∈ p.outputs) :
    (d.wal = none ∧ ∀ c ∈ p.inputs, ∀ ids, c.wal = some ids → ids = []) ∨
    ∃ ids, d.wal = some ids ∧ ids.Pairwise (· < ·) ∧
      ∀ f, f ∈ ids ↔ ∃ c ∈ p.inputs, ∃ js, c.wal = some js ∧ f ∈ js := by
  obtain ⟨n, h⟩ := C38.reached_inv ext x hn cap t sv ops
  obtain ⟨⟨k, v, target, o, hj⟩, _⟩ := h.jobs p (List.mem_of_getElem? hi)
  rw [hj.wal d hd]
  have hin : ∀ f, f ∈ inputWal p.inputs ↔ ∃ c ∈ p.inputs, ∃ js, c.wal = some js ∧ f ∈ js := by
    intro f
    simp only [inputWal, List.mem_flatten, List.mem_filterMap]
    exact ⟨fun ⟨js, ⟨c, h1, h2⟩, h3⟩ => ⟨c, h1, js, h2, h3⟩, fun ⟨c, h1, js, h2, h3⟩ => ⟨js, ⟨c, h1, h2⟩, h3⟩⟩
  unfold Compact.walIds
  by_cases he : inputWal p.inputs = []
  · left
    refine ⟨if_pos he, fun c hc ids hids => ?_⟩
    by_contra hne
    obtain ⟨f, hf⟩ := List.exists_mem_of_ne_nil _ hne
    have := (hin f).2 ⟨c, hc, ids, hids, hf⟩
    rw [he] at this
    simp at this
  · right
    refine ⟨_, if_neg he, dedup_lt _ (List.pairwise_insertionSort _ _), fun f => ?_⟩
    rw [dedup_mem, List.mem_insertionSort, hin]

example : (reconcile (K := Nat) ⟨1, 1, [[⟨7, some [102, 103], ⟨none, ⟨0, 7⟩, none⟩⟩]], [C38.seg 1, C38.seg 2, C38.seg 3], none, none⟩ none
    ⟨[], [], 1, none, none, [⟨8, 1, none, some [103], none, none⟩], [], none, []⟩).wal = some [C38.seg 2, C38.seg 3] := rfl

example : ∃ p, (C38.exS (C38.exOps ++ .finish 0 :: C38.exMore)).jobs[1]? = some p ∧
    (C38.exS (C38.exOps ++ .finish 0 :: C38.exMore ++ [.finish 1])).kv ≠ (C38.exS (C38.exOps ++ .finish 0 :: C38.exMore)).kv :=
  ⟨_, rfl, by decide⟩

end Tonbo.Props.C42

namespace Tonbo.Props.C43
open Tonbo.Model Tonbo.Model.Manifest Tonbo.Model.Planner Tonbo.Model.Outcome Tonbo.Model.Lsm Tonbo.Spec
open Tonbo.Lemmas.Lsm Tonbo.Lemmas.Manifest

variable {K R : Type} [LinearOrder K]

/-- **C43**, first half. A table in the recorded GC plan was published, with exactly these paths; the
latest version does not list it, and no later version ever will. -/
theorem garbage_is_never_listed_partial (ext : R → Option K) (x : Exec K R) (hn : 0 < x.readRows) (cap t sv : Nat)
    (ops more : List (Lsm.Op K R)) (plan : GcPlan) (hp : (reached ext x cap t sv ops).gc = some plan)
    (r : GcSst) (hr : r ∈ plan.ssts) :
    (∃ e, EverListed (reached ext x cap t sv ops) t r.level e ∧ e.id = r.id ∧ e.info.data = r.data ∧ e.info.del = r.del) ∧
    ∀ v, Latest (reached ext x cap t sv (ops ++ more)) t v → ∀ l, ∀ e ∈ v.ssts.getD l [], e.id ≠ r.id := by
  obtain ⟨n, h⟩ := C38.reached_inv ext x hn cap t sv ops
  obtain ⟨n', h', hk⟩ := keeps_run hn more h
  have e1 : reached ext x cap t sv (ops ++ more) = (Lsm.run ext x t (reached ext x cap t sv ops) more).2 := by
    unfold reached; rw [run_append]
  rw [e1]
  obtain ⟨⟨e, g1, g2, g3⟩, g4⟩ := h.gc plan hp r hr
  refine ⟨⟨e, everListed_iff.2 g1, g2, g3⟩, ?_⟩
  intro v hv l e' he'
  rw [latest_iff h'] at hv
  rcases Nat.eq_or_lt_of_le hk.more with hnn | hlt
  · subst hnn
    obtain ⟨hd, hreg⟩ := h.reg
    obtain ⟨hd', hreg'⟩ := h'.reg
    obtain ⟨a, b⟩ := at_le hreg' hv
    obtain ⟨u, hu, _⟩ := hreg.some n a b
    rw [at_unique hv (hk.versions _ _ hu)] at he'
    exact g4 u hu l e' he'
  · rw [← g2]
    exact hk.gone r.level e g1 (fun w hw l' e'' he'' => by rw [g2]; exact g4 w hw l' e'' he'') n' v hlt hv l e' he'

/-- A plan after the first compaction. -/
example : (C38.exS (C38.exOps ++ [.finish 0])).gc = some ⟨[⟨1, 0, ⟨0, 1⟩, none⟩, ⟨2, 0, ⟨0, 2⟩, none⟩], []⟩ := rfl

/-- **C43 fails in its second half** (F25): the next compaction overwrites the recorded plan. The
tables the first one made obsolete are in no plan any more; their files stay for ever. -/
theorem obsolete_tables_are_forgotten :
    ∃ (ops more : List (Lsm.Op Nat Nat)) (plan plan' : GcPlan) (r : GcSst),
      (C38.exS ops).gc = some plan ∧ r ∈ plan.ssts ∧
      (C38.exS (ops ++ more)).gc = some plan' ∧ r ∉ plan'.ssts ∧
      (C38.exS (ops ++ more)).files r.data = (C38.exS ops).files r.data ∧ ((C38.exS ops).files r.data).isSome = true :=
  ⟨C38.exOps ++ [.finish 0], C38.exMore ++ [.finish 1], ⟨[⟨1, 0, ⟨0, 1⟩, none⟩, ⟨2, 0, ⟨0, 2⟩, none⟩], []⟩,
    ⟨[⟨5, 0, ⟨0, 5⟩, none⟩, ⟨6, 0, ⟨0, 6⟩, some ⟨0, 6⟩⟩], []⟩, ⟨1, 0, ⟨0, 1⟩, none⟩,
    by decide +kernel, by decide, by decide +kernel, by decide, by decide +kernel, by decide +kernel⟩

end Tonbo.Props.C43
