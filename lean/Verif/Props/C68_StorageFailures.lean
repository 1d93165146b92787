import Verif.Lemmas.LsmFail
import Verif.Lemmas.StoreFiles
import Verif.Props.C54_EndToEnd

/-!
# C68: flushes and compactions whose storage fails

A history is any list of steps of writers, flushes, compactions and restarts, and of such steps that fail:
a table cannot be written, a merge fails in the middle, a file cannot be removed, the manifest refuses, the
answer of the manifest gets lost.
-/

set_option linter.unusedSectionVars false

namespace Tonbo.Props.C68
open Tonbo.Model Tonbo.Model.Manifest Tonbo.Model.Planner Tonbo.Model.Outcome Tonbo.Model.Lsm Tonbo.Spec
open Tonbo.Lemmas.Lsm Tonbo.Lemmas.Manifest Tonbo.Lemmas.LsmFail
open Tonbo.Model.LsmFail (Answer)
open Tonbo.Model.Sst (File)
open Tonbo.Props.C54 (scan_of_state content)

variable {K R : Type} [LinearOrder K]

theorem heard_all {ops : List (LsmFail.Op K R)} (h : JobsHeard ops) : ∀ o ∈ ops, heard o = true := by
  intro o ho
  rcases o with _ | _ | _ | _ | ⟨i, _ | _ | _, keep, g⟩ <;> first | rfl | exact absurd ho (h i keep g)

theorem noRestart_all {ops : List (LsmFail.Op K R)} (h : NoRestartF ops) : ∀ o ∈ ops, isRestart o = false := by
  intro o ho
  rcases o with (_ | _ | _ | _ | _ | _ | _ | _ | cap) | _ | _ | _ | _ <;> first | rfl | exact absurd ho (h cap)

theorem noCompaction_all {ops : List (LsmFail.Op K R)} (h : NoCompactionF ops) : ∀ o ∈ ops, isEnd o = false := by
  intro o ho
  rcases o with (_ | _ | _ | _ | _ | _ | i | _ | _) | _ | _ | _ | ⟨i, a, keep, g⟩ <;>
    first | rfl | exact absurd ho (h i).1 | exact absurd ho ((h i).2 a keep g)

theorem reachedF_inv (ext : R → Option K) (x : Exec K R) (hn : 0 < x.readRows) (cap t sv : Nat)
    (ops : List (LsmFail.Op K R)) (hh : JobsHeard ops) : ∃ n, Inv ext x t n (reachedF ext x cap t sv ops) := by
  obtain ⟨n, h, _⟩ := run_all hn ops (inv_new ext x cap t sv) (heard_all hh)
  exact ⟨n, h⟩

/-- A step in which nothing fails is a step of the other theorems. -/
theorem without_failures (ext : R → Option K) (x : Exec K R) (t : Nat) (s : Db K R) (i : Nat) :
    LsmFail.step ext x t s (.flushPublish .told) = Lsm.step ext x t s .flushPublish ∧
    LsmFail.step ext x t s (.finish i .told (fun _ => false) false) = Lsm.step ext x t s (.finish i) := by
  constructor
  · change (true, LsmFail.flushPublish t s .told) = (true, Lsm.flushPublish t s)
    rw [flushPublish_told]
  · unfold LsmFail.step Lsm.step
    cases hi : s.jobs[i]? with
    | none => simp only [hi]
    | some p =>
      simp only [hi]
      unfold LsmFail.finish Lsm.finish LsmFail.call LsmFail.cleanupBut
      rcases hr : apply s.kv t p.edits p.expected with ⟨kv', k | e⟩ <;> simp [hr]

/-- **C68.** Whatever fails, as long as no compaction job is told of an error after its publication took
place: a table that some version lists has its file, and both stay as they are, restarts included. -/
theorem listed_files_survive_failures (ext : R → Option K) (x : Exec K R) (hn : 0 < x.readRows) (cap t sv : Nat)
    (ops more : List (LsmFail.Op K R)) (hh : JobsHeard (ops ++ more)) (l : Nat) (e : Entry (Info K))
    (he : EverListed (reachedF ext x cap t sv ops) t l e) :
    EverListed (reachedF ext x cap t sv (ops ++ more)) t l e ∧
    ∃ f, (reachedF ext x cap t sv ops).files e.info.data = some f ∧
      (reachedF ext x cap t sv (ops ++ more)).files e.info.data = some f := by
  have hh1 : JobsHeard ops := fun i k g h => hh i k g (List.mem_append_left _ h)
  have hh2 : JobsHeard more := fun i k g h => hh i k g (List.mem_append_right _ h)
  obtain ⟨n, h⟩ := reachedF_inv ext x hn cap t sv ops hh1
  obtain ⟨n', h', hk⟩ := run_all hn more h (heard_all hh2)
  have e1 : reachedF ext x cap t sv (ops ++ more) = (LsmFail.run ext x t (reachedF ext x cap t sv ops) more).2 := by
    unfold reachedF; rw [run_appendF]
  rw [e1]
  rw [everListed_iff] at he
  obtain ⟨a, _, f, hf, _⟩ := h.ent l e he
  obtain ⟨k, v, hv, hev⟩ := he
  refine ⟨everListed_iff.2 ⟨k, v, hk.versions k v hv, hev⟩, f, by rw [a]; exact hf, ?_⟩
  rw [a, hk.files l e ⟨k, v, hv, hev⟩]
  exact hf

/-- **C68 (partial).** After any history of successful writes and of flushes and compactions that succeed or
fail, interleaved in any way, a scan at a timestamp not before the newest write succeeds and returns
exactly the rows visible in what was written. This includes flushes that were told of an error although
their table was published: the next flush writes the same rows again.

Missing: compactions told of an error after their publication (false, see below), and what C54 misses:
restarts, failed writes, writes that disagree about one key at one timestamp, tables a merge reads out of
step. -/
theorem reads_see_all_writes_despite_failures_partial (ext : R → Option K) (x : Exec K R) (hn : 0 < x.readRows)
    (cap t sv : Nat) (ops : List (LsmFail.Op K R)) (hh : JobsHeard ops) (hr : NoRestartF ops)
    (hok : (LsmFail.run ext x t (Db.new cap t sv) ops).1 = true) (hf : Functional (· ∈ logOfF ext ops))
    (hfit : ∀ l e, EverListed (reachedF ext x cap t sv ops) t l e →
      ∀ f, (reachedF ext x cap t sv ops).files ⟨l, e.id⟩ = some f → Fits x.readRows f)
    (rts : Nat) (hts : ∀ w ∈ logOfF ext ops, w.ts ≤ rts) :
    ∃ out, scanAll t (reachedF ext x cap t sv ops) rts = some out ∧
      IsScan (· ∈ logOfF ext ops) rts (rowsOf out) := by
  obtain ⟨n, logs, cur, h, hc⟩ := run_cont (exact := False) hn ops (cont_new ext cap t sv False) (inv_new ext x cap t sv)
    (by simpa using hf) (fun _ l e he => hfit l e (everListed_iff.2 he)) (heard_all hh) (noRestart_all hr)
    (fun h => h.elim) hok
  rw [List.nil_append] at hc
  obtain ⟨out, o1, o2⟩ := scan_of_state h hc hf rts
  refine ⟨out, o1, o2.1, fun k v => (o2.2 k v).trans ?_⟩
  obtain ⟨c1, c2⟩ := content (x := x) hc
  constructor
  · rintro ⟨ts, hw, hle, hmax⟩
    refine ⟨ts, c1 _ hw, hle, fun u hu hk hut => ?_⟩
    obtain ⟨u', hu', k1, k2, _⟩ := c2 u hu
    exact Nat.le_trans k2 (hmax u' hu' (k1.trans hk) (hts _ (c1 _ hu')))
  · rintro ⟨ts, hw, hle, hmax⟩
    obtain ⟨u, hu, k1, k2, _⟩ := c2 _ hw
    have h1 := hmax u (c1 u hu) k1 (hts _ (c1 u hu))
    have hts' : u.ts = ts := Nat.le_antisymm h1 k2
    have hop : u.op = .put v := hf u ⟨k, ts, .put v⟩ (c1 u hu) hw k1 hts'
    obtain ⟨uk, ut, uo⟩ := u
    simp only at k1 hts' hop
    subst k1
    subst hts'
    subst hop
    exact ⟨_, hu, hle, fun u hu hk hut => hmax u (c1 u hu) hk hut⟩

/-- **C68 (partial)**, without compactions that end: at every timestamp. -/
theorem reads_at_every_timestamp_despite_failures_partial (ext : R → Option K) (x : Exec K R) (hn : 0 < x.readRows)
    (cap t sv : Nat) (ops : List (LsmFail.Op K R)) (hr : NoRestartF ops) (hcomp : NoCompactionF ops)
    (hok : (LsmFail.run ext x t (Db.new cap t sv) ops).1 = true) (hf : Functional (· ∈ logOfF ext ops)) (rts : Nat) :
    ∃ out, scanAll t (reachedF ext x cap t sv ops) rts = some out ∧
      IsScan (· ∈ logOfF ext ops) rts (rowsOf out) := by
  have hh : JobsHeard ops := fun i keep g => (hcomp i).2 _ _ _
  obtain ⟨n, logs, cur, h, hc⟩ := run_cont (exact := True) hn ops (cont_new ext cap t sv True) (inv_new ext x cap t sv)
    (by simpa using hf) (fun h => absurd trivial h) (heard_all hh) (noRestart_all hr) (fun _ => noCompaction_all hcomp) hok
  rw [List.nil_append] at hc
  obtain ⟨out, o1, o2⟩ := scan_of_state h hc hf rts
  obtain ⟨c1, c2⟩ := content (x := x) hc
  have : (fun w => w ∈ logs.flatten ∨ w ∈ cur ∨ OnDisk t n (LsmFail.run ext x t (Db.new cap t sv) ops).2 w) =
      (· ∈ logOfF ext ops) := by
    funext w
    apply propext
    constructor
    · exact c1 w
    · intro hw
      obtain ⟨u, hu, _, _, he⟩ := c2 w hw
      rwa [he trivial] at hu
  rw [this] at o2
  exact ⟨out, o1, o2⟩

/-- A step that fails and has no effect on the manifest. -/
def Fails : LsmFail.Op K R → Prop
  | .flushTorn _ _ => True
  | .flushPublish .refused => True
  | .startTorn _ _ _ _ _ _ => True
  | .finish _ .refused _ _ => True
  | _ => False

/-- A scan reads the runs, the manifest and the files that the latest version names. -/
theorem scan_same {ext : R → Option K} {x : Exec K R} {t n n' : Nat} {s s' : Db K R} (h : Inv ext x t n s)
    (hk : Keeps t n s n' s') (hr : s'.runs = s.runs) (hkv : s'.kv = s.kv) (rts : Nat) :
    scanAll t s' rts = scanAll t s rts := by
  obtain ⟨hd, hreg⟩ := h.reg
  rw [← Lemmas.Store.scan_files t s s'.files ?_ rts]
  · have e : latestFiles t s' = latestFiles t (Lemmas.Store.withFiles s'.files s) := by
      unfold latestFiles
      rw [hkv]
      rfl
    unfold scanAll allStreams
    rw [e, hr]
    rfl
  · rintro p ⟨hd', v, hs, e, he, rfl⟩
    have hat : At s.kv t n v := (snapshot_at hreg hs).2.2
    obtain ⟨ls, hls, hel⟩ := List.mem_flatten.1 he
    obtain ⟨l, hl⟩ := List.mem_iff_getElem?.1 hls
    have hel' : e ∈ v.ssts.getD l [] := by rw [List.getD_eq_getElem?_getD, hl]; exact hel
    have hlst : Lst s.kv t l e := ⟨n, v, hat, hel'⟩
    rw [(h.ent l e hlst).1, hk.files l e hlst]

/-- **C68.** A failure that had no effect on the manifest is one of the caller only: manifest, memory and
recorded garbage are as before, so are the files of all listed tables, and scans at all timestamps give the
same answers. -/
theorem a_failure_changes_no_answer (ext : R → Option K) (x : Exec K R) (hn : 0 < x.readRows) (cap t sv : Nat)
    (ops : List (LsmFail.Op K R)) (hh : JobsHeard ops) (o : LsmFail.Op K R) (ho : Fails o) :
    let s := reachedF ext x cap t sv ops
    let s' := reachedF ext x cap t sv (ops ++ [o])
    s'.kv = s.kv ∧ s'.runs = s.runs ∧ s'.gc = s.gc ∧
    (∀ l e, EverListed s t l e → s'.files e.info.data = s.files e.info.data) ∧
    ∀ rts, scanAll t s' rts = scanAll t s rts := by
  obtain ⟨n, h⟩ := reachedF_inv ext x hn cap t sv ops hh
  have e1 : reachedF ext x cap t sv (ops ++ [o]) = (LsmFail.step ext x t (reachedF ext x cap t sv ops) o).2 := by
    unfold reachedF; rw [run_appendF]; rfl
  simp only
  rw [e1]
  generalize reachedF ext x cap t sv ops = s at h ⊢
  have hheard : heard o = true := by
    rcases o with _ | _ | _ | _ | ⟨i, _ | _ | _, keep, g⟩ <;> first | rfl | exact absurd ho (by simp [Fails])
  obtain ⟨n', _, hk⟩ := step_all h hn o hheard
  have hsame : (LsmFail.step ext x t s o).2.kv = s.kv ∧ (LsmFail.step ext x t s o).2.runs = s.runs ∧
      (LsmFail.step ext x t s o).2.gc = s.gc := by
    cases o with
    | fine o => exact absurd ho (by simp [Fails])
    | flushTorn count left =>
      have f := flushTorn_frame s count left
      exact ⟨f.kv, f.runs, f.gc⟩
    | startTorn task head skip done left keep =>
      have f := startTorn_frame h hn task head skip done left keep
      exact ⟨f.kv, f.runs, f.gc⟩
    | flushPublish a =>
      cases a with
      | told => exact absurd ho (by simp [Fails])
      | lost => exact absurd ho (by simp [Fails])
      | refused =>
        change (LsmFail.flushPublish t s .refused).kv = _ ∧ (LsmFail.flushPublish t s .refused).runs = _ ∧
          (LsmFail.flushPublish t s .refused).gc = _
        unfold LsmFail.flushPublish
        cases s.flushing <;> exact ⟨rfl, rfl, rfl⟩
    | finish i a keep g =>
      cases a with
      | told => exact absurd ho (by simp [Fails])
      | lost => exact absurd ho (by simp [Fails])
      | refused =>
        cases hi : s.jobs[i]? with
        | none => simp [LsmFail.step, hi]
        | some p => simp [LsmFail.step, LsmFail.finish, LsmFail.call, hi]
  refine ⟨hsame.1, hsame.2.1, hsame.2.2, ?_, scan_same h hk hsame.2.1 hsame.1⟩
  intro l e he
  have hlst := everListed_iff.1 he
  rw [(h.ent l e hlst).1, hk.files l e hlst]

/-- **C68.** A failing step removes or overwrites no file that was there, except outputs of the job that
fails. -/
theorem a_failure_removes_only_own_outputs (ext : R → Option K) (x : Exec K R) (hn : 0 < x.readRows) (cap t sv : Nat)
    (ops : List (LsmFail.Op K R)) (hh : JobsHeard ops) (o : LsmFail.Op K R) (ho : Fails o) (q : Path)
    (hq : q.id < (reachedF ext x cap t sv ops).next)
    (hc : (reachedF ext x cap t sv (ops ++ [o])).files q ≠ (reachedF ext x cap t sv ops).files q) :
    ∃ i keep g p d, o = .finish i .refused keep g ∧ (reachedF ext x cap t sv ops).jobs[i]? = some p ∧
      d ∈ p.outputs ∧ d.data = some q ∧ (reachedF ext x cap t sv (ops ++ [o])).files q = none := by
  obtain ⟨n, h⟩ := reachedF_inv ext x hn cap t sv ops hh
  have e1 : reachedF ext x cap t sv (ops ++ [o]) = (LsmFail.step ext x t (reachedF ext x cap t sv ops) o).2 := by
    unfold reachedF; rw [run_appendF]; rfl
  rw [e1] at hc ⊢
  generalize reachedF ext x cap t sv ops = s at h hq hc ⊢
  cases o with
  | fine o => exact absurd ho (by simp [Fails])
  | flushTorn count left => exact absurd ((flushTorn_frame s count left).files q hq) hc
  | startTorn task head skip done left keep =>
    exact absurd ((startTorn_frame h hn task head skip done left keep).files q hq) hc
  | flushPublish a =>
    cases a with
    | told => exact absurd ho (by simp [Fails])
    | lost => exact absurd ho (by simp [Fails])
    | refused =>
      exfalso
      apply hc
      change (LsmFail.flushPublish t s .refused).files q = _
      unfold LsmFail.flushPublish
      cases s.flushing <;> rfl
  | finish i a keep g =>
    cases a with
    | told => exact absurd ho (by simp [Fails])
    | lost => exact absurd ho (by simp [Fails])
    | refused =>
      unfold LsmFail.step at hc ⊢
      cases hi : s.jobs[i]? with
      | none => simp only [hi] at hc; exact absurd rfl hc
      | some p =>
        simp only [hi] at hc ⊢
        have hc' : LsmFail.cleanupBut keep s.files p.outputs q ≠ s.files q := hc
        unfold LsmFail.cleanupBut at hc'
        have hex : ∃ d ∈ p.outputs.filter (fun d => !keep d.id), d.data = some q := by
          by_contra hno
          refine hc' (cleanup_other _ _ _ (fun d hd hdq => hno ⟨d, hd, hdq⟩))
        obtain ⟨d, hd, hdq⟩ := hex
        exact ⟨i, keep, g, p, d, rfl, hi, (List.mem_filter.1 hd).1, hdq, C38.cleanup_none _ d hd q hdq⟩

/-! ## A job that is not told of its success -/

theorem mapM_none {α β : Type} {f : α → Option β} : ∀ {l : List α} {a : α}, a ∈ l → f a = none → l.mapM f = none
  | b :: l, a, h, hf => by
    rw [List.mapM_cons]
    rcases List.mem_cons.1 h with rfl | h
    · rw [hf]; rfl
    · cases f b with
      | none => rfl
      | some c => rw [mapM_none h hf]; rfl

/-- **C68 (negation).** Whenever a compaction job is told of an error although its publication took place,
the table cannot be read any more: the latest version lists the outputs, which the job removed. Scans at all
timestamps fail, and so they do after a restart. -/
theorem a_lost_answer_makes_the_table_unreadable (ext : R → Option K) (x : Exec K R) (hn : 0 < x.readRows) (cap t sv : Nat)
    (ops : List (LsmFail.Op K R)) (hh : JobsHeard ops) (i : Nat) (p : Pending K)
    (hi : (reachedF ext x cap t sv ops).jobs[i]? = some p)
    (hwin : (reachedF ext x cap t sv (ops ++ [.fine (.finish i)])).kv ≠ (reachedF ext x cap t sv ops).kv)
    (keep : Nat → Bool) (g : Bool) (hkeep : ∃ d ∈ p.outputs, keep d.id = false) :
    let s' := reachedF ext x cap t sv (ops ++ [.finish i .lost keep g])
    (∃ v d, Latest s' t v ∧ d ∈ p.outputs ∧ asEntry d ∈ v.ssts.getD d.level [] ∧ s'.files ⟨d.level, d.id⟩ = none) ∧
    (∀ rts, scanAll t s' rts = none) ∧
    ∀ cap' rts, scanAll t (reachedF ext x cap t sv (ops ++ [.finish i .lost keep g, .fine (.reopen cap')])) rts = none := by
  obtain ⟨n, h⟩ := reachedF_inv ext x hn cap t sv ops hh
  have e1 : ∀ o, reachedF ext x cap t sv (ops ++ [o]) = (LsmFail.step ext x t (reachedF ext x cap t sv ops) o).2 := by
    intro o; unfold reachedF; rw [run_appendF]; rfl
  have e2 : ∀ o o', reachedF ext x cap t sv (ops ++ [o, o']) =
      (LsmFail.step ext x t (LsmFail.step ext x t (reachedF ext x cap t sv ops) o).2 o').2 := by
    intro o o'; unfold reachedF; rw [run_appendF]; rfl
  simp only [e1, e2] at hwin ⊢
  generalize reachedF ext x cap t sv ops = s at h hi hwin ⊢
  obtain ⟨d, hd, hkd⟩ := hkeep
  have hp : p ∈ pendings s := List.mem_append_right _ (List.mem_of_getElem? hi)
  have hlost : (LsmFail.step ext x t s (.finish i .lost keep g)).2 =
      { s with jobs := s.jobs.eraseIdx i, kv := (apply s.kv t p.edits p.expected).1,
               files := LsmFail.cleanupBut keep s.files p.outputs } := by
    unfold LsmFail.step; simp only [hi]; rfl
  have hfin : (LsmFail.step ext x t s (.fine (.finish i))).2 = (Lsm.finish t { s with jobs := s.jobs.eraseIdx i } p).1 := by
    change (Lsm.step ext x t s (.finish i)).2 = _
    unfold Lsm.step; simp only [hi]
  rw [hfin] at hwin
  obtain ⟨s1, r, e, ⟨_, _, _, hkv, _⟩ | ⟨hr, h1, _, _, _, _, _, _, v, v', target, o, hj, hat, hv', hk', hl, _⟩⟩ := finish_spec h hi
  · rw [e] at hwin; exact absurd hkv hwin
  have hkv1 : (apply s.kv t p.edits p.expected).1 = s1.kv := by
    have : (Lsm.finish t { s with jobs := s.jobs.eraseIdx i } p).1.kv = s1.kv := by rw [e]
    rw [← this]
    unfold Lsm.finish
    simp only
    rcases apply s.kv t p.edits p.expected with ⟨kv', k | e'⟩ <;> rfl
  have hen : entryOf d ∈ v'.ssts.getD d.level [] := (hl _ _).2 (.inl ⟨d, hd, rfl, rfl⟩)
  have hdata := (h.pend p hp d hd).1.1
  have hgone : LsmFail.cleanupBut keep s.files p.outputs ⟨d.level, d.id⟩ = none := by
    unfold LsmFail.cleanupBut
    exact C38.cleanup_none _ d (List.mem_filter.2 ⟨hd, by simp [hkd]⟩) _ hdata
  obtain ⟨hd1, hreg1⟩ := h1.reg
  have hlatest : ∀ s2 : Db K R, s2.kv = s1.kv → s2.files = LsmFail.cleanupBut keep s.files p.outputs →
      ∀ rts, scanAll t s2 rts = none := by
    intro s2 hk2 hf2 rts
    have : latestFiles t s2 = none := by
      unfold latestFiles
      rw [hk2]
      rcases snapshotLatest_spec hreg1 with ⟨h0, _⟩ | ⟨_, w, hw, _, e3⟩
      · omega
      · rw [e3]
        have hwv : w = v' := at_unique hw hat
        subst hwv
        change tableFiles s2 w = none
        refine mapM_none (a := entryOf d) ?_ ?_
        · have : d.level < w.ssts.length := by
            by_contra hlt
            rw [List.getD_eq_getElem?_getD, List.getElem?_eq_none (by omega)] at hen
            simp at hen
          rw [List.getD_eq_getElem?_getD, List.getElem?_eq_getElem this] at hen
          exact List.mem_flatten.2 ⟨_, List.getElem_mem this, hen⟩
        · have : (entryOf d).info.data = ⟨d.level, d.id⟩ := by simp [entryOf, hdata]
          unfold readFile
          simp only [this, hf2, hgone]
    unfold scanAll allStreams
    rw [this]
  rw [hlost]
  refine ⟨⟨v', d, ?_, hd, ?_, hgone⟩, hlatest _ hkv1 rfl, fun cap' rts => ?_⟩
  · refine ⟨n + 1, ?_, ?_⟩
    · have : Published s1 t (n + 1) v' := published_iff.2 hat
      unfold Published at this ⊢
      rw [← hkv1] at this
      exact this
    · intro k u hu
      have : Published s1 t k u := by
        unfold Published at hu ⊢
        rw [← hkv1]
        exact hu
      exact (at_le hreg1 (published_iff.1 this)).2
  · have : entryOf d = asEntry d := by
      unfold entryOf asEntry
      rw [hdata]
      rfl
    rw [← this]
    exact hen
  · refine hlatest _ ?_ ?_ rts
    · change (Lsm.step ext x t _ (.reopen cap')).2.kv = _
      unfold Lsm.step Lsm.reopen
      simp only
      rw [hkv1]
      cases allocator s1.kv t <;> rfl
    · change (Lsm.step ext x t _ (.reopen cap')).2.files = _
      unfold Lsm.step Lsm.reopen
      simp only
      cases allocator (apply s.kv t p.edits p.expected).1 t <;> rfl

/-- **C68 (negation of "a failed flush leaves nothing behind").** The table of a flush whose publication is
refused stays in the storage, although no version lists it. -/
theorem a_refused_flush_leaves_its_file (ext : R → Option K) (x : Exec K R) (hn : 0 < x.readRows) (cap t sv : Nat)
    (ops : List (LsmFail.Op K R)) (hh : JobsHeard ops) (p : Pending K) (count : Nat)
    (hp : (reachedF ext x cap t sv ops).flushing = .written p count) :
    let s' := reachedF ext x cap t sv (ops ++ [.flushPublish .refused])
    ∃ d, d ∈ p.outputs ∧ s'.files ⟨d.level, d.id⟩ ≠ none ∧ ∀ l e, EverListed s' t l e → e.id ≠ d.id := by
  obtain ⟨n, h⟩ := reachedF_inv ext x hn cap t sv ops hh
  have e1 : reachedF ext x cap t sv (ops ++ [.flushPublish .refused]) =
      LsmFail.flushPublish t (reachedF ext x cap t sv ops) .refused := by
    unfold reachedF; rw [run_appendF]; rfl
  simp only
  rw [e1]
  generalize reachedF ext x cap t sv ops = s at h hp ⊢
  have e2 : LsmFail.flushPublish t s .refused = { s with flushing := .idle } := by
    unfold LsmFail.flushPublish; rw [hp]; rfl
  rw [e2]
  obtain ⟨d, refs, hpd, _⟩ := h.flush p count hp
  have hd : d ∈ p.outputs := by rw [hpd]; exact List.mem_singleton.2 rfl
  have hpend : p ∈ pendings s := by unfold pendings; rw [hp]; exact List.mem_append_left _ (List.mem_singleton.2 rfl)
  obtain ⟨⟨_, _, _, f, hf, _⟩, h2⟩ := h.pend p hpend d hd
  refine ⟨d, hd, ?_, fun l e he => h2 l e (everListed_iff.1 he)⟩
  change s.files ⟨d.level, (entryOf d).id⟩ ≠ none
  rw [hf]
  exact Option.some_ne_none f

/-! ## A concrete history -/

theorem mem_of_find {P : Type} {m : Kv P} {k : Key} {v : Val P} (h : kget m k = some v) : (k, v) ∈ m := by
  unfold kget at h
  cases hc : m.find? (fun p => decide (p.1 = k)) with
  | none => rw [hc] at h; cases h
  | some p =>
    rw [hc] at h
    have h1 := List.find?_some hc
    simp only [decide_eq_true_eq] at h1
    have h2 := List.mem_of_find?_eq_some hc
    simp only [Option.map_some, Option.some.injEq] at h
    rw [← h1, ← h]
    exact h2

section Example
open Tonbo.Props.C38 (exX exExt seg flushOps jobOf)

/-- A flush that cannot write its file; one told of an error although it was published, and the next one
writes the rows again; one that is refused and tried again; a merge that fails after its first table; a job
that is refused; then one more compaction that succeeds, whose garbage is not recorded. -/
def exHist : List (LsmFail.Op Nat Nat) :=
  [.fine (.write (.put [(11, 1), (21, 1)])), .fine (.write .freeze), .flushTorn 1 none,
    .fine (.flushWrite (some [seg 1])), .flushPublish .lost,
    .fine (.flushWrite (some [seg 1])), .flushPublish .told, .fine .flushDrain,
    .fine (.write (.put [(12, 2), (31, 2)])), .fine (.write .freeze), .fine (.flushWrite (some [seg 1, seg 2])),
    .flushPublish .refused, .fine (.flushWrite (some [seg 1, seg 2])), .flushPublish .told, .fine .flushDrain,
    .startTorn ⟨0, 1, [⟨0, 2⟩, ⟨0, 3⟩, ⟨0, 5⟩], none⟩ none 0 1 none (fun _ => false),
    .fine (.start ⟨0, 1, [⟨0, 2⟩, ⟨0, 3⟩, ⟨0, 5⟩], none⟩ none 0), .finish 0 .refused (fun _ => true) false,
    .fine (.start ⟨0, 1, [⟨0, 2⟩, ⟨0, 3⟩, ⟨0, 5⟩], none⟩ none 0)]

def exEnd : List (LsmFail.Op Nat Nat) := [.finish 0 .told (fun _ => false) true, .fine (.write (.del [(1, 3)]))]

def exF (ops : List (LsmFail.Op Nat Nat)) : Db Nat Nat := reachedF exExt exX 4 1 0 ops

example : JobsHeard (exHist ++ exEnd) ∧ NoRestartF (exHist ++ exEnd) ∧ NoCompactionF (exHist.take 17) := by
  refine ⟨fun i k g h => ?_, fun cap h => ?_, fun i => ⟨fun h => ?_, fun a k g h => ?_⟩⟩ <;>
    simp [exHist, exEnd] at h

/-- Tables 2 and 3 are the same flush, both listed; reads are right before and after the compaction, which
leaves table 8; table 4 (of the refused flush) and 7 (of the refused job, which could not remove it) stay
unlisted. -/
example : (LsmFail.run exExt exX 1 (Db.new 4 1 0) (exHist ++ exEnd)).1 = true ∧
    (scanAll 1 (exF exHist) 9).map rowsOf = some [(1, 12), (2, 21), (3, 31)] ∧
    (scanAll 1 (exF exHist) 1).map rowsOf = some [(1, 11), (2, 21)] ∧
    (scanAll 1 (exF (exHist ++ exEnd)) 9).map rowsOf = some [(2, 21), (3, 31)] ∧
    (exF (exHist ++ exEnd)).gc = none ∧
    (exF (exHist ++ exEnd)).files ⟨0, 4⟩ ≠ none ∧ (exF (exHist ++ exEnd)).files ⟨0, 1⟩ = none := by
  refine ⟨?_, ?_, ?_, ?_, ?_, ?_, ?_⟩ <;> decide +kernel

example : Functional (· ∈ logOfF exExt (exHist ++ exEnd)) ∧ ∀ w ∈ logOfF exExt (exHist ++ exEnd), w.ts ≤ 9 := by
  have : ∀ a ∈ logOfF exExt (exHist ++ exEnd), ∀ b ∈ logOfF exExt (exHist ++ exEnd),
    a.key = b.key → a.ts = b.ts → a.op = b.op := by decide
  exact ⟨fun a b ha hb => this a ha b hb, by decide⟩

/-- No table has deletions, so every table fits. -/
example : ∀ l e, EverListed (exF exHist) 1 l e → ∀ f, (exF exHist).files ⟨l, e.id⟩ = some f → Fits exX.readRows f := by
  have hh : JobsHeard exHist := fun i k g h => by simp [exHist] at h
  obtain ⟨n, h⟩ := reachedF_inv exExt exX (by decide) 4 1 0 exHist hh
  have hall : (exF exHist).kv.all (fun p => match p.2 with
      | .version v => v.ssts.flatten.all (fun e => ((exF exHist).files e.info.data).all (fun f => decide (f.dels = [])))
      | _ => true) = true := by decide +kernel
  intro l e he f hf
  refine .inl ?_
  have hlst := everListed_iff.1 he
  have hdata := (h.ent l e hlst).1
  obtain ⟨k, v, hv, hev⟩ := hlst
  have hm := List.all_eq_true.1 hall _ (mem_of_find hv)
  have hev' : e ∈ v.ssts.flatten := by
    have hl : l < v.ssts.length := by
      by_contra hlt
      rw [List.getD_eq_getElem?_getD, List.getElem?_eq_none (by omega)] at hev
      simp at hev
    rw [List.getD_eq_getElem?_getD, List.getElem?_eq_getElem hl] at hev
    exact List.mem_flatten.2 ⟨_, List.getElem_mem hl, hev⟩
  have := List.all_eq_true.1 hm e hev'
  rw [hdata, hf] at this
  simpa using this

/-- The waiting job would be published, and removes its output if it is told of an error. -/
example : ∃ p, (exF exHist).jobs[0]? = some p ∧ (exF (exHist ++ [.fine (.finish 0)])).kv ≠ (exF exHist).kv ∧
    ∃ d ∈ p.outputs, (fun _ => false : Nat → Bool) d.id = false := by
  have h : ((exF exHist).jobs[0]?.map (fun p => p.outputs.map (·.id))) = some [8] := by decide +kernel
  cases hj : (exF exHist).jobs[0]? with
  | none => rw [hj] at h; cases h
  | some p =>
    rw [hj] at h
    refine ⟨p, rfl, by decide +kernel, ?_⟩
    cases ho : p.outputs with
    | nil => rw [Option.map_some, ho] at h; cases h
    | cons d ds => exact ⟨d, List.mem_cons_self, rfl⟩

/-- Then the table cannot be read; without the failure it can. -/
example : scanAll 1 (exF (exHist ++ [.finish 0 .lost (fun _ => false) false])) 9 = none ∧
    (scanAll 1 (exF (exHist ++ [.fine (.finish 0)])) 9).map rowsOf = some [(1, 12), (2, 21), (3, 31)] := by
  constructor <;> decide +kernel

/-- A flush that waits for its publication. -/
example : ∃ p c, (exF (exHist.take 4)).flushing = .written p c := ⟨_, _, rfl⟩

/-- A listed table. -/
example : ∃ e, EverListed (exF (exHist.take 8)) 1 0 e ∧ e.id = 2 := ⟨_, ⟨1, _, rfl, List.mem_singleton.2 rfl⟩, rfl⟩

example : Fails (.flushTorn 1 none : LsmFail.Op Nat Nat) ∧ Fails (.finish 0 .refused (fun _ => false) false : LsmFail.Op Nat Nat) :=
  ⟨trivial, trivial⟩

end Example

end Tonbo.Props.C68
