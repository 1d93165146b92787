import Verif.Lemmas.LsmBase

/-!
# What holds after every step of flushes, compactions and restarts
-/

set_option linter.unusedSectionVars false

namespace Tonbo.Lemmas.Lsm
open Tonbo.Model Tonbo.Model.Manifest Tonbo.Model.Planner Tonbo.Model.Outcome Tonbo.Model.Lsm Tonbo.Spec
open Tonbo.Lemmas.Manifest Tonbo.Lemmas.Outcome
open Tonbo.Model.Sst (File)

variable {K R : Type} [LinearOrder K]

/-- Written tables that wait for the manifest. -/
def pendings (s : Db K R) : List (Pending K) :=
  (match s.flushing with
    | .written p _ => [p]
    | _ => []) ++ s.jobs

/-- The identifiers of their outputs. -/
def pendIds (s : Db K R) : List Nat := (pendings s).flatMap (fun p => p.outputs.map (·.id))

/-- A waiting job that was computed on version `n`. -/
structure JobFor (x : Exec K R) (kv : Kv (Info K)) (t : Nat) (p : Pending K) (n : Nat) (v : Version (Info K))
    (target : Nat) (o : Outcome K) : Prop where
  here : At kv t n v
  expected : p.expected = some (some n)
  names : ∀ d ∈ p.inputs, Names v d
  inne : p.inputs ≠ []
  outne : p.outputs ≠ []
  out : ∃ floor, outcomeOf v floor target p.inputs p.outputs = some o
  edits : p.edits = toEdits x.order o
  gc : gcPlan o = some p.gc
  level : ∀ d ∈ p.outputs, d.level = target
  above : ∀ k u l e, k ≤ n → At kv t k u → e ∈ u.ssts.getD l [] → ∀ d ∈ p.outputs, e.id < d.id
  wal : ∀ d ∈ p.outputs, d.wal = Compact.walIds (inputWal p.inputs)

/-- What its files hold. -/
def JobFiles (readRows : Nat) (files : Path → Option (File K R)) (p : Pending K) : Prop :=
  ∃ fs gs, readAll files p.inputs = some fs ∧ readAll files p.outputs = some gs ∧
    (∀ f ∈ fs, FileSorted f) ∧ (∀ w, FilesHold gs w → FilesHold fs w) ∧
    gs.Pairwise (fun a b => ∀ x y, Stored a x → Stored b y → x.key < y.key) ∧
    ((∀ f ∈ fs, Fits readRows f) → ∀ u, FilesHold fs u → ∃ w, FilesHold gs w ∧ w.key = u.key ∧ u.ts ≤ w.ts)

/-- The recorded garbage: tables that were listed and are listed no longer. -/
def GcOk (kv : Kv (Info K)) (t n : Nat) (g : Option GcPlan) : Prop :=
  ∀ plan, g = some plan → ∀ r ∈ plan.ssts,
    (∃ e, Lst kv t r.level e ∧ e.id = r.id ∧ e.info.data = r.data ∧ e.info.del = r.del) ∧
    ∀ v, At kv t n v → ∀ l, ∀ e ∈ v.ssts.getD l [], e.id ≠ r.id

/-- The invariant; `n` versions are published. -/
structure Inv (ext : R → Option K) (x : Exec K R) (t n : Nat) (s : Db K R) : Prop where
  good : Good s.kv
  reg : ∃ h, TableOk s.kv t n h
  mem : MemOk ext s.runs
  ent : ∀ l e, Lst s.kv t l e → EntryOk s.files s.next l e
  uniq : ∀ l e l' e', Lst s.kv t l e → Lst s.kv t l' e' → e.id = e'.id → l = l' ∧ e = e'
  top : ∀ l e, Lst s.kv t l e → ∃ v l' e', At s.kv t n v ∧ e' ∈ v.ssts.getD l' [] ∧ e.id ≤ e'.id
  pend : ∀ p ∈ pendings s, ∀ d ∈ p.outputs, DescOk s.files s.next d ∧ ∀ l e, Lst s.kv t l e → e.id ≠ d.id
  apart : (pendIds s).Nodup
  flush : ∀ p c, s.flushing = .written p c → ∃ d refs, p = ⟨none, flushEdits d refs, [], [d], none⟩ ∧ d.level = 0
  jobs : ∀ p ∈ s.jobs, (∃ k v target o, JobFor x s.kv t p k v target o) ∧ JobFiles x.readRows s.files p
  gc : GcOk s.kv t n s.gc

/-! ## Stability -/

theorem names_descOk {files : Path → Option (File K R)} {kv : Kv (Info K)} {t next n : Nat} {v : Version (Info K)}
    (hent : ∀ l e, Lst kv t l e → EntryOk files next l e) (hat : At kv t n v) {d : Desc K} (hd : Names v d) :
    DescOk files next d := by
  have := hent _ _ ⟨n, v, hat, hd.1⟩
  refine ⟨hd.2, ?_⟩
  unfold entryOf
  rw [hd.2]
  exact this

theorem jobFiles_mono {r : Nat} {files files' : Path → Option (File K R)} {p : Pending K}
    (h : JobFiles r files p)
    (hi : ∀ d ∈ p.inputs, ∀ q, d.data = some q → files' q = files q)
    (ho : ∀ d ∈ p.outputs, ∀ q, d.data = some q → files' q = files q) : JobFiles r files' p := by
  obtain ⟨fs, gs, h1, h2, h3⟩ := h
  exact ⟨fs, gs, by rw [readAll_congr _ hi, h1], by rw [readAll_congr _ ho, h2], h3⟩

/-- A change that touches no table of the manifest and no waiting table. -/
theorem inv_frame {ext : R → Option K} {x : Exec K R} {t n : Nat} {s s' : Db K R} (h : Inv ext x t n s)
    (hm : MemOk ext s'.runs) (hkv : s'.kv = s.kv) (hn : s.next ≤ s'.next)
    (hf : ∀ p : Path, p.id < s.next → s'.files p = s.files p) (hg : s'.gc = s.gc)
    (hfl : s'.flushing = s.flushing) (hj : s'.jobs = s.jobs) : Inv ext x t n s' := by
  have hp : pendings s' = pendings s := by unfold pendings; rw [hfl, hj]
  have hent : ∀ l e, Lst s.kv t l e → EntryOk s'.files s'.next l e := fun l e he =>
    entryOk_mono (h.ent l e he) (hf _ (h.ent l e he).2.1) hn
  refine ⟨by rw [hkv]; exact h.good, by rw [hkv]; exact h.reg, hm, by rw [hkv]; exact hent, by rw [hkv]; exact h.uniq,
    by rw [hkv]; exact h.top, ?_, by unfold pendIds; rw [hp]; exact h.apart, by rw [hfl]; exact h.flush, ?_,
    by rw [hkv, hg]; exact h.gc⟩
  · rw [hp, hkv]
    intro p hp d hd
    obtain ⟨h1, h2⟩ := h.pend p hp d hd
    exact ⟨descOk_mono h1 (hf _ h1.2.2.1) hn, h2⟩
  · rw [hj, hkv]
    intro p hp
    obtain ⟨⟨k, v, target, o, h1⟩, h2⟩ := h.jobs p hp
    refine ⟨⟨k, v, target, o, h1⟩, jobFiles_mono h2 ?_ ?_⟩
    · intro d hd q hq
      have := names_descOk h.ent h1.here (h1.names d hd)
      rw [this.1] at hq
      cases hq
      exact hf _ this.2.2.1
    · intro d hd q hq
      obtain ⟨this, _⟩ := h.pend p (List.mem_append_right _ hp) d hd
      rw [this.1] at hq
      cases hq
      exact hf _ this.2.2.1

theorem jobFor_mono {x : Exec K R} {kv kv' : Kv (Info K)} {t : Nat} {p : Pending K} {k m : Nat}
    {v : Version (Info K)} {target : Nat} {o : Outcome K} (h : JobFor x kv t p k v target o) (hk : k ≤ m)
    (hv : ∀ j, j ≤ m → kget kv' (.version t j) = kget kv (.version t j)) : JobFor x kv' t p k v target o := by
  have hat : ∀ j u, j ≤ m → (At kv' t j u ↔ At kv t j u) := by
    intro j u hj
    unfold At
    rw [hv j hj]
  exact ⟨(hat k v hk).2 h.here, h.expected, h.names, h.inne, h.outne, h.out, h.edits, h.gc, h.level,
    fun j u l e hj hu => h.above j u l e hj ((hat j u (by omega)).1 hu), h.wal⟩

/-- Publishing: the new version consists of tables of the old one and of the outputs of `p`, which
leaves the waiting list. -/
theorem inv_publish {ext : R → Option K} {x : Exec K R} {t n : Nat} {s s' : Db K R} (h : Inv ext x t n s)
    {p : Pending K} {v v' : Version (Info K)} (hperm : (pendings s).Perm (p :: pendings s'))
    (hm : MemOk ext s'.runs) (hg : Good s'.kv) {h' : Head} (hok : TableOk s'.kv t (n + 1) h')
    (hk : ∀ k, k ≠ n + 1 → kget s'.kv (.version t k) = kget s.kv (.version t k)) (hat : At s'.kv t (n + 1) v')
    (hb : Base s.kv t n v)
    (hnew : ∀ l, ∀ e ∈ v'.ssts.getD l [], e ∈ v.ssts.getD l [] ∨ ∃ d ∈ p.outputs, d.level = l ∧ e = entryOf d)
    (htop : ∀ l, ∀ e ∈ v.ssts.getD l [], ∃ l' e', e' ∈ v'.ssts.getD l' [] ∧ e.id ≤ e'.id)
    (hfiles : s'.files = s.files) (hnext : s'.next = s.next)
    (hfl : s'.flushing = s.flushing ∨ ∀ p c, s'.flushing ≠ .written p c) (hj : s'.jobs.Sublist s.jobs)
    (hgc : GcOk s'.kv t (n + 1) s'.gc) : Inv ext x t (n + 1) s' := by
  obtain ⟨hd, hreg⟩ := h.reg
  have hlst := lst_publish hreg hk hat
  have hp1 : p ∈ pendings s := hperm.mem_iff.2 List.mem_cons_self
  have hsub : ∀ q ∈ pendings s', q ∈ pendings s := fun q hq => hperm.mem_iff.2 (List.mem_cons_of_mem _ hq)
  -- an entry of the new version was listed, or is an output
  have hcase : ∀ l e, Lst s'.kv t l e → Lst s.kv t l e ∨ ∃ d ∈ p.outputs, d.level = l ∧ e = entryOf d := by
    intro l e he
    rcases (hlst l e).1 he with he | he
    · exact .inl he
    · rcases hnew l e he with he | he
      · exact .inl ⟨n, v, (base_sub hb he).2, he⟩
      · exact .inr he
  have hnd : ((p.outputs.map (·.id)) ++ pendIds s').Nodup := by
    have h1 : (pendIds s).Perm ((p :: pendings s').flatMap (fun p => p.outputs.map (·.id))) :=
      hperm.flatMap_right _
    exact h1.nodup_iff.1 h.apart
  have hout : ∀ d ∈ p.outputs, ∀ d' ∈ p.outputs, d.id = d'.id → d = d' := by
    intro d hd' d' hd'' he
    exact List.inj_on_of_nodup_map (List.nodup_append.1 hnd).1 hd' hd'' he
  refine ⟨hg, ⟨_, hok⟩, hm, ?_, ?_, ?_, ?_, (List.nodup_append.1 hnd).2.1, ?_, ?_, hgc⟩
  · intro l e he
    rw [hfiles, hnext]
    rcases hcase l e he with he | ⟨d, hd', rfl, rfl⟩
    · exact h.ent l e he
    · exact (h.pend p hp1 d hd').1.2
  · intro l e l' e' he he' hid
    rcases hcase l e he with h1 | ⟨d, hd1, rfl, rfl⟩ <;> rcases hcase l' e' he' with h2 | ⟨d', hd2, rfl, rfl⟩
    · exact h.uniq l e l' e' h1 h2 hid
    · exact absurd hid ((h.pend p hp1 d' hd2).2 _ _ h1)
    · exact absurd hid.symm ((h.pend p hp1 d hd1).2 _ _ h2)
    · have := hout d hd1 d' hd2 hid
      rw [this]
      exact ⟨rfl, rfl⟩
  · intro l e he
    rcases (hlst l e).1 he with he | he
    · obtain ⟨u, l', e', hu, he', hle⟩ := h.top l e he
      have hn0 := (at_le hreg hu).1
      rw [at_unique hu (hb.2.2 (by omega))] at he'
      obtain ⟨l2, e2, h2, hle2⟩ := htop l' e' he'
      exact ⟨v', l2, e2, hat, h2, by omega⟩
    · exact ⟨v', l, e, hat, he, Nat.le_refl _⟩
  · intro q hq d hdq
    obtain ⟨h1, h2⟩ := h.pend q (hsub q hq) d hdq
    refine ⟨by rw [hfiles, hnext]; exact h1, fun l e he => ?_⟩
    rcases hcase l e he with he | ⟨d', hd', rfl, rfl⟩
    · exact h2 l e he
    · intro hid
      have h3 : d.id ∈ pendIds s' := List.mem_flatMap.2 ⟨q, hq, List.mem_map_of_mem hdq⟩
      have := (List.nodup_append.1 hnd).2.2 d'.id (List.mem_map_of_mem hd') d.id h3
      exact this hid
  · intro q c hq
    rcases hfl with hfl | hfl
    · rw [hfl] at hq
      exact h.flush q c hq
    · exact absurd hq (hfl q c)
  · intro q hq
    obtain ⟨⟨k, u, target, o, h1⟩, h2⟩ := h.jobs q (hj.subset hq)
    refine ⟨⟨k, u, target, o, jobFor_mono h1 (at_le hreg h1.here).2 (fun j hj => hk j (by omega))⟩, ?_⟩
    rw [hfiles]
    exact h2

/-- Dropping a waiting job and some of its files. -/
theorem inv_drop_some {ext : R → Option K} {x : Exec K R} {t n : Nat} {s s' : Db K R} (h : Inv ext x t n s)
    {p : Pending K} (hperm : (pendings s).Perm (p :: pendings s'))
    (hm : MemOk ext s'.runs) (hkv : s'.kv = s.kv) (hnext : s'.next = s.next)
    (hfiles : ∃ ds, (∀ d ∈ ds, d ∈ p.outputs) ∧ s'.files = cleanup s.files ds)
    (hfl : s'.flushing = s.flushing ∨ ∀ p c, s'.flushing ≠ .written p c) (hj : s'.jobs.Sublist s.jobs)
    (hgc : s'.gc = s.gc) : Inv ext x t n s' := by
  have hp1 : p ∈ pendings s := hperm.mem_iff.2 List.mem_cons_self
  have hsub : ∀ q ∈ pendings s', q ∈ pendings s := fun q hq => hperm.mem_iff.2 (List.mem_cons_of_mem _ hq)
  have hnd : ((p.outputs.map (·.id)) ++ pendIds s').Nodup := by
    have h1 : (pendIds s).Perm ((p :: pendings s').flatMap (fun p => p.outputs.map (·.id))) :=
      hperm.flatMap_right _
    exact h1.nodup_iff.1 h.apart
  have hkeep : ∀ q : Path, (∀ d ∈ p.outputs, d.id ≠ q.id) → s'.files q = s.files q := by
    intro q hq
    obtain ⟨ds, hds, e⟩ := hfiles
    rw [e]
    apply cleanup_other
    intro d hd he
    have := (h.pend p hp1 d (hds d hd)).1.1
    rw [this] at he
    cases he
    exact hq d (hds d hd) rfl
  have hlist : ∀ l e, Lst s.kv t l e → s'.files ⟨l, e.id⟩ = s.files ⟨l, e.id⟩ := by
    intro l e he
    apply hkeep
    intro d hd hid
    exact (h.pend p hp1 d hd).2 l e he hid.symm
  have hpk : ∀ q ∈ pendings s', ∀ d ∈ q.outputs, s'.files ⟨d.level, d.id⟩ = s.files ⟨d.level, d.id⟩ := by
    intro q hq d hd
    apply hkeep
    intro d' hd' hid
    have h3 : d.id ∈ pendIds s' := List.mem_flatMap.2 ⟨q, hq, List.mem_map_of_mem hd⟩
    exact (List.nodup_append.1 hnd).2.2 d'.id (List.mem_map_of_mem hd') d.id h3 hid
  refine ⟨by rw [hkv]; exact h.good, by rw [hkv]; exact h.reg, hm, ?_, by rw [hkv]; exact h.uniq,
    by rw [hkv]; exact h.top, ?_, (List.nodup_append.1 hnd).2.1, ?_, ?_, by rw [hkv, hgc]; exact h.gc⟩
  · rw [hkv, hnext]
    intro l e he
    exact entryOk_mono (h.ent l e he) (hlist l e he) (Nat.le_refl _)
  · rw [hkv, hnext]
    intro q hq d hd
    obtain ⟨h1, h2⟩ := h.pend q (hsub q hq) d hd
    exact ⟨descOk_mono h1 (hpk q hq d hd) (Nat.le_refl _), h2⟩
  · intro q c hq
    rcases hfl with hfl | hfl
    · rw [hfl] at hq
      exact h.flush q c hq
    · exact absurd hq (hfl q c)
  · rw [hkv]
    intro q hq
    obtain ⟨⟨k, v, target, o, h1⟩, h2⟩ := h.jobs q (hj.subset hq)
    refine ⟨⟨k, v, target, o, h1⟩, jobFiles_mono h2 ?_ ?_⟩
    · intro d hd r hr
      have := names_descOk h.ent h1.here (h1.names d hd)
      rw [this.1] at hr
      cases hr
      exact hlist d.level _ ⟨k, v, h1.here, (h1.names d hd).1⟩
    · intro d hd r hr
      have hq' : q ∈ pendings s' := List.mem_append_right _ hq
      obtain ⟨this, _⟩ := h.pend q (hsub q hq') d hd
      rw [this.1] at hr
      cases hr
      exact hpk q hq' d hd

/-- Dropping a waiting job and its files. -/
theorem inv_drop {ext : R → Option K} {x : Exec K R} {t n : Nat} {s s' : Db K R} (h : Inv ext x t n s)
    {p : Pending K} (hperm : (pendings s).Perm (p :: pendings s'))
    (hm : MemOk ext s'.runs) (hkv : s'.kv = s.kv) (hnext : s'.next = s.next)
    (hfiles : s'.files = s.files ∨ s'.files = cleanup s.files p.outputs)
    (hfl : s'.flushing = s.flushing ∨ ∀ p c, s'.flushing ≠ .written p c) (hj : s'.jobs.Sublist s.jobs)
    (hgc : s'.gc = s.gc) : Inv ext x t n s' :=
  inv_drop_some h hperm hm hkv hnext
    (hfiles.elim (fun e => ⟨[], by simp, e⟩) (fun e => ⟨p.outputs, fun _ h => h, e⟩)) hfl hj hgc

/-! ## The outcome of a job -/

theorem segmentsOk_congr {v : Version (Info K)} {o o' : Outcome K} {L w : List WalRef} (h1 : o'.remove = o.remove)
    (h2 : o'.outputs = o.outputs) (h : SegmentsOk v o L w) : SegmentsOk v o' L w := by
  have e : TableWal v o' = TableWal v o := by
    funext z
    unfold TableWal
    rw [h1, h2]
  have e2 : Needed v o' = Needed v o := by funext z; unfold Needed; rw [e]
  have e3 : AllKnown v o' = AllKnown v o := by unfold AllKnown; rw [e]
  exact ⟨h.sub, by rw [e2]; exact h.keeps, by rw [e2]; exact h.first, by rw [e2]; exact h.gaps,
    by rw [e2, e3]; exact h.only, by rw [e3]; exact h.unknown, h.obsolete⟩

theorem outcomeOf_spec {v : Version (Info K)} (hv : VersionOk v) {floor : Option WalRef} {target : Nat}
    {inputs outs : List (Desc K)} {o : Outcome K} (h : outcomeOf v floor target inputs outs = some o) :
    addEntries outs = some o.add ∧ o.remove = inputs ∧ o.target = target ∧ o.outputs = outs ∧
      o.obsolete = inputs.map (·.id) ∧ o.watermark = outs.foldl maxCommit none ∧
      ∃ L, o.wal = some L ∧ SegmentsOk v o L o.obsoleteWal := by
  unfold outcomeOf fromOutputs at h
  cases ha : addEntries outs with
  | none => rw [ha] at h; cases h
  | some es =>
    rw [ha] at h
    simp only [Option.some.injEq] at h
    set o1 : Outcome K := ⟨es, inputs, target, none, outs.foldl maxCommit none, outs, inputs.map (·.id), none, []⟩ with ho1
    obtain ⟨k1, k2, k3, k4, k5, k6⟩ := reconcile_keeps v floor o1
    obtain ⟨L, l1, l2⟩ := reconcile_spec v hv floor o1
    rw [h] at k1 k2 k3 k4 k5 k6 l1 l2
    exact ⟨by rw [k1], k2, k3, k5, k6, k4, L, l1, segmentsOk_congr k2 k5 l2⟩

theorem lastEntry_nodup {P : Type} {es : List (Entry P)} (h : (es.map (·.id)).Nodup) (e : Entry P) (i : Nat) :
    lastEntry es i = some e ↔ e ∈ es ∧ e.id = i := by
  unfold lastEntry
  constructor
  · intro hf
    exact ⟨by simpa using List.mem_of_find?_eq_some hf, by simpa using List.find?_some hf⟩
  · rintro ⟨he, rfl⟩
    cases hf : es.reverse.find? (fun x => decide (x.id = e.id)) with
    | none =>
      have := List.find?_eq_none.1 hf e (by simpa using he)
      simp at this
    | some x =>
      have h1 := List.find?_some hf
      have h2 := List.mem_of_find?_eq_some hf
      simp only [decide_eq_true_eq] at h1
      rw [List.mem_reverse] at h2
      rw [List.inj_on_of_nodup_map h h2 he h1]

/-- What a published job leaves. -/
theorem job_version {x : Exec K R} {kv : Kv (Info K)} {t n target next : Nat} {p : Pending K} {v v' : Version (Info K)}
    {o : Outcome K} {files : Path → Option (File K R)} (h : JobFor x kv t p n v target o) (hv : VersionOk v)
    (hd : ∀ d ∈ p.outputs, DescOk files next d) (hnd : (p.outputs.map (·.id)).Nodup)
    (hl : Lists v'.ssts (p.edits.foldl editMeans (mapOf v))) :
    ¬ Refused v.ssts.length p.edits ∧
    (∀ l e, e ∈ v'.ssts.getD l [] ↔ (∃ d ∈ p.outputs, d.level = l ∧ e = entryOf d) ∨
      (e ∈ v.ssts.getD l [] ∧ ∀ d ∈ p.inputs, ¬ (d.level = l ∧ d.id = e.id))) ∧
    (∃ L, SegmentsOk v o L o.obsoleteWal ∧ ∀ w, walAfter w p.edits = L) := by
  obtain ⟨floor, hout⟩ := h.out
  obtain ⟨a1, a2, a3, a4, _, _, L, hL, hseg⟩ := outcomeOf_spec hv hout
  have hlev : ∀ d ∈ o.remove, d.level < v.ssts.length := by
    rw [a2]
    intro d hd
    have := (h.names d hd).1
    by_contra hc
    rw [List.getD_eq_getElem?_getD, List.getElem?_eq_none (by omega)] at this
    cases this
  obtain ⟨t1, t2, _, t3⟩ := toEdits_spec x.orderPerm o v.ssts.length hlev (mapOf v) L hL
  obtain ⟨e1, e2⟩ := addEntries_some a1
  rw [← h.edits] at t1 t2 t3
  refine ⟨t1, ?_, L, hseg, t2⟩
  intro l e
  have hadd : ∀ e, e ∈ o.add ↔ ∃ d ∈ p.outputs, e = entryOf d := by
    intro e
    rw [e2]
    constructor
    · rintro ⟨d, hd1, q, hq, rfl⟩
      refine ⟨d, hd1, ?_⟩
      simp [entryOf, hq]
    · rintro ⟨d, hd1, rfl⟩
      exact ⟨d, hd1, _, (hd d hd1).1, by simp [entryOf, (hd d hd1).1]⟩
  have hlast := lastEntry_nodup (es := o.add) (by rw [e1]; exact hnd)
  rw [hl l e, t3, a2, a3]
  constructor
  · intro hm
    split_ifs at hm with c1 c2
    · obtain ⟨he, _⟩ := (hlast e e.id).1 hm
      obtain ⟨d, hd1, rfl⟩ := (hadd e).1 he
      exact .inl ⟨d, hd1, by rw [h.level d hd1, c1.1], rfl⟩
    · right
      refine ⟨(mapOf_iff hv l e).2 hm, fun d hd1 hc => c2 ⟨d, hd1, hc⟩⟩
  · rintro (⟨d, hd1, rfl, rfl⟩ | ⟨he, hno⟩)
    · have := (hlast (entryOf d) (entryOf d).id).2 ⟨(hadd _).2 ⟨d, hd1, rfl⟩, rfl⟩
      rw [if_pos ⟨h.level d hd1, by rw [this]; simp⟩, this]
    · rw [if_neg, if_neg]
      · exact (mapOf_iff hv l e).1 he
      · rintro ⟨d, hd1, hc⟩
        exact hno d hd1 hc
      · rintro ⟨rfl, hne⟩
        obtain ⟨e', he'⟩ := Option.ne_none_iff_exists'.1 hne
        obtain ⟨h1, h2⟩ := (hlast e' e.id).1 he'
        obtain ⟨d, hd1, rfl⟩ := (hadd e').1 h1
        have := h.above n v _ e (Nat.le_refl _) h.here he d hd1
        simp only [entryOf] at h2
        omega

end Tonbo.Lemmas.Lsm
