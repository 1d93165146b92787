import Verif.Lemmas.Outcome
import Verif.Lemmas.CompactFiles
import Verif.Spec.LsmView
import Verif.Props.C15_C17_Compact

/-!
# Steps on the manifest and on the files
-/

set_option linter.unusedSectionVars false

namespace Tonbo.Lemmas.Lsm
open Tonbo.Model Tonbo.Model.Manifest Tonbo.Model.Planner Tonbo.Model.Outcome Tonbo.Model.Lsm Tonbo.Spec
open Tonbo.Lemmas.Manifest Tonbo.Lemmas.Outcome
open Tonbo.Model.Sst (File)
open Tonbo.Model.Compact (OTable fileBatches)

/-! ## The manifest -/
section Kv
variable {P : Type}

/-- Version `n` of table `t` is `v`. -/
def At (m : Kv P) (t n : Nat) (v : Version P) : Prop := kget m (.version t n) = some (.version v)

/-- Some version lists `e` on level `l`. -/
def Lst (m : Kv P) (t l : Nat) (e : Entry P) : Prop := ∃ n v, At m t n v ∧ e ∈ v.ssts.getD l []

theorem at_unique {m : Kv P} {t n : Nat} {v v' : Version P} (h : At m t n v) (h' : At m t n v') : v = v' := by
  unfold At at h h'
  rw [h] at h'
  simpa using h'

theorem at_le {m : Kv P} {t n k : Nat} {h : Head} {v : Version P} (hok : TableOk m t n h) (ha : At m t k v) :
    1 ≤ k ∧ k ≤ n := by
  by_contra hc
  unfold At at ha
  rw [hok.none k (by omega)] at ha
  cases ha

/-- The levels of a version as a function. -/
def mapOf (v : Version P) : LevelMap P := fun l i => (v.ssts.getD l []).find? (fun e => decide (e.id = i))

theorem mapOf_iff {v : Version P} (hv : VersionOk v) (l : Nat) (e : Entry P) :
    e ∈ v.ssts.getD l [] ↔ mapOf v l e.id = some e := lists_of v.ssts (noDup_of_ok hv) l e

theorem mapOf_some {v : Version P} {l i : Nat} {e : Entry P} (h : mapOf v l i = some e) :
    e.id = i ∧ e ∈ v.ssts.getD l [] := by
  unfold mapOf at h
  exact ⟨by simpa using List.find?_some h, List.mem_of_find?_eq_some h⟩

/-- The version edits start from. -/
def Base (m : Kv P) (t n : Nat) (v : Version P) : Prop :=
  VersionOk v ∧ (n = 0 → v = Version.empty t) ∧ (0 < n → At m t n v)

theorem base_sub {m : Kv P} {t n l : Nat} {v : Version P} {e : Entry P} (hb : Base m t n v)
    (he : e ∈ v.ssts.getD l []) : 0 < n ∧ At m t n v := by
  rcases Nat.eq_zero_or_pos n with h | h
  · exfalso
    rw [hb.2.1 h] at he
    simp [Version.empty] at he
  · exact ⟨h, hb.2.2 h⟩

/-- A manifest call on a registered table. -/
theorem apply_spec {m : Kv P} {t n : Nat} {h : Head} (hg : Good m) (hok : TableOk m t n h)
    (es : List (Edit P)) (x : Option (Option Nat)) :
    (∃ e, apply m t es x = (m, .error e)) ∨
    ∃ m' h' v v', apply m t es x = (m', .ok (n + 1)) ∧ Good m' ∧ TableOk m' t (n + 1) h' ∧
      (∀ k, k ≠ n + 1 → kget m' (.version t k) = kget m (.version t k)) ∧ At m' t (n + 1) v' ∧
      (x = none ∨ x = some (lastOf n)) ∧ Base m t n v ∧ VersionOk v' ∧
      Lists v'.ssts (es.foldl editMeans (mapOf v)) ∧ v'.wal.Perm (walAfter v.wal es) ∧
      v'.watermark = watermarkAfter v.watermark es := by
  rcases apply_cases hg t es x with ⟨_, e⟩ | ⟨_, _, e⟩ |
    ⟨n0, hd, hok0, _, ⟨_, _, e⟩ | ⟨hx, v, hb, _, _, ⟨_, e⟩ | ⟨hr, v', ha, hts, htb, hv, e⟩⟩⟩
  · exact .inl ⟨_, e⟩
  · exact .inl ⟨_, e⟩
  · exact .inl ⟨_, e⟩
  · exact .inl ⟨_, e⟩
  · right
    obtain ⟨rfl, rfl⟩ := tableOk_unique hok hok0
    obtain ⟨v0, b1, b2, b3, b4, b5, b6⟩ := base_spec hok
    rw [b1] at hb
    cases hb
    rcases applyEdits_spec v es (mapOf v) (noDup_of_ok b4) (lists_of _ (noDup_of_ok b4)) with
      ⟨h1, _⟩ | ⟨_, w, h2, h3, h4, _, _, h5, h6⟩
    · exact absurd h1 hr
    · rw [ha] at h2
      cases h2
      refine ⟨_, _, v, { v' with ts := n + 1 }, e, good_publish hg hok hts htb hv, publish_ok hok hts htb hv, ?_, ?_,
        hx, ⟨b4, b5, b6⟩, ⟨hv.asc, hv.last, hv.walAsc, hv.floorNone, hv.floor⟩, h4, h5, h6⟩
      · intro k hk
        rw [publish_get]
        simp [hts, hk]
      · unfold At
        rw [publish_get]
        simp [hts]

theorem lst_publish {m m' : Kv P} {t n : Nat} {v' : Version P} {hd : Head} (hok : TableOk m t n hd)
    (hk : ∀ k, k ≠ n + 1 → kget m' (.version t k) = kget m (.version t k)) (ha : At m' t (n + 1) v')
    (l : Nat) (e : Entry P) : Lst m' t l e ↔ Lst m t l e ∨ e ∈ v'.ssts.getD l [] := by
  constructor
  · rintro ⟨k, v, hv, he⟩
    by_cases h : k = n + 1
    · subst h
      rw [at_unique hv ha] at he
      exact .inr he
    · refine .inl ⟨k, v, ?_, he⟩
      unfold At
      rw [← hk k h]
      exact hv
  · rintro (⟨k, v, hv, he⟩ | he)
    · refine ⟨k, v, ?_, he⟩
      have := (at_le hok hv).2
      unfold At
      rw [hk k (by omega)]
      exact hv
    · exact ⟨_, _, ha, he⟩

theorem snapshot_at {m : Kv P} {t n : Nat} {h : Head} {h' : Head} {v : Version P} (hok : TableOk m t n h)
    (hs : snapshotLatest m t = .ok (h', some v)) : h' = h ∧ 0 < n ∧ At m t n v := by
  rcases snapshotLatest_spec hok with ⟨_, e⟩ | ⟨h0, u, hu, _, e⟩
  · rw [e] at hs; cases hs
  · rw [e] at hs; cases hs
    exact ⟨rfl, h0, hu⟩

end Kv

/-! ## Files -/
section Files
variable {K R : Type} [LinearOrder K]

theorem setFile_ne {files : Path → Option (File K R)} {p q : Path} {f : Option (File K R)} (h : q ≠ p) :
    setFile files p f q = files q := by simp [setFile, h]

theorem setFile_eq (files : Path → Option (File K R)) (p : Path) (f : Option (File K R)) :
    setFile files p f p = f := by simp [setFile]

theorem writeAll_other : ∀ (ts : List (OTable K R)) (files : Path → Option (File K R)) (level : Nat) (q : Path),
    (∀ t ∈ ts, q ≠ ⟨level, t.id⟩) → writeAll files level ts q = files q
  | [], files, level, q, _ => rfl
  | t :: ts, files, level, q, h => by
    rw [writeAll, writeAll_other ts _ level q (fun u hu => h u (List.mem_cons_of_mem _ hu))]
    exact setFile_ne (h t List.mem_cons_self)

theorem writeAll_mem : ∀ (ts : List (OTable K R)) (files : Path → Option (File K R)) (level : Nat),
    (ts.map (·.id)).Pairwise (· < ·) → ∀ t ∈ ts, writeAll files level ts ⟨level, t.id⟩ = some t.file
  | [], _, _, _, t, h => by cases h
  | u :: ts, files, level, hp, t, h => by
    rw [List.map_cons, List.pairwise_cons] at hp
    rcases List.mem_cons.1 h with rfl | h
    · rw [writeAll, writeAll_other, setFile_eq]
      intro u hu he
      have := hp.1 u.id (List.mem_map_of_mem hu)
      simp only [Path.mk.injEq, true_and] at he
      omega
    · exact writeAll_mem ts _ level hp.2 t h

theorem cleanup_other : ∀ (ds : List (Desc K)) (files : Path → Option (File K R)) (q : Path),
    (∀ d ∈ ds, d.data ≠ some q) → cleanup files ds q = files q
  | [], files, q, _ => rfl
  | d :: ds, files, q, h => by
    have ih := fun (files' : Path → Option (File K R)) => cleanup_other ds files' q (fun e he => h e (List.mem_cons_of_mem _ he))
    unfold cleanup
    cases hd : d.data with
    | none => exact ih files
    | some p =>
      simp only
      rw [ih]
      apply setFile_ne
      rintro rfl
      exact h d List.mem_cons_self hd

theorem readAll_congr {files files' : Path → Option (File K R)} : ∀ (ds : List (Desc K)),
    (∀ d ∈ ds, ∀ p, d.data = some p → files' p = files p) → readAll files' ds = readAll files ds
  | [], _ => rfl
  | d :: ds, h => by
    have h1 : readFile files' d.data d.del = readFile files d.data d.del := by
      unfold readFile
      cases hd : d.data with
      | none => rfl
      | some p => simp only; rw [h d List.mem_cons_self p hd]
    unfold readAll
    rw [h1, readAll_congr ds (fun e he => h e (List.mem_cons_of_mem _ he))]

/-- What the file of a listed table is like. -/
structure FileOk (f : File K R) (stats : Option (SStats K)) (del : Option Path) (p : Path) : Prop where
  sorted : FileSorted f
  ne : ∃ kt, Stored f kt
  del : del = if f.dels = [] then none else some p
  stats : ∃ s, stats = some s ∧ StatsExact f s.minKey s.maxKey s.minTs s.maxTs ∧ s.rows = f.data.length ∧
    s.tombstones = f.dels.length

/-- A table that can be read. -/
def EntryOk (files : Path → Option (File K R)) (next l : Nat) (e : Entry (Info K)) : Prop :=
  e.info.data = ⟨l, e.id⟩ ∧ e.id < next ∧
    ∃ f, files ⟨l, e.id⟩ = some f ∧ FileOk f e.info.stats e.info.del ⟨l, e.id⟩

/-- The entry of a descriptor. -/
def entryOf (d : Desc K) : Entry (Info K) := ⟨d.id, d.wal, ⟨d.stats, d.data.getD ⟨d.level, d.id⟩, d.del⟩⟩

/-- The descriptor of an entry. -/
def descAt (l : Nat) (e : Entry (Info K)) : Desc K := ⟨e.id, l, e.info.stats, e.wal, some e.info.data, e.info.del⟩

/-- A written table. -/
def DescOk (files : Path → Option (File K R)) (next : Nat) (d : Desc K) : Prop :=
  d.data = some ⟨d.level, d.id⟩ ∧ EntryOk files next d.level (entryOf d)

theorem entryOk_mono {files files' : Path → Option (File K R)} {next next' l : Nat} {e : Entry (Info K)}
    (h : EntryOk files next l e) (hf : files' ⟨l, e.id⟩ = files ⟨l, e.id⟩) (hn : next ≤ next') :
    EntryOk files' next' l e := by
  obtain ⟨h1, h2, f, h3, h4⟩ := h
  exact ⟨h1, by omega, f, by rw [hf]; exact h3, h4⟩

theorem descOk_mono {files files' : Path → Option (File K R)} {next next' : Nat} {d : Desc K}
    (h : DescOk files next d) (hf : files' ⟨d.level, d.id⟩ = files ⟨d.level, d.id⟩) (hn : next ≤ next') :
    DescOk files' next' d := ⟨h.1, entryOk_mono h.2 hf hn⟩

theorem readFile_self {files : Path → Option (File K R)} {p q : Path} {f : File K R} (h : files p = some f) :
    readFile files (some p) (if f.dels = [] then none else some q) = some f := by
  unfold readFile
  simp only [h]
  by_cases hd : f.dels = []
  · simp only [hd, if_true]
    congr 1
    cases f
    simp only at hd
    rw [hd]
  · simp [hd]

theorem readFile_entry {files : Path → Option (File K R)} {next l : Nat} {e : Entry (Info K)}
    (h : EntryOk files next l e) :
    ∃ f, files ⟨l, e.id⟩ = some f ∧ readFile files (some e.info.data) e.info.del = some f ∧
      FileOk f e.info.stats e.info.del ⟨l, e.id⟩ := by
  obtain ⟨h1, _, f, h3, h4⟩ := h
  refine ⟨f, h3, ?_, h4⟩
  rw [h4.del, h1]
  exact readFile_self h3

theorem readAll_ok {files : Path → Option (File K R)} {next : Nat} : ∀ (ds : List (Desc K)),
    (∀ d ∈ ds, DescOk files next d) →
    ∃ fs, readAll files ds = some fs ∧ List.Forall₂ (fun (d : Desc K) f => files ⟨d.level, d.id⟩ = some f ∧
      FileOk f d.stats d.del ⟨d.level, d.id⟩) ds fs
  | [], _ => ⟨[], rfl, .nil⟩
  | d :: ds, h => by
    obtain ⟨fs, h1, h2⟩ := readAll_ok ds (fun e he => h e (List.mem_cons_of_mem _ he))
    obtain ⟨hd, he⟩ := h d List.mem_cons_self
    obtain ⟨f, g1, g2, g3⟩ := readFile_entry he
    refine ⟨f :: fs, ?_, .cons ⟨g1, g3⟩ h2⟩
    unfold readAll
    have : readFile files d.data d.del = some f := by
      rw [hd]
      simpa [entryOf, hd] using g2
    rw [this, h1]

/-! ## Merges -/

theorem foldl_max_le : ∀ (l : List Nat) (a : Nat), a ≤ l.foldl max a ∧ ∀ x ∈ l, x ≤ l.foldl max a
  | [], a => ⟨Nat.le_refl _, by simp⟩
  | b :: l, a => by
    obtain ⟨h1, h2⟩ := foldl_max_le l (max a b)
    rw [List.foldl_cons]
    refine ⟨by omega, fun x hx => ?_⟩
    rcases List.mem_cons.1 hx with rfl | hx
    · omega
    · exact h2 x hx

/-- What a successful merge writes. -/
structure Merged (x : Exec K R) (s s' : Db K R) (level : Nat) (inputs outs : List (Desc K)) : Prop where
  rest : s'.runs = s.runs ∧ s'.kv = s.kv ∧ s'.gc = s.gc ∧ s'.flushing = s.flushing ∧ s'.jobs = s.jobs
  next : s.next ≤ s'.next
  old : ∀ p : Path, p.id < s.next → s'.files p = s.files p
  ne : outs ≠ []
  level : ∀ d ∈ outs, d.level = level
  fresh : ∀ d ∈ outs, s.next ≤ d.id
  ok : ∀ d ∈ outs, DescOk s'.files s'.next d
  ids : (outs.map (·.id)).Nodup
  wal : ∀ d ∈ outs, d.wal = Compact.walIds (inputWal inputs)
  files : ∃ fs gs, readAll s.files inputs = some fs ∧ readAll s'.files outs = some gs ∧
    (∀ f ∈ fs, FileSorted f) ∧ (∀ w, FilesHold gs w → FilesHold fs w) ∧
    gs.Pairwise (fun a b => ∀ x y, Stored a x → Stored b y → x.key < y.key) ∧
    ((∀ f ∈ fs, Fits x.readRows f) → ∀ u, FilesHold fs u → ∃ w, FilesHold gs w ∧ w.key = u.key ∧ u.ts ≤ w.ts)

theorem readAll_descs {files : Path → Option (File K R)} {x : Exec K R} {level : Nat} :
    ∀ (ts : List (OTable K R)), (∀ t ∈ ts, files ⟨level, t.id⟩ = some t.file) →
      readAll files (ts.map (fun t => descOf x level t.id t.file t.stats t.wal)) = some (ts.map (·.file))
  | [], _ => rfl
  | t :: ts, h => by
    have ih := readAll_descs (x := x) ts (fun u hu => h u (List.mem_cons_of_mem _ hu))
    rw [List.map_cons, readAll, ih]
    have : readFile files (descOf x level t.id t.file t.stats t.wal).data
        (descOf x level t.id t.file t.stats t.wal).del = some t.file :=
      readFile_self (h t List.mem_cons_self)
    rw [this]
    rfl

theorem execute_spec {x : Exec K R} (hn : 0 < x.readRows) {s : Db K R} {level : Nat} {inputs : List (Desc K)}
    {skip : Nat} (hin : ∀ d ∈ inputs, DescOk s.files s.next d) :
    (∃ e k, execute x s level inputs skip = ({ s with next := s.next + k }, .error e)) ∨
    ∃ s' outs, execute x s level inputs skip = (s', .ok outs) ∧ Merged x s s' level inputs outs := by
  unfold execute
  by_cases he : inputs = []
  · exact .inl ⟨.noInputs, 0, by simp [he]⟩
  · rw [if_neg he]
    obtain ⟨fs, h1, h2⟩ := readAll_ok inputs hin
    rw [h1]
    have hs : ∀ f ∈ fs, FileSorted f := by
      intro f hf
      obtain ⟨d, _, hd⟩ := Lemmas.Plan.forall₂_mem_right h2 hf
      exact hd.2.sorted
    cases hx : Compact.execute (mergeCfg x level s.next inputs) x.heap (some (s.next + 1)) (fs.map (fileBatches x.readRows)) with
    | error e =>
      refine .inl ⟨.merge e, 1 + skip, ?_⟩
      simp [hx, allocated, Nat.add_assoc]
    | ok tables =>
      right
      obtain ⟨i1, i2⟩ := Props.C16.output_ids _ _ _ _ fs tables hn hs (by simp [mergeCfg]) hx
      obtain ⟨o1, o2, o3, o4⟩ := Props.C16.outputs_sorted_and_disjoint _ _ _ _ fs tables hn hs hx
      have hst := Props.C18.compaction_stats_exact _ _ _ _ fs tables hn hs hx
      have hwr := writeAll_mem tables s.files level i1
      obtain ⟨m1, m2⟩ := foldl_max_le (tables.map (·.id)) s.next
      have hfresh : ∀ t ∈ tables, s.next ≤ t.id := by
        intro t ht
        rcases i2 t ht with h | h
        · simp only [mergeCfg] at h; omega
        · omega
      have hwal : ∀ t ∈ tables, t.wal = Compact.walIds (inputWal inputs) := by
        obtain ⟨L, _, hres⟩ := Lemmas.Compact.execute_weak (mergeCfg x level s.next inputs) x.heap (some (s.next + 1))
          (fs.map (fileBatches x.readRows))
          (by
            intro bs hbs k
            obtain ⟨f, hf, rfl⟩ := List.mem_map.1 hbs
            exact Lemmas.Compact.fileBatches_sorted hn (hs f hf) k)
        rcases hres with ⟨_, he⟩ | ⟨_, tables', parts, he, hrep, _⟩ | ⟨e, he, _⟩
        · rw [he] at hx; cases hx
        · rw [he] at hx
          cases hx
          intro t ht
          obtain ⟨ws, _, hr⟩ := Lemmas.Compact.forall₂_mem_l hrep t ht
          exact hr.wal
        · rw [he] at hx; cases hx
      have hmem : ∀ {d}, d ∈ tables.map (fun t => descOf x level t.id t.file t.stats t.wal) →
          ∃ t ∈ tables, d = descOf x level t.id t.file t.stats t.wal := by
        intro d hd
        obtain ⟨t, ht, rfl⟩ := List.mem_map.1 hd
        exact ⟨t, ht, rfl⟩
      have hnext : ∀ t ∈ tables, t.id < allocated s.next (tables.map (·.id)) skip := by
        intro t ht
        have := m2 t.id (List.mem_map_of_mem ht)
        unfold allocated
        omega
      simp only [hx]
      refine ⟨_, _, rfl, ?_⟩
      constructor
      · exact ⟨rfl, rfl, rfl, rfl, rfl⟩
      · simp only [allocated]; omega
      · intro p hp
        apply writeAll_other
        rintro t ht rfl
        have := hfresh t ht
        simp only at hp
        omega
      · simpa using o1
      · intro d hd
        obtain ⟨t, _, rfl⟩ := hmem hd
        rfl
      · intro d hd
        obtain ⟨t, ht, rfl⟩ := hmem hd
        exact hfresh t ht
      · intro d hd
        obtain ⟨t, ht, rfl⟩ := hmem hd
        refine ⟨rfl, rfl, hnext t ht, t.file, hwr t ht, ?_⟩
        obtain ⟨s1, s2, s3⟩ := hst t ht
        exact ⟨(o2 t ht).1, (o2 t ht).2.1, rfl, _, rfl, s1, s2, s3⟩
      · rw [List.map_map]
        exact i1.imp (fun h => Nat.ne_of_lt h)
      · intro d hd
        obtain ⟨t, ht, rfl⟩ := hmem hd
        exact hwal t ht
      · refine ⟨fs, tables.map (·.file), h1, readAll_descs tables hwr, hs, o4, ?_, ?_⟩
        · exact List.pairwise_map.2 o3
        · intro hfit u hu
          exact Props.C16.outputs_lose_no_key_partial _ _ _ _ fs tables hn hs hfit hx u hu

end Files

/-! ## Failed writes -/
section Failed
open Tonbo.Model.Mem (Runs Inner Imm TryRes insertBatchMvcc sealInner memCall tryInsertBatch tryInsertDelete addRun)
open Tonbo.Lemmas.Mem
variable {K R : Type} [LinearOrder K]

/-- After a failed call the mutable table holds what it held, or nothing. -/
theorem call_failed {ext : R → Option K} {t t' : Runs K R} {op : Mem.Op K R} {log : List (Ver K R)}
    (h : Rep ext t.mem log) (hc : t.call ext op = (false, t')) :
    t'.runs = t.runs ∧ (Rep ext t'.mem log ∨ Rep ext t'.mem []) := by
  have key : ∀ (tr : Inner K R → TryRes (Inner K R)),
      (∀ s s' l e, Rep ext s l → tr s = .err e s' → Rep ext s' l) →
      ∀ (r : Except Mem.Err (Option (Imm K R)) × Inner K R),
      r = (match tr t.mem with
        | .ok s' => (.ok none, s')
        | .err e s' => (.error e, s')
        | .full =>
          match sealInner ext t.mem with
          | (.error e, s') => (.error e, s')
          | (.ok sealed, s') =>
            match tr s' with
            | .ok s'' => (.ok sealed, s'')
            | .err e s'' => (.error e, s'')
            | .full => (.error .capacity, s')) →
      (match r with
        | (.error _, m) => (false, { t with mem := m })
        | (.ok o, m) => (true, ({ runs := addRun t.runs o, mem := m } : Runs K R))) = (false, t') →
      t'.runs = t.runs ∧ (Rep ext t'.mem log ∨ Rep ext t'.mem []) := by
    intro tr htr r hr hc
    cases h1 : tr t.mem with
    | ok s' =>
      rw [h1] at hr; subst hr
      simp at hc
    | err e s' =>
      rw [h1] at hr; subst hr
      simp at hc; subst hc
      exact ⟨rfl, .inl (htr _ _ _ _ h h1)⟩
    | full =>
      rw [h1] at hr
      rcases seal_rep h with ⟨h2, h3, _⟩ | ⟨m, h2, h3, _⟩
      · simp only [h2, h1] at hr
        subst hr
        simp at hc; subst hc
        exact ⟨rfl, .inl h⟩
      · simp only [h2] at hr
        cases h4 : tr (Inner.new t.mem.cap) with
        | ok s' => rw [h4] at hr; subst hr; simp at hc
        | err e s' =>
          rw [h4] at hr; subst hr
          simp at hc; subst hc
          exact ⟨rfl, .inr (htr _ _ _ _ (rep_new ext _) h4)⟩
        | full =>
          rw [h4] at hr; subst hr
          simp at hc; subst hc
          exact ⟨rfl, .inr (rep_new ext _)⟩
  cases op with
  | put rows =>
    refine key (fun s => tryInsertBatch ext s (rows.map (·.1)) (rows.map (·.2))) ?_
      (memCall ext t.mem (.put rows)) ?_ hc
    · intro s s' l e hl ho
      obtain ⟨a, b, c⟩ := tryInsertBatch_err hl.1 ho
      exact ⟨a, fun w => (c w).trans (hl.2 w)⟩
    · show insertBatchMvcc _ _ _ _ = _
      unfold insertBatchMvcc
      rw [if_neg (by simp)]
      simp only [Lemmas.Mem.mapM_id_some]
      rfl
  | del keys =>
    refine key (fun s => tryInsertDelete s (keys.map (fun p => (some p.1, some p.2)))) ?_
      (memCall ext t.mem (.del keys)) rfl hc
    intro s s' l e hl ho
    obtain ⟨a, b, c⟩ := tryInsertDelete_err hl.1 ho
    exact ⟨a, fun w => (c w).trans (hl.2 w)⟩
  | freeze =>
    simp only [Runs.call, memCall] at hc
    rcases seal_rep h with ⟨h2, h3, _⟩ | ⟨m, h2, h3, _⟩
    · rw [h2] at hc; simp at hc
    · rw [h2] at hc; simp at hc

/-- Memory whose parts are well-formed. -/
def MemOk (ext : R → Option K) (t : Runs K R) : Prop :=
  (∃ log, Rep ext t.mem log) ∧ ∀ m ∈ t.runs, Imm.WF ext m

theorem memOk_call {ext : R → Option K} {t : Runs K R} (h : MemOk ext t) (op : Mem.Op K R) :
    MemOk ext (t.call ext op).2 := by
  obtain ⟨⟨log, h1⟩, h2⟩ := h
  cases hc : t.call ext op with
  | mk b t' =>
    cases b with
    | false =>
      obtain ⟨e, h3⟩ := call_failed h1 hc
      exact ⟨h3.elim (fun h => ⟨_, h⟩) (fun h => ⟨_, h⟩), by rw [e]; exact h2⟩
    | true =>
      rcases call_ok h1 hc with ⟨e, h3⟩ | ⟨m, e, h3, h4⟩
      · exact ⟨⟨_, h3⟩, by rw [e]; exact h2⟩
      · refine ⟨⟨_, h4⟩, ?_⟩
        rw [e]
        intro m' hm
        rcases List.mem_append.1 hm with hm | hm
        · exact h2 m' hm
        · rw [List.mem_singleton.1 hm]; exact h3.1

theorem memOk_new (ext : R → Option K) (cap : Nat) : MemOk ext (Runs.new cap : Runs K R) :=
  ⟨⟨[], rep_new ext cap⟩, by simp [Runs.new]⟩

end Failed

end Tonbo.Lemmas.Lsm
