import Verif.Lemmas.Store
import Mathlib.Data.List.Induction

/-! # Several tables in one store: the files of one table, and whole histories -/

namespace Tonbo.Lemmas.Store
open Tonbo.Model Tonbo.Model.Manifest Tonbo.Model.Planner Tonbo.Model.Outcome Tonbo.Model.Lsm
open Tonbo.Model.Store (Store)
open Tonbo.Spec.TablesView
open Tonbo.Model.Sst (File)

variable {K R : Type} [LinearOrder K]

/-- Files after some were written or removed. -/
def over (upd : Path → Option (Option (File K R))) (files : Path → Option (File K R)) : Path → Option (File K R) :=
  fun p => (upd p).getD (files p)

/-- A change of the files that does not look at them. -/
def Blind (f : (Path → Option (File K R)) → (Path → Option (File K R))) : Prop := ∃ upd, ∀ files, f files = over upd files

theorem blind_id : Blind (K := K) (R := R) (fun files => files) := ⟨fun _ => none, fun _ => rfl⟩

theorem blind_comp {f g : (Path → Option (File K R)) → (Path → Option (File K R))} (hf : Blind f) (hg : Blind g) :
    Blind (fun files => g (f files)) := by
  obtain ⟨u, hu⟩ := hf
  obtain ⟨v, hv⟩ := hg
  refine ⟨fun p => (v p).or (u p), fun files => ?_⟩
  funext p
  simp only [hv, hu]
  unfold over
  simp only
  cases v p <;> rfl

theorem blind_set (p : Path) (c : Option (File K R)) : Blind (fun files => setFile files p c) := by
  refine ⟨fun q => if q = p then some c else none, fun files => ?_⟩
  funext q
  unfold setFile over
  by_cases h : q = p
  · simp [h]
  · simp [h]

theorem blind_writeAll (l : Nat) : ∀ ts : List (Compact.OTable K R), Blind (fun files => writeAll files l ts)
  | [] => blind_id
  | t :: ts => blind_comp (blind_set ⟨l, t.id⟩ (some t.file)) (blind_writeAll l ts)

theorem blind_cleanup : ∀ ds : List (Desc K), Blind (R := R) (fun files => cleanup files ds)
  | [] => blind_id
  | d :: ds => by
    have ih := blind_cleanup ds
    cases hd : d.data with
    | none => simpa only [cleanup, hd] using ih
    | some p => simpa only [cleanup, hd] using blind_comp (blind_set p none) ih

/-- The same database with other files. -/
def withFiles (g : Path → Option (File K R)) (d : Db K R) : Db K R := { d with files := g }

/-- Two databases went through the same step, up to files neither step looked at. -/
def Alike (d1 : Db K R) (g1 : Path → Option (File K R)) (d2 : Db K R) (g2 : Path → Option (File K R)) : Prop :=
  ∃ D upd, d1 = withFiles (over upd g1) D ∧ d2 = withFiles (over upd g2) D

theorem alike_of_blind {f : (Path → Option (File K R)) → (Path → Option (File K R))} (hf : Blind f) (D : Db K R)
    (g1 g2 : Path → Option (File K R)) : Alike (withFiles (f g1) D) g1 (withFiles (f g2) D) g2 := by
  obtain ⟨u, hu⟩ := hf
  exact ⟨D, u, by rw [hu], by rw [hu]⟩

theorem readAll_congr {f g : Path → Option (File K R)} : ∀ {ds : List (Desc K)},
    (∀ d ∈ ds, ∀ p, d.data = some p → f p = g p) → readAll f ds = readAll g ds
  | [], _ => rfl
  | d :: ds, h => by
    have ih := readAll_congr (fun e he => h e (List.mem_cons_of_mem _ he))
    have hd : readFile f d.data d.del = readFile g d.data d.del := by
      unfold readFile
      cases hp : d.data with
      | none => rfl
      | some p => simp only [h d List.mem_cons_self p hp]
    simp only [readAll, hd, ih]

theorem resolve_named {v : Version (Info K)} : ∀ {is : List Input} {ds : List (Desc K)}, resolve v is = .ok ds →
    ∀ d ∈ ds, ∀ p, d.data = some p → ∃ e ∈ v.ssts.flatten, e.info.data = p
  | [], ds, h => by
    simp only [resolve, Except.ok.injEq] at h
    subst h
    intro d hd; cases hd
  | i :: is, ds, h => by
    simp only [resolve] at h
    cases hb : v.ssts[i.level]? with
    | none => rw [hb] at h; cases h
    | some bucket =>
      rw [hb] at h
      simp only at h
      cases hf : bucket.find? (fun e => decide (e.id = i.id)) with
      | none => rw [hf] at h; cases h
      | some e =>
        rw [hf] at h
        simp only at h
        cases hr : resolve v is with
        | error err => rw [hr] at h; cases h
        | ok ds' =>
          rw [hr] at h
          simp only [Except.ok.injEq] at h
          subst h
          intro d hd p hp
          rcases List.mem_cons.1 hd with rfl | hd
          · simp only [Option.some.injEq] at hp
            exact ⟨e, List.mem_flatten.2 ⟨bucket, List.mem_of_getElem? hb, List.mem_of_find?_eq_some hf⟩, hp⟩
          · exact resolve_named hr d hd p hp

theorem execute_alike (x : Exec K R) (d : Db K R) (g : Path → Option (File K R)) (l : Nat) (ins : List (Desc K)) (skip : Nat)
    (h : readAll d.files ins = readAll g ins) :
    (Lsm.execute x (withFiles g d) l ins skip).2 = (Lsm.execute x d l ins skip).2 ∧
    Alike (Lsm.execute x d l ins skip).1 d.files (Lsm.execute x (withFiles g d) l ins skip).1 g := by
  unfold Lsm.execute
  by_cases h0 : ins = []
  · rw [if_pos h0, if_pos h0]
    exact ⟨rfl, alike_of_blind blind_id d d.files g⟩
  · rw [if_neg h0, if_neg h0]
    simp only [withFiles]
    rw [← h]
    cases readAll d.files ins with
    | none => exact ⟨rfl, alike_of_blind blind_id { d with next := allocated d.next [] skip } d.files g⟩
    | some fs =>
      simp only
      cases Compact.execute (mergeCfg x l d.next ins) x.heap (some (d.next + 1)) (fs.map (Compact.fileBatches x.readRows)) with
      | error e => exact ⟨rfl, alike_of_blind blind_id { d with next := allocated d.next [] skip } d.files g⟩
      | ok ts =>
        exact ⟨rfl, alike_of_blind (blind_writeAll l ts) { d with next := allocated d.next (ts.map (·.id)) skip } d.files g⟩

/-- The paths the latest version of a table names. -/
def NamesDb (d : Db K R) (t : Nat) (p : Path) : Prop :=
  ∃ h v, snapshotLatest d.kv t = .ok (h, some v) ∧ ∃ e ∈ v.ssts.flatten, e.info.data = p

theorem start_alike (x : Exec K R) (t : Nat) (d : Db K R) (g : Path → Option (File K R)) (task : PTask K) (head : Option Nat)
    (skip : Nat) (hr : ∀ p, NamesDb d t p → d.files p = g p) :
    (Lsm.start x t (withFiles g d) task head skip).2 = (Lsm.start x t d task head skip).2 ∧
    Alike (Lsm.start x t d task head skip).1 d.files (Lsm.start x t (withFiles g d) task head skip).1 g := by
  have base : Alike d d.files (withFiles g d) g := alike_of_blind blind_id d d.files g
  unfold Lsm.start
  have ekv : (withFiles g d).kv = d.kv := rfl
  rw [ekv]
  cases hs : snapshotLatest d.kv t with
  | error e => exact ⟨rfl, base⟩
  | ok hv =>
    obtain ⟨h, v⟩ := hv
    cases v with
    | none => exact ⟨rfl, base⟩
    | some v =>
      simp only
      by_cases hh : head ≠ none ∧ h.last ≠ head
      · rw [if_pos hh, if_pos hh]; exact ⟨rfl, base⟩
      · rw [if_neg hh, if_neg hh]
        cases hres : resolve v task.input with
        | error e => exact ⟨rfl, base⟩
        | ok ins =>
          simp only
          have hra : readAll d.files ins = readAll g ins :=
            readAll_congr (fun e he p hp => hr p ⟨h, v, hs, resolve_named hres e he p hp⟩)
          obtain ⟨h2, h1⟩ := execute_alike x d g task.target ins skip hra
          rcases he : Lsm.execute x d task.target ins skip with ⟨d', r⟩
          rcases he' : Lsm.execute x (withFiles g d) task.target ins skip with ⟨d'', r'⟩
          rw [he, he'] at h1 h2
          simp only at h1 h2
          subst h2
          obtain ⟨D, upd, rfl, rfl⟩ := h1
          have keep : Alike (withFiles (over upd d.files) D) d.files (withFiles (over upd g) D) g := ⟨D, upd, rfl, rfl⟩
          cases r' with
          | error e => exact ⟨rfl, keep⟩
          | ok outs =>
            simp only
            cases outcomeOf v ((walFloor d.kv t).toOption.join) task.target ins outs with
            | none =>
              refine ⟨rfl, ?_⟩
              exact alike_of_blind (blind_comp (f := over upd) ⟨upd, fun _ => rfl⟩ (blind_cleanup outs)) D d.files g
            | some o =>
              simp only
              cases Outcome.gcPlan o with
              | none => exact ⟨rfl, keep⟩
              | some plan =>
                simp only
                by_cases hed : Outcome.toEdits x.order o = []
                · rw [if_pos hed, if_pos hed]; exact ⟨rfl, keep⟩
                · rw [if_neg hed, if_neg hed]; exact ⟨rfl, keep⟩

theorem flushWrite_alike (ext : R → Option K) (x : Exec K R) (d : Db K R) (g : Path → Option (File K R)) (count : Nat)
    (refs : Option (List WalRef)) :
    Alike (Lsm.flushWrite ext x d count refs) d.files (Lsm.flushWrite ext x (withFiles g d) count refs) g := by
  obtain ⟨runs, kv, files, next, gc, fl, jobs⟩ := d
  change Alike _ files (Lsm.flushWrite ext x ⟨runs, kv, g, next, gc, fl, jobs⟩ count refs) g
  unfold Lsm.flushWrite
  cases fl with
  | written p c => exact alike_of_blind blind_id ⟨runs, kv, files, next, gc, .written p c, jobs⟩ files g
  | published c => exact alike_of_blind blind_id ⟨runs, kv, files, next, gc, .published c, jobs⟩ files g
  | idle =>
    simp only
    by_cases h : runs.runs.take count = []
    · rw [if_pos h, if_pos h]
      exact alike_of_blind blind_id ⟨runs, kv, files, next, gc, .idle, jobs⟩ files g
    · rw [if_neg h, if_neg h]
      cases Flush.flush ext (runs.runs.take count) with
      | error e => exact alike_of_blind blind_id ⟨runs, kv, files, next + 1, gc, .idle, jobs⟩ files g
      | ok tab =>
        simp only
        cases tab.file ext with
        | none => exact alike_of_blind blind_id ⟨runs, kv, files, next + 1, gc, .idle, jobs⟩ files g
        | some f =>
          exact alike_of_blind (blind_set ⟨0, next⟩ (some f)) ⟨runs, kv, files, next + 1, gc, .written
            ⟨none, flushEdits (descOf x 0 next f tab.stats (flushWal refs)) refs, [],
              [descOf x 0 next f tab.stats (flushWal refs)], none⟩ (runs.runs.take count).length, jobs⟩ files g

/-- A step looks only at files the latest version names, and only to start a compaction. -/
theorem step_alike (ext : R → Option K) (x : Exec K R) (t : Nat) (d : Db K R) (g : Path → Option (File K R)) (o : Lsm.Op K R)
    (hr : (∃ a b c, o = .start a b c) → ∀ p, NamesDb d t p → d.files p = g p) :
    Alike (Lsm.step ext x t d o).2 d.files (Lsm.step ext x t (withFiles g d) o).2 g := by
  cases o with
  | write op => exact alike_of_blind blind_id { d with runs := (d.runs.call ext op).2 } d.files g
  | flushWrite refs => exact flushWrite_alike ext x d g _ refs
  | flushSome count refs => exact flushWrite_alike ext x d g count refs
  | flushPublish =>
    obtain ⟨runs, kv, files, next, gc, fl, jobs⟩ := d
    simp only [Lsm.step, Lsm.flushPublish, withFiles]
    cases fl with
    | idle => exact alike_of_blind blind_id ⟨runs, kv, files, next, gc, .idle, jobs⟩ files g
    | published c => exact alike_of_blind blind_id ⟨runs, kv, files, next, gc, .published c, jobs⟩ files g
    | written p c =>
      simp only
      rcases Manifest.apply kv t p.edits p.expected with ⟨kv', e | n⟩
      · exact alike_of_blind blind_id ⟨runs, kv', files, next, gc, .idle, jobs⟩ files g
      · exact alike_of_blind blind_id ⟨runs, kv', files, next, gc, .published c, jobs⟩ files g
  | flushDrain =>
    obtain ⟨runs, kv, files, next, gc, fl, jobs⟩ := d
    simp only [Lsm.step, Lsm.flushDrain, withFiles]
    cases fl with
    | idle => exact alike_of_blind blind_id ⟨runs, kv, files, next, gc, .idle, jobs⟩ files g
    | written p c => exact alike_of_blind blind_id ⟨runs, kv, files, next, gc, .written p c, jobs⟩ files g
    | published c =>
      exact alike_of_blind blind_id ⟨{ runs with runs := if c ≤ runs.runs.length then runs.runs.drop c else [] }, kv, files,
        next, gc, .idle, jobs⟩ files g
  | start a b c =>
    obtain ⟨h2, h1⟩ := start_alike x t d g a b c (hr ⟨a, b, c, rfl⟩)
    simp only [Lsm.step]
    rcases he : Lsm.start x t d a b c with ⟨d', r⟩
    rcases he' : Lsm.start x t (withFiles g d) a b c with ⟨d'', r'⟩
    rw [he, he'] at h1 h2
    simp only at h1 h2
    subst h2
    obtain ⟨D, upd, rfl, rfl⟩ := h1
    cases r' with
    | ready p => exact ⟨{ D with jobs := D.jobs ++ [p] }, upd, rfl, rfl⟩
    | skipped => exact ⟨D, upd, rfl, rfl⟩
    | failed e => exact ⟨D, upd, rfl, rfl⟩
    | done => exact ⟨D, upd, rfl, rfl⟩
  | finish i =>
    simp only [Lsm.step, withFiles]
    cases d.jobs[i]? with
    | none => exact alike_of_blind blind_id d d.files g
    | some p =>
      simp only [Lsm.finish]
      rcases Manifest.apply d.kv t p.edits p.expected with ⟨kv', e | n⟩
      · exact alike_of_blind (blind_cleanup p.outputs) { d with kv := kv', jobs := d.jobs.eraseIdx i } d.files g
      · exact alike_of_blind blind_id { d with kv := kv', gc := p.gc.or d.gc, jobs := d.jobs.eraseIdx i } d.files g
  | setWal refs =>
    simp only [Lsm.step, Lsm.setWal, withFiles]
    by_cases h : refs = []
    · rw [if_pos h, if_pos h]; exact alike_of_blind blind_id d d.files g
    · rw [if_neg h, if_neg h]
      exact alike_of_blind blind_id { d with kv := (Manifest.apply d.kv t [.setWal refs] none).1 } d.files g
  | reopen cap =>
    simp only [Lsm.step, Lsm.reopen, withFiles]
    cases allocator d.kv t with
    | error e => exact alike_of_blind blind_id d d.files g
    | ok n =>
      exact alike_of_blind blind_id { d with runs := Mem.Runs.new cap, next := n, flushing := .idle, jobs := [] } d.files g

/-! ## Scans -/

theorem namesDb_view (t : Nat) (d : Db K R) (p : Path) : NamesDb (view t d) t p ↔ NamesDb d t p := by
  unfold NamesDb view
  simp only [snapshotLatest_restrict]

theorem latestFiles_view (t : Nat) (d : Db K R) : latestFiles t (view t d) = latestFiles t d := by
  unfold latestFiles view
  simp only [snapshotLatest_restrict]
  rfl

theorem scan_view (t : Nat) (d : Db K R) (rts : Nat) : scanAll t (view t d) rts = scanAll t d rts := by
  unfold scanAll allStreams
  rw [latestFiles_view]
  rfl

theorem latestFiles_files (t : Nat) (d : Db K R) (g : Path → Option (File K R)) (h : ∀ p, NamesDb d t p → d.files p = g p) :
    latestFiles t (withFiles g d) = latestFiles t d := by
  unfold latestFiles
  have ekv : (withFiles g d).kv = d.kv := rfl
  rw [ekv]
  cases hs : snapshotLatest d.kv t with
  | error e => rfl
  | ok hv =>
    obtain ⟨hd, v⟩ := hv
    cases v with
    | none => rfl
    | some v =>
      simp only
      unfold tableFiles
      have : ∀ l : List (Entry (Info K)), (∀ e ∈ l, e ∈ v.ssts.flatten) →
          l.mapM (fun e => readFile (withFiles g d).files (some e.info.data) e.info.del) =
          l.mapM (fun e => readFile d.files (some e.info.data) e.info.del) := by
        intro l
        induction l with
        | nil => intro _; rfl
        | cons e l ih =>
          intro hl
          have he : readFile (withFiles g d).files (some e.info.data) e.info.del =
              readFile d.files (some e.info.data) e.info.del := by
            unfold readFile
            simp only [withFiles]
            rw [h e.info.data ⟨hd, v, hs, e, hl e List.mem_cons_self, rfl⟩]
          rw [List.mapM_cons, List.mapM_cons, he, ih (fun e he => hl e (List.mem_cons_of_mem _ he))]
      exact this _ (fun e he => he)

theorem scan_files (t : Nat) (d : Db K R) (g : Path → Option (File K R)) (h : ∀ p, NamesDb d t p → d.files p = g p)
    (rts : Nat) : scanAll t (withFiles g d) rts = scanAll t d rts := by
  unfold scanAll allStreams
  rw [latestFiles_files t d g h]
  rfl

/-! ## Steps of the store -/

theorem act_view (ext : R → Option K) (x : Exec K R) (d : Db K R) (o : Store.Op K R) :
    Store.act ext x (view o.table d) o = view o.table (Store.act ext x d o) := by
  cases o with
  | openTable t v cap =>
    have : Store.register t v (view t d) = view t (Store.register t v d) := by
      unfold Store.register view
      simp only [initHead_restrict]
    simp only [Store.act, Store.Op.table]
    rw [this, step_view]
  | on t op => exact step_view ext x t d op

theorem act_other {t : Nat} (ext : R → Option K) (x : Exec K R) (d : Db K R) (o : Store.Op K R) (h : o.table ≠ t) :
    restrict t (Store.act ext x d o).kv = restrict t d.kv := by
  cases o with
  | openTable u v cap =>
    simp only [Store.act]
    rw [step_other (t := t) (u := u) h]
    exact initHead_other h d.kv _
  | on u op => exact step_other h ext x d op

theorem act_alike (ext : R → Option K) (x : Exec K R) (d : Db K R) (g : Path → Option (File K R)) (o : Store.Op K R)
    (hr : (∃ u a b c, o = .on u (.start a b c)) → ∀ p, NamesDb d o.table p → d.files p = g p) :
    Alike (Store.act ext x d o) d.files (Store.act ext x (withFiles g d) o) g := by
  cases o with
  | openTable t v cap =>
    exact step_alike ext x t (Store.register t v d) g (.reopen cap) (by rintro ⟨a, b, c, h⟩; cases h)
  | on t op =>
    exact step_alike ext x t d g op (by rintro ⟨a, b, c, rfl⟩; exact hr ⟨t, a, b, c, rfl⟩)

theorem db_set_same (s : Store K R) (t : Nat) (d : Db K R) : (s.set t d).db t = d := by
  unfold Store.Store.set Store.Store.db
  simp

theorem view_set_other (s : Store K R) {t u : Nat} (hu : u ≠ t) (d : Db K R) (hk : restrict t d.kv = restrict t s.kv) :
    view t ((s.set u d).db t) = withFiles d.files (view t (s.db t)) := by
  unfold Store.Store.set Store.Store.db view withFiles
  simp [hk, Ne.symm hu]

theorem run_snoc (ext : R → Option K) (x : Exec K R) (l : List (Store.Op K R)) (o : Store.Op K R) :
    Store.run ext x (l ++ [o]) = Store.step ext x (Store.run ext x l) o := by
  unfold Store.run
  rw [List.foldl_append]
  rfl

theorem only_snoc_same {t : Nat} (l : List (Store.Op K R)) {o : Store.Op K R} (h : o.table = t) :
    only t (l ++ [o]) = only t l ++ [o] := by
  unfold only
  rw [List.filter_append, List.filter_cons_of_pos (by simpa using h)]
  rfl

theorem only_snoc_other {t : Nat} (l : List (Store.Op K R)) {o : Store.Op K R} (h : o.table ≠ t) :
    only t (l ++ [o]) = only t l := by
  unfold only
  rw [List.filter_append, List.filter_cons_of_neg (by simpa using h)]
  simp

theorem snoc_split {α : Type} {r l' r' : List α} {o o' : α} (h : r ++ [o] = l' ++ o' :: r') :
    (∃ r'', r = l' ++ o' :: r'' ∧ r' = r'' ++ [o]) ∨ (r = l' ∧ o = o' ∧ r' = []) := by
  rcases List.eq_nil_or_concat r' with rfl | ⟨q, z, rfl⟩
  · right
    obtain ⟨h1, h2⟩ := List.append_inj' h rfl
    cases h2
    exact ⟨h1, rfl, rfl⟩
  · left
    rw [List.concat_eq_append] at h ⊢
    rw [show l' ++ o' :: (q ++ [z]) = (l' ++ o' :: q) ++ [z] by simp] at h
    obtain ⟨h1, h2⟩ := List.append_inj' h rfl
    cases h2
    exact ⟨q, h1, rfl⟩

variable {ext : R → Option K} {x : Exec K R} {t : Nat}

theorem foreign_other {l : List (Store.Op K R)} {o : Store.Op K R} (h : o.table ≠ t) {p : Path}
    (hf : ¬ Foreign ext x t (l ++ [o]) p) :
    (Store.run ext x (l ++ [o])).files p = (Store.run ext x l).files p ∧ ¬ Foreign ext x t l p := by
  constructor
  · by_contra hc
    refine hf ⟨l, o, [], rfl, h, hc, ?_⟩
    intro l' o' r' e
    simp at e
  · rintro ⟨a, b, r, rfl, hb, hch, hl⟩
    refine hf ⟨a, b, r ++ [o], by simp, hb, hch, ?_⟩
    intro l' o' r' e ht
    rcases snoc_split e with ⟨r'', e1, -⟩ | ⟨-, rfl, -⟩
    · exact hl l' o' r'' e1 ht
    · exact absurd ht h

theorem foreign_same {l : List (Store.Op K R)} {o : Store.Op K R} {p : Path} (hf : ¬ Foreign ext x t (l ++ [o]) p)
    (hch : (Store.run ext x (l ++ [o])).files p = (Store.run ext x l).files p) : ¬ Foreign ext x t l p := by
  rintro ⟨a, b, r, rfl, hb, hc, hl⟩
  refine hf ⟨a, b, r ++ [o], by simp, hb, hc, ?_⟩
  intro l' o' r' e ht
  rcases snoc_split e with ⟨r'', e1, -⟩ | ⟨rfl, rfl, -⟩
  · exact hl l' o' r'' e1 ht
  · exact hch

/-- The table in the store and the table alone: equal but for the files of others. -/
def Sim (ext : R → Option K) (x : Exec K R) (t : Nat) (l : List (Store.Op K R)) : Prop :=
  view t ((Store.run ext x (only t l)).db t) =
    withFiles (Store.run ext x (only t l)).files (view t ((Store.run ext x l).db t)) ∧
  ∀ p, ¬ Foreign ext x t l p → (Store.run ext x l).files p = (Store.run ext x (only t l)).files p

theorem sim_nil : Sim ext x t ([] : List (Store.Op K R)) := ⟨rfl, fun _ _ => rfl⟩

theorem sim_other {l : List (Store.Op K R)} {o : Store.Op K R} (h : o.table ≠ t) (hs : Sim ext x t l) :
    Sim ext x t (l ++ [o]) := by
  obtain ⟨h1, h2⟩ := hs
  unfold Sim
  rw [only_snoc_other l h]
  constructor
  · rw [run_snoc]
    unfold Store.step
    rw [view_set_other _ h _ (act_other ext x _ o h), h1]
    rfl
  · intro p hp
    obtain ⟨e, hf⟩ := foreign_other h hp
    rw [e]
    exact h2 p hf

theorem names_iff (s : Store K R) (p : Path) : Names s t p ↔ NamesDb (s.db t) t p := Iff.rfl

theorem sim_same {l : List (Store.Op K R)} {o : Store.Op K R} (h : o.table = t) (hs : Sim ext x t l)
    (hr : (∃ u a b c, o = .on u (.start a b c)) → ∀ p, Names (Store.run ext x l) t p → ¬ Foreign ext x t l p) :
    Sim ext x t (l ++ [o]) := by
  obtain ⟨h1, h2⟩ := hs
  unfold Sim
  rw [only_snoc_same l h]
  subst h
  have ha := act_alike ext x (view o.table ((Store.run ext x l).db o.table)) (Store.run ext x (only o.table l)).files o
    (fun hst p hp => h2 p (hr hst p ((namesDb_view _ _ p).1 hp)))
  rw [← h1, act_view, act_view] at ha
  obtain ⟨D, upd, e1, e2⟩ := ha
  rw [run_snoc, run_snoc]
  unfold Store.step
  rw [db_set_same, db_set_same]
  have f1 : ∀ p, (Store.act ext x ((Store.run ext x l).db o.table) o).files p = over upd (Store.run ext x l).files p :=
    fun p => congrFun (congrArg Db.files e1) p
  have f2 : ∀ p, (Store.act ext x ((Store.run ext x (only o.table l)).db o.table) o).files p =
      over upd (Store.run ext x (only o.table l)).files p := fun p => congrFun (congrArg Db.files e2) p
  constructor
  · rw [e1, e2]
    unfold withFiles
    simp only [Db.mk.injEq, true_and, and_true]
    funext p
    exact (f2 p).symm
  · intro p hp
    change (Store.act ext x ((Store.run ext x l).db o.table) o).files p =
      (Store.act ext x ((Store.run ext x (only o.table l)).db o.table) o).files p
    rw [f1, f2]
    unfold over
    cases hu : upd p with
    | some c => rfl
    | none =>
      refine h2 p (foreign_same hp ?_)
      rw [run_snoc]
      change (Store.act ext x ((Store.run ext x l).db o.table) o).files p = _
      rw [f1]
      unfold over
      rw [hu]
      rfl

/-- The simulation holds along a history. -/
theorem sim_run : ∀ (l : List (Store.Op K R)),
    (∀ l' o r, l = l' ++ o :: r → (∃ a b c, o = .on t (.start a b c)) →
      ∀ p, Names (Store.run ext x l') t p → ¬ Foreign ext x t l' p) → Sim ext x t l := by
  intro l
  induction l using List.reverseRecOn with
  | nil => intro _; exact sim_nil
  | append_singleton l o ih =>
    intro h
    have hs := ih (fun l' o' r e => h l' o' (r ++ [o]) (by rw [e]; simp))
    by_cases ho : o.table = t
    · refine sim_same ho hs ?_
      rintro ⟨u, a, b, c, rfl⟩
      have hu : u = t := ho
      subst hu
      exact h l _ [] rfl ⟨a, b, c, rfl⟩
    · exact sim_other ho hs

end Tonbo.Lemmas.Store
