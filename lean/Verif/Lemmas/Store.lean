import Verif.Spec.TablesView
import Mathlib.Data.List.Basic
import Mathlib.Tactic.SplitIfs

/-! # Several tables in one store: what one table depends on -/

namespace Tonbo.Lemmas.Store
open Tonbo.Model Tonbo.Model.Manifest Tonbo.Model.Planner Tonbo.Model.Outcome Tonbo.Model.Lsm
open Tonbo.Model.Store (Store)
open Tonbo.Spec.TablesView
open Tonbo.Model.Sst (File)

variable {P : Type}

/-! ## The manifest -/

/-- The table a key belongs to. -/
def keyTable : Key → Nat
  | .head t => t
  | .version t _ => t
  | .walFloor t => t

/-- The entries of one table. -/
def restrict (t : Nat) (m : Kv P) : Kv P := m.filter (fun p => decide (keyTable p.1 = t))

theorem kget_restrict {t : Nat} {k : Key} (h : keyTable k = t) (m : Kv P) : kget (restrict t m) k = kget m k := by
  unfold kget restrict
  rw [List.find?_filter]
  congr 2
  funext p
  by_cases hk : p.1 = k
  · rw [hk]; simp [h]
  · simp [hk]

theorem del_restrict (t : Nat) (k : Key) (m : Kv P) : del (restrict t m) k = restrict t (del m k) := by
  unfold del restrict
  rw [List.filter_filter, List.filter_filter]
  congr 1
  funext p
  exact Bool.and_comm _ _

theorem put_restrict {t : Nat} {k : Key} (h : keyTable k = t) (m : Kv P) (v : Val P) :
    put (restrict t m) k v = restrict t (put m k v) := by
  unfold put
  rw [del_restrict]
  conv_rhs => rw [restrict, List.filter_cons_of_pos (by simpa using h)]
  rfl

theorem del_other {t : Nat} {k : Key} (h : keyTable k ≠ t) (m : Kv P) : restrict t (del m k) = restrict t m := by
  unfold del restrict
  rw [List.filter_filter]
  apply List.filter_congr
  intro p _
  by_cases hk : p.1 = k
  · rw [hk]; simp [h]
  · simp [hk]

theorem put_other {t : Nat} {k : Key} (h : keyTable k ≠ t) (m : Kv P) (v : Val P) :
    restrict t (put m k v) = restrict t m := by
  unfold put
  conv_lhs => rw [restrict, List.filter_cons_of_neg (by simpa using h)]
  exact del_other h m

theorem restrict_idem (t : Nat) (m : Kv P) : restrict t (restrict t m) = restrict t m := by
  unfold restrict
  rw [List.filter_filter]
  congr 1
  funext p
  exact Bool.and_self _

theorem readHead_restrict (t : Nat) (m : Kv P) : readHead (restrict t m) t = readHead m t := by
  unfold readHead
  rw [kget_restrict (t := t) (k := .head t) rfl]

theorem readVersion_restrict (t n : Nat) (m : Kv P) : readVersion (restrict t m) t n = readVersion m t n := by
  unfold readVersion
  rw [kget_restrict (t := t) (k := .version t n) rfl]

theorem snapshotLatest_restrict (t : Nat) (m : Kv P) : snapshotLatest (restrict t m) t = snapshotLatest m t := by
  unfold snapshotLatest
  rw [readHead_restrict]
  simp only [readVersion_restrict]

theorem baseVersion_restrict (t : Nat) (m : Kv P) (h : Head) : baseVersion (restrict t m) t h = baseVersion m t h := by
  unfold baseVersion
  simp only [kget_restrict (t := t) (k := .version t _) rfl]

theorem versionEntries_restrict (t : Nat) (m : Kv P) : versionEntries (restrict t m) t = versionEntries m t := by
  unfold versionEntries restrict
  rw [List.filterMap_filter]
  congr 1
  funext p
  obtain ⟨k, v⟩ := p
  cases k with
  | head u => simp
  | walFloor u => simp
  | version u n =>
    by_cases h : u = t
    · simp [h, keyTable]
    · simp [h, keyTable]

theorem listVersions_restrict (t n : Nat) (m : Kv P) : listVersions (restrict t m) t n = listVersions m t n := by
  unfold listVersions
  rw [versionEntries_restrict]

theorem walFloor_restrict (t : Nat) (m : Kv P) : walFloor (restrict t m) t = walFloor m t := by
  unfold walFloor
  rw [kget_restrict (t := t) (k := .walFloor t) rfl]

theorem publish_restrict (t : Nat) (m : Kv P) (h : Head) (v : Version P) :
    publish (restrict t m) t h v = (restrict t (publish m t h v).1, (publish m t h v).2) := by
  unfold publish
  simp only [put_restrict (t := t) (k := .version t _) rfl, put_restrict (t := t) (k := .head t) rfl]
  cases v.floor with
  | none => simp only [del_restrict]
  | some f => simp only [put_restrict (t := t) (k := .walFloor t) rfl]

theorem apply_restrict (t : Nat) (m : Kv P) (es : List (Edit P)) (x : Option (Option Nat)) :
    Manifest.apply (restrict t m) t es x = (restrict t (Manifest.apply m t es x).1, (Manifest.apply m t es x).2) := by
  unfold Manifest.apply
  by_cases h0 : es = []
  · rw [if_pos h0, if_pos h0]
  rw [if_neg h0, if_neg h0, kget_restrict (t := t) (k := .head t) rfl]
  cases kget m (.head t) with
  | none => rfl
  | some val =>
    simp only
    cases asHead val with
    | error e => rfl
    | ok h =>
      simp only
      by_cases hx : x.any (fun e => decide (h.last ≠ e))
      · rw [if_pos hx, if_pos hx]
      · rw [if_neg hx, if_neg hx, baseVersion_restrict]
        cases baseVersion m t h with
        | error e => rfl
        | ok v =>
          simp only
          cases applyEdits v es with
          | error e => rfl
          | ok v' => simp only [publish_restrict]

theorem initHead_restrict (t : Nat) (m : Kv P) (h : Head) : initHead (restrict t m) t h = restrict t (initHead m t h) := by
  unfold initHead
  rw [kget_restrict (t := t) (k := .head t) rfl]
  cases kget m (.head t) with
  | some _ => rfl
  | none => exact put_restrict (t := t) (k := .head t) rfl m _

theorem publish_other {t u : Nat} (hu : u ≠ t) (m : Kv P) (h : Head) (v : Version P) :
    restrict t (publish m u h v).1 = restrict t m := by
  unfold publish
  cases v.floor with
  | none => simp only; rw [del_other (k := .walFloor u) hu, put_other (k := .head u) hu, put_other (k := .version u _) hu]
  | some f => simp only; rw [put_other (k := .walFloor u) hu, put_other (k := .head u) hu, put_other (k := .version u _) hu]

theorem apply_other {t u : Nat} (hu : u ≠ t) (m : Kv P) (es : List (Edit P)) (x : Option (Option Nat)) :
    restrict t (Manifest.apply m u es x).1 = restrict t m := by
  unfold Manifest.apply
  by_cases h0 : es = []
  · rw [if_pos h0]
  rw [if_neg h0]
  cases kget m (.head u) with
  | none => rfl
  | some val =>
    simp only
    cases asHead val with
    | error e => rfl
    | ok h =>
      simp only
      by_cases hx : x.any (fun e => decide (h.last ≠ e))
      · rw [if_pos hx]
      · rw [if_neg hx]
        cases baseVersion m u h with
        | error e => rfl
        | ok v =>
          simp only
          cases applyEdits v es with
          | error e => rfl
          | ok v' => exact publish_other hu m h v'

theorem initHead_other {t u : Nat} (hu : u ≠ t) (m : Kv P) (h : Head) : restrict t (initHead m u h) = restrict t m := by
  unfold initHead
  cases kget m (.head u) with
  | some _ => rfl
  | none => exact put_other (k := .head u) hu m _

/-! ## One table: the entries of other tables do not matter -/

variable {K R : Type} [LinearOrder K]

/-- A database with the manifest entries of one table. -/
def view (t : Nat) (d : Db K R) : Db K R := { d with kv := restrict t d.kv }

theorem execute_view (x : Exec K R) (t : Nat) (d : Db K R) (l : Nat) (ins : List (Desc K)) (skip : Nat) :
    Lsm.execute x (view t d) l ins skip = (view t (Lsm.execute x d l ins skip).1, (Lsm.execute x d l ins skip).2) := by
  unfold Lsm.execute view
  by_cases h : ins = []
  · rw [if_pos h, if_pos h]
  · rw [if_neg h, if_neg h]
    simp only
    cases readAll d.files ins with
    | none => rfl
    | some fs =>
      simp only
      cases Compact.execute (mergeCfg x l d.next ins) x.heap (some (d.next + 1)) (fs.map (Compact.fileBatches x.readRows)) with
      | error e => rfl
      | ok ts => rfl

theorem start_view (x : Exec K R) (t : Nat) (d : Db K R) (task : PTask K) (head : Option Nat) (skip : Nat) :
    Lsm.start x t (view t d) task head skip = (view t (Lsm.start x t d task head skip).1, (Lsm.start x t d task head skip).2) := by
  unfold Lsm.start
  have e1 : snapshotLatest (view t d).kv t = snapshotLatest d.kv t := snapshotLatest_restrict t d.kv
  have e2 : walFloor (view t d).kv t = walFloor d.kv t := walFloor_restrict t d.kv
  rw [e1, e2]
  cases snapshotLatest d.kv t with
  | error e => rfl
  | ok hv =>
    obtain ⟨h, v⟩ := hv
    cases v with
    | none => rfl
    | some v =>
      simp only
      by_cases hh : head ≠ none ∧ h.last ≠ head
      · rw [if_pos hh, if_pos hh]
      · rw [if_neg hh, if_neg hh]
        cases resolve v task.input with
        | error e => rfl
        | ok ins =>
          simp only
          rw [execute_view]
          rcases Lsm.execute x d task.target ins skip with ⟨d', e | outs⟩
          · rfl
          · simp only
            cases outcomeOf v ((walFloor d.kv t).toOption.join) task.target ins outs with
            | none => rfl
            | some o =>
              simp only
              cases Outcome.gcPlan o with
              | none => rfl
              | some plan =>
                simp only
                by_cases he : Outcome.toEdits x.order o = []
                · rw [if_pos he, if_pos he]
                · rw [if_neg he, if_neg he]

theorem reopen_view (cap t : Nat) (d : Db K R) :
    Lsm.reopen cap t (view t d) = (Lsm.reopen cap t d).map (view t) := by
  unfold Lsm.reopen
  have : allocator (view t d).kv t = allocator d.kv t := by
    unfold allocator view
    rw [snapshotLatest_restrict, listVersions_restrict]
  rw [this]
  cases allocator d.kv t <;> rfl

theorem flushWrite_view (ext : R → Option K) (x : Exec K R) (t : Nat) (d : Db K R) (count : Nat) (refs : Option (List WalRef)) :
    Lsm.flushWrite ext x (view t d) count refs = view t (Lsm.flushWrite ext x d count refs) := by
  obtain ⟨runs, kv, files, next, gc, fl, jobs⟩ := d
  unfold Lsm.flushWrite view
  cases fl with
  | idle =>
    simp only
    by_cases h : runs.runs.take count = []
    · rw [if_pos h, if_pos h]
    · rw [if_neg h, if_neg h]
      cases Flush.flush ext (runs.runs.take count) with
      | error e => rfl
      | ok tab =>
        simp only
        cases tab.file ext <;> rfl
  | written p c => rfl
  | published c => rfl

theorem flushWrite_kv (ext : R → Option K) (x : Exec K R) (d : Db K R) (count : Nat) (refs : Option (List WalRef)) :
    (Lsm.flushWrite ext x d count refs).kv = d.kv := by
  obtain ⟨runs, kv, files, next, gc, fl, jobs⟩ := d
  unfold Lsm.flushWrite
  cases fl with
  | idle =>
    simp only
    by_cases h : runs.runs.take count = []
    · rw [if_pos h]
    · rw [if_neg h]
      cases Flush.flush ext (runs.runs.take count) with
      | error e => rfl
      | ok tab =>
        simp only
        cases tab.file ext <;> rfl
  | written p c => rfl
  | published c => rfl

theorem step_view (ext : R → Option K) (x : Exec K R) (t : Nat) (d : Db K R) (o : Lsm.Op K R) :
    (Lsm.step ext x t (view t d) o).2 = view t (Lsm.step ext x t d o).2 := by
  cases o with
  | write op => rfl
  | flushWrite refs => exact flushWrite_view ext x t d _ refs
  | flushSome count refs => exact flushWrite_view ext x t d _ refs
  | flushPublish =>
    obtain ⟨runs, kv, files, next, gc, fl, jobs⟩ := d
    simp only [Lsm.step]
    unfold Lsm.flushPublish view
    cases fl with
    | idle => rfl
    | written p c =>
      simp only
      rw [apply_restrict]
      rcases Manifest.apply kv t p.edits p.expected with ⟨kv', e | n⟩ <;> rfl
    | published c => rfl
  | flushDrain =>
    obtain ⟨runs, kv, files, next, gc, fl, jobs⟩ := d
    simp only [Lsm.step]
    unfold Lsm.flushDrain view
    cases fl <;> rfl
  | start task head skip =>
    simp only [Lsm.step]
    rw [start_view]
    rcases Lsm.start x t d task head skip with ⟨d', st⟩
    cases st <;> rfl
  | finish i =>
    simp only [Lsm.step]
    have : (view t d).jobs = d.jobs := rfl
    rw [this]
    cases d.jobs[i]? with
    | none => rfl
    | some p =>
      simp only
      unfold Lsm.finish view
      simp only
      rw [apply_restrict]
      rcases Manifest.apply d.kv t p.edits p.expected with ⟨kv, e | n⟩ <;> rfl
  | setWal refs =>
    simp only [Lsm.step]
    unfold Lsm.setWal
    by_cases h : refs = []
    · rw [if_pos h, if_pos h]
    · rw [if_neg h, if_neg h]
      unfold view
      simp only
      rw [apply_restrict]
  | reopen cap =>
    simp only [Lsm.step]
    rw [reopen_view]
    cases Lsm.reopen cap t d <;> rfl

/-- A step on table `u` does not change the manifest entries of another table. -/
theorem step_other {t u : Nat} (hu : u ≠ t) (ext : R → Option K) (x : Exec K R) (d : Db K R) (o : Lsm.Op K R) :
    restrict t (Lsm.step ext x u d o).2.kv = restrict t d.kv := by
  cases o with
  | write op => rfl
  | flushWrite refs => simp only [Lsm.step]; rw [flushWrite_kv]
  | flushSome count refs => simp only [Lsm.step]; rw [flushWrite_kv]
  | flushPublish =>
    simp only [Lsm.step]
    unfold Lsm.flushPublish
    cases d.flushing with
    | idle => rfl
    | written p c =>
      simp only
      have := apply_other hu d.kv p.edits p.expected
      rcases ha : Manifest.apply d.kv u p.edits p.expected with ⟨kv, e | n⟩ <;> (rw [ha] at this; exact this)
    | published c => rfl
  | flushDrain =>
    simp only [Lsm.step]
    unfold Lsm.flushDrain
    cases d.flushing <;> rfl
  | start task head skip =>
    simp only [Lsm.step]
    have hkv : (Lsm.start x u d task head skip).1.kv = d.kv := by
      unfold Lsm.start
      cases snapshotLatest d.kv u with
      | error e => rfl
      | ok hv =>
        obtain ⟨h, v⟩ := hv
        cases v with
        | none => rfl
        | some v =>
          simp only
          by_cases hh : head ≠ none ∧ h.last ≠ head
          · rw [if_pos hh]
          · rw [if_neg hh]
            cases resolve v task.input with
            | error e => rfl
            | ok ins =>
              simp only
              have hx : (Lsm.execute x d task.target ins skip).1.kv = d.kv := by
                unfold Lsm.execute
                by_cases h : ins = []
                · rw [if_pos h]
                · rw [if_neg h]
                  cases readAll d.files ins with
                  | none => rfl
                  | some fs =>
                    simp only
                    cases Compact.execute (mergeCfg x task.target d.next ins) x.heap (some (d.next + 1))
                        (fs.map (Compact.fileBatches x.readRows)) <;> rfl
              rcases hexe : Lsm.execute x d task.target ins skip with ⟨d', e | outs⟩
              · rw [hexe] at hx; exact hx
              · rw [hexe] at hx
                simp only at hx ⊢
                cases outcomeOf v ((walFloor d.kv u).toOption.join) task.target ins outs with
                | none => exact hx
                | some o =>
                  simp only
                  cases Outcome.gcPlan o with
                  | none => exact hx
                  | some plan =>
                    simp only
                    by_cases he : Outcome.toEdits x.order o = []
                    · rw [if_pos he]; exact hx
                    · rw [if_neg he]; exact hx
    rcases hs : Lsm.start x u d task head skip with ⟨d', st⟩
    rw [hs] at hkv
    simp only at hkv
    cases st <;> simp only <;> rw [hkv]
  | finish i =>
    simp only [Lsm.step]
    cases d.jobs[i]? with
    | none => rfl
    | some p =>
      simp only
      unfold Lsm.finish
      simp only
      have := apply_other hu d.kv p.edits p.expected
      rcases ha : Manifest.apply d.kv u p.edits p.expected with ⟨kv, e | n⟩ <;> (rw [ha] at this; exact this)
  | setWal refs =>
    simp only [Lsm.step]
    unfold Lsm.setWal
    by_cases h : refs = []
    · rw [if_pos h]
    · rw [if_neg h]
      exact apply_other hu d.kv _ _
  | reopen cap =>
    simp only [Lsm.step]
    unfold Lsm.reopen
    cases allocator d.kv u <;> rfl

end Tonbo.Lemmas.Store
