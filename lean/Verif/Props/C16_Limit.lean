import Verif.Lemmas.LsmContent
import Verif.Lemmas.CompactCaps
import Verif.Props.C40_Levels

/-!
# C16: where outputs are split, in a merge and in whole histories
-/

namespace Tonbo.Props.C16
open Tonbo.Model Tonbo.Model.Manifest Tonbo.Model.Planner Tonbo.Model.Outcome Tonbo.Model.Lsm Tonbo.Spec
open Tonbo.Lemmas.Lsm Tonbo.Lemmas.Manifest
open Tonbo.Model.Sst (File)
open Tonbo.Model.Compact (OTable fileBatches)
open Tonbo.Spec.Split

variable {K R : Type} [LinearOrder K]

/-- **C16.** Whatever is merged: an output is closed only when it has reached the limit of rows or of bytes, and as soon
as it has. Every output but the last is full; none was full before its last row or deletion came. -/
theorem outputs_split_at_the_limits (cfg : Compact.Cfg K R) (H : Compact.Heap K) (next : Option Nat)
    (inputs : List (List (Compact.Batch K R))) (tables : List (OTable K R))
    (h : Compact.execute cfg H next inputs = .ok tables) :
    (∀ t ∈ tables.dropLast, Full cfg.maxRows cfg.maxBytes cfg.sizeData cfg.sizeDel t.file) ∧
    ∀ t ∈ tables, Tight cfg.maxRows cfg.maxBytes cfg.sizeData cfg.sizeDel t.file :=
  Lemmas.CompactCaps.execute_caps h

/-- The limit of bytes of a level: the configured one, or 128 MiB on level 0 and 512 MiB on others. -/
def byteLimit (x : Exec K R) (level : Nat) : Nat :=
  match x.maxBytes with
  | some b => b
  | none => if level = 0 then 128 * 1024 * 1024 else 512 * 1024 * 1024

theorem caps_eq (x : Exec K R) (level : Nat) : caps x level = (x.maxRows, some (byteLimit x level)) := by
  unfold caps byteLimit
  cases x.maxBytes with
  | some b => rfl
  | none =>
    cases level with
    | zero => simp only [Option.none_or, if_true]; congr 1
    | succ l => simp [defaultBytes, levelBytes]

/-- No file above level 0 was full before its last entry. -/
def Small (x : Exec K R) (files : Path → Option (File K R)) : Prop :=
  ∀ p f, p.level ≠ 0 → files p = some f → Tight x.maxRows (some (byteLimit x p.level)) x.sizeData x.sizeDel f

theorem small_writeAll {x : Exec K R} {level : Nat} : ∀ (ts : List (OTable K R)) (files : Path → Option (File K R)),
    Small x files → (∀ t ∈ ts, Tight x.maxRows (some (byteLimit x level)) x.sizeData x.sizeDel t.file) →
      Small x (writeAll files level ts)
  | [], _, h, _ => h
  | t :: ts, files, h, ht => by
    rw [writeAll]
    refine small_writeAll ts _ ?_ (fun u hu => ht u (List.mem_cons_of_mem _ hu))
    intro p f hp hf
    by_cases e : p = ⟨level, t.id⟩
    · subst e
      rw [setFile_eq] at hf
      cases hf
      exact ht t List.mem_cons_self
    · rw [setFile_ne e] at hf
      exact h p f hp hf

theorem small_execute {x : Exec K R} (hn : 0 < x.readRows) {s : Db K R} {level : Nat} {inputs : List (Desc K)}
    {skip : Nat} (hin : ∀ d ∈ inputs, DescOk s.files s.next d) (h : Small x s.files) :
    Small x (execute x s level inputs skip).1.files := by
  unfold execute
  by_cases he : inputs = []
  · rw [if_pos he]; exact h
  · rw [if_neg he]
    obtain ⟨fs, h1, h2⟩ := readAll_ok inputs hin
    rw [h1]
    cases hx : Compact.execute (mergeCfg x level s.next inputs) x.heap (some (s.next + 1)) (fs.map (fileBatches x.readRows)) with
    | error e => simp only [hx]; exact h
    | ok tables =>
      simp only [hx]
      refine small_writeAll tables _ h (fun t ht => ?_)
      have := (outputs_split_at_the_limits _ _ _ _ tables hx).2 t ht
      simp only [mergeCfg, caps_eq] at this
      generalize byteLimit x level = lim at this ⊢
      exact this

theorem small_cleanup {x : Exec K R} {files : Path → Option (File K R)} (h : Small x files) (ds : List (Desc K)) :
    Small x (cleanup files ds) := fun p f hp hf => h p f hp (cleanup_some ds files p f hf)

theorem small_start {ext : R → Option K} {x : Exec K R} {t n : Nat} {s : Db K R} (hi : Inv ext x t n s)
    (hn : 0 < x.readRows) (h : Small x s.files) (task : PTask K) (head : Option Nat) (skip : Nat) :
    Small x (start x t s task head skip).1.files := by
  obtain ⟨hd, hok⟩ := hi.reg
  rcases snapshotLatest_spec hok with ⟨_, e⟩ | ⟨h0, v, hv, hts, e⟩
  · unfold start; rw [e]; exact h
  have hat : At s.kv t n v := hv
  unfold start
  rw [e]
  simp only
  by_cases hh : head ≠ none ∧ hd.last ≠ head
  · rw [if_pos hh]; exact h
  · rw [if_neg hh]
    cases hr : resolve v task.input with
    | error err => exact h
    | ok inputs =>
      have hin : ∀ d ∈ inputs, DescOk s.files s.next d := by
        intro d hd'
        refine names_descOk hi.ent hat ?_
        obtain ⟨en, he, hde⟩ := resolve_spec hr d hd'
        have hent := hi.ent _ _ ⟨n, v, hat, he⟩
        rw [hde]
        refine ⟨?_, by simp [descAt, hent.1]⟩
        simp only [descAt, ← hent.1]
        rw [hde] at he
        exact he
      have hex := small_execute (level := task.target) (skip := skip) hn hin h
      simp only
      cases hx : execute x s task.target inputs skip with
      | mk s' r =>
        rw [hx] at hex
        cases r with
        | error e => exact hex
        | ok outs =>
          simp only
          cases outcomeOf v ((walFloor s.kv t).toOption.join) task.target inputs outs with
          | none => exact small_cleanup hex outs
          | some o =>
            simp only
            cases gcPlan o with
            | none => exact hex
            | some plan =>
              simp only
              split <;> exact hex

theorem small_step {ext : R → Option K} {x : Exec K R} {t n : Nat} {s : Db K R} (hi : Inv ext x t n s)
    (hn : 0 < x.readRows) (h : Small x s.files) (op : Lsm.Op K R) : Small x (Lsm.step ext x t s op).2.files := by
  have hflush : ∀ count refs, Small x (flushWrite ext x s count refs).files := by
    intro count refs
    unfold flushWrite
    cases s.flushing with
    | written _ _ => exact h
    | published _ => exact h
    | idle =>
      simp only
      split
      · exact h
      · cases Flush.flush ext (s.runs.runs.take count) with
        | error _ => exact h
        | ok tab =>
          simp only
          cases tab.file ext with
          | none => exact h
          | some f =>
            intro p g hp hf
            have hne : p ≠ ⟨0, s.next⟩ := by
              rintro rfl
              exact hp rfl
            simp only [setFile_ne hne] at hf
            exact h p g hp hf
  cases op with
  | write o => exact h
  | flushWrite refs => exact hflush _ refs
  | flushSome count refs => exact hflush count refs
  | setWal refs =>
    simp only [Lsm.step, setWal]
    split <;> exact h
  | flushPublish =>
    simp only [Lsm.step, flushPublish]
    cases s.flushing with
    | idle => exact h
    | published _ => exact h
    | written p c =>
      simp only
      cases apply s.kv t p.edits p.expected with
      | mk kv r => cases r <;> exact h
  | flushDrain =>
    simp only [Lsm.step, flushDrain]
    cases s.flushing <;> exact h
  | start task head skip =>
    have hs := small_start hi hn h task head skip
    simp only [Lsm.step]
    cases hx : start x t s task head skip with
    | mk s' r =>
      rw [hx] at hs
      cases r <;> exact hs
  | finish i =>
    simp only [Lsm.step]
    cases s.jobs[i]? with
    | none => exact h
    | some p =>
      simp only [finish]
      cases apply s.kv t p.edits p.expected with
      | mk kv r =>
        cases r with
        | ok _ => exact h
        | error _ => exact small_cleanup h _
  | reopen cap =>
    simp only [Lsm.step, reopen]
    cases allocator s.kv t <;> exact h

theorem small_run {ext : R → Option K} {x : Exec K R} {t : Nat} (hn : 0 < x.readRows) :
    ∀ (ops : List (Lsm.Op K R)) {n : Nat} {s : Db K R}, Inv ext x t n s → Small x s.files →
      Small x (Lsm.run ext x t s ops).2.files
  | [], _, _, _, h => h
  | o :: os, n, s, hi, h => by
    obtain ⟨n', _, hi'⟩ := inv_step hi hn o
    exact small_run hn os hi' (small_step hi hn h o)

/-- **C16.** Whatever flushes, compactions (also concurrent ones), refusals and restarts happened: no table above
level 0 of any published version had reached a limit before its last entry: it has at most the configured number of
rows (one, if that is zero), and without one entry less bytes than the limit of its level. -/
theorem limits_in_histories (ext : R → Option K) (x : Exec K R) (hn : 0 < x.readRows) (cap t sv : Nat)
    (ops : List (Lsm.Op K R)) (n : Nat) (v : Version (Info K))
    (hv : Published (reached ext x cap t sv ops) t n v) (l : Nat) (hl : 1 ≤ l) (e : Entry (Info K))
    (he : e ∈ v.ssts.getD l []) :
    ∃ f, (reached ext x cap t sv ops).files e.info.data = some f ∧
      Tight x.maxRows (some (byteLimit x l)) x.sizeData x.sizeDel f ∧
      ∀ m, x.maxRows = some m → f.data.length ≤ max 1 m := by
  obtain ⟨k, _, h⟩ := inv_run hn ops (inv_new ext x cap t sv)
  have hs : Small x (reached ext x cap t sv ops).files :=
    small_run hn ops (inv_new ext x cap t sv) (fun _ _ _ hf => by cases hf)
  obtain ⟨a1, _, f, a2, _⟩ := h.ent l e ⟨n, v, published_iff.1 hv, he⟩
  have ht := hs _ f (by simp only; omega) a2
  refine ⟨f, by rw [a1]; exact a2, ht, ?_⟩
  intro m hm
  obtain ⟨g, hg, hb⟩ := ht
  have h1 : f.data.length ≤ g.data.length + 1 := by
    rcases hg with ⟨p, e1, _⟩ | ⟨_, _, e1⟩ <;> rw [e1]
    · simp
    · omega
  rcases hb with hb | hb
  · rw [hb.1] at h1
    simp only [List.length_nil] at h1
    omega
  · have : ¬ m ≤ g.data.length := fun hc => hb (.inl ⟨m, hm, hc⟩)
    omega

/-- The history that reaches level 2 with at most two rows in a file; each row has ten bytes. -/
example : (kget (reached C38.exExt { C40.exX2 with sizeData := fun _ => 10 } 4 1 0 C40.exDeeper).kv (.version 1 7)).map
      (fun | .version v => (v.ssts.getD 2 []).map (fun e =>
          ((reached C38.exExt { C40.exX2 with sizeData := fun _ => 10 } 4 1 0 C40.exDeeper).files e.info.data).map
            (·.data.length)) | _ => []) =
      some [some 2, some 2, some 2] := by decide +kernel

/-- Thirty bytes at most: an output is closed with the third row of ten bytes. -/
example : (kget (reached C38.exExt { C40.exX2 with maxRows := none, maxBytes := some 30, sizeData := fun _ => 10 } 4 1 0
        (C40.twoFlushes 10 50 20 90 ++ C40.l0Job 1 2)).kv (.version 1 3)).map
      (fun | .version v => (v.ssts.getD 1 []).map (fun e =>
          ((reached C38.exExt { C40.exX2 with maxRows := none, maxBytes := some 30, sizeData := fun _ => 10 } 4 1 0
              (C40.twoFlushes 10 50 20 90 ++ C40.l0Job 1 2)).files e.info.data).map (·.data.length)) | _ => []) =
      some [some 3, some 1] := by decide +kernel

end Tonbo.Props.C16
