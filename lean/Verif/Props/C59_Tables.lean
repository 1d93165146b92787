import Verif.Lemmas.StoreFiles
import Verif.Props.C54_EndToEnd
import Verif.Props.C29_C32_Durable_Neg

/-!
# C59: several tables in one store
-/

set_option linter.unusedSectionVars false

namespace Tonbo.Props.C59
open Tonbo.Model Tonbo.Model.Manifest Tonbo.Model.Planner Tonbo.Model.Lsm Tonbo.Spec Tonbo.Spec.TablesView
open Tonbo.Lemmas.Store
open Tonbo.Model.Store (Store)

variable {K R : Type} [LinearOrder K]

/-- **C59 (partial).** After any history of any number of tables in one store, a table reads, at every
timestamp, what it reads if the steps of all other tables are left out.

Missing: histories in which a file that the table names is overwritten or removed by another table; all
tables write `sst/L<level>/<number>.parquet` with numbers of their own that begin at 1, so these are the rule
and not the exception: `a_flush_overwrites_another_table`. -/
theorem tables_do_not_interfere_partial (ext : R → Option K) (x : Exec K R) (t : Nat) (ops : List (Store.Op K R))
    (h : Undisturbed ext x t ops) (rts : Nat) :
    Store.read (Store.run ext x ops) t rts = Store.read (Store.run ext x (only t ops)) t rts := by
  obtain ⟨h1, h2⟩ := sim_run (ext := ext) (x := x) (t := t) ops (fun l o r e _ => h l (o :: r) e)
  unfold Store.read
  rw [← scan_view t ((Store.run ext x (only t ops)).db t), h1, scan_files, scan_view]
  intro p hp
  exact h2 p (h ops [] (by simp) p ((namesDb_view _ _ p).1 hp))

/-- **C59.** Memory, versions and unfinished work of a table do not depend on other tables, whatever happens
to its files, as long as it starts no compactions: these read files. -/
theorem memory_and_versions_are_own (ext : R → Option K) (x : Exec K R) (t : Nat) (ops : List (Store.Op K R))
    (h : ∀ a b c, Store.Op.on t (.start a b c) ∉ ops) :
    (Store.run ext x ops).handles t = (Store.run ext x (only t ops)).handles t ∧
    snapshotLatest (Store.run ext x ops).kv t = snapshotLatest (Store.run ext x (only t ops)).kv t ∧
    ∀ n, listVersions (Store.run ext x ops).kv t n = listVersions (Store.run ext x (only t ops)).kv t n := by
  obtain ⟨h1, -⟩ := sim_run (ext := ext) (x := x) (t := t) ops
    (fun l o r e ho => by
      obtain ⟨a, b, c, rfl⟩ := ho
      exact absurd (e ▸ List.mem_append_right _ List.mem_cons_self) (h a b c))
  unfold view withFiles Store.Store.db at h1
  simp only [Db.mk.injEq, true_and] at h1
  obtain ⟨e1, e2, e3, e4, e5, e6⟩ := h1
  refine ⟨?_, ?_, fun n => ?_⟩
  · cases ha : (Store.run ext x ops).handles t
    cases hb : (Store.run ext x (only t ops)).handles t
    simp_all
  · rw [← snapshotLatest_restrict, ← e2, snapshotLatest_restrict]
  · rw [← listVersions_restrict, ← e2, listVersions_restrict]

theorem run_on (ext : R → Option K) (x : Exec K R) (t : Nat) : ∀ (lops : List (Lsm.Op K R)) (s : Store K R),
    (((lops.map (Store.Op.on t)).foldl (Store.step ext x) s).db t) = (Lsm.run ext x t (s.db t) lops).2
  | [], _ => rfl
  | o :: lops, s => by
    rw [List.map_cons, List.foldl_cons, run_on ext x t lops]
    have : (Store.step ext x s (.on t o)).db t = (Lsm.step ext x t (s.db t) o).2 := db_set_same _ _ _
    rw [this]
    rfl

/-- A table opened once and then worked on is the table of `Model/Lsm.lean`. -/
theorem alone (ext : R → Option K) (x : Exec K R) (t v cap : Nat) (lops : List (Lsm.Op K R)) :
    (Store.run ext x (.openTable t v cap :: lops.map (.on t))).db t = reached ext x cap t v lops := by
  unfold Store.run
  rw [List.foldl_cons, run_on]
  have : (Store.step ext x Store.Store.new (.openTable t v cap)).db t = Db.new cap t v := by
    unfold Store.step
    simp only [Store.Op.table]
    rw [db_set_same]
    simp only [Store.act, Lsm.step]
    have ha : allocator (Store.register t v ((Store.Store.new : Store K R).db t)).kv t = .ok 1 := by
      have hk : kget (initHead ([] : Kv (Info K)) t (newHead t v)) (.head t) = some (.head (newHead t v)) := by
        unfold initHead kget put
        simp
      have hs : snapshotLatest (initHead ([] : Kv (Info K)) t (newHead t v)) t = .ok (newHead t v, none) := by
        unfold snapshotLatest readHead
        rw [hk]
        rfl
      have hl : listVersions (initHead ([] : Kv (Info K)) t (newHead t v)) t 0 = .ok [] := by
        unfold listVersions versionEntries initHead kget put del
        rfl
      change allocator (initHead ([] : Kv (Info K)) t (newHead t v)) t = .ok 1
      unfold allocator
      rw [hs, hl]
      rfl
    unfold Lsm.reopen
    rw [ha]
    rfl
  rw [this]
  rfl

/-- **C59 (partial)**, with C54: an undisturbed table among others reads exactly what was written to it,
after any interleaving of its writes, flushes and compactions with the steps of other tables; the conditions
on the table itself are those of C54. -/
theorem reads_among_other_tables_partial (ext : R → Option K) (x : Exec K R) (hn : 0 < x.readRows) (t v cap : Nat)
    (ops : List (Store.Op K R)) (lops : List (Lsm.Op K R)) (h : Undisturbed ext x t ops)
    (hown : only t ops = .openTable t v cap :: lops.map (.on t)) (hr : C54.NoRestart lops)
    (hok : (Lsm.run ext x t (Db.new cap t v) lops).1 = true) (hf : Functional (· ∈ logOf ext lops))
    (hfit : ∀ l e, EverListed (reached ext x cap t v lops) t l e →
      ∀ f, (reached ext x cap t v lops).files ⟨l, e.id⟩ = some f → Fits x.readRows f)
    (rts : Nat) (hts : ∀ w ∈ logOf ext lops, w.ts ≤ rts) :
    ∃ out, Store.read (Store.run ext x ops) t rts = some out ∧ IsScan (· ∈ logOf ext lops) rts (rowsOf out) := by
  obtain ⟨out, h1, h2⟩ := C54.latest_reads_see_all_writes_partial ext x hn cap t v lops hr hok hf hfit rts hts
  refine ⟨out, ?_, h2⟩
  rw [tables_do_not_interfere_partial ext x t ops h, hown]
  unfold Store.read
  rw [alone]
  exact h1

/-! ## Where it fails -/

open C38 (exX exExt)

/-- Table `t` freezes its memory and flushes it. -/
def flush (t : Nat) : List (Store.Op Nat Nat) := [.on t (.write .freeze), .on t (.flushWrite none), .on t .flushPublish,
  .on t .flushDrain]

/-- Table 1 writes row 11 and flushes; table 2 writes row 52 and flushes. -/
def exClash : List (Store.Op Nat Nat) :=
  [.openTable 1 0 4, .on 1 (.write (.put [(11, 1)]))] ++ flush 1 ++
  [.openTable 2 0 4, .on 2 (.write (.put [(52, 1)]))] ++ flush 2

/-- The first flush of a second table overwrites the file of the first flush of the first table: its row is
gone, and the row of the other table is read instead. -/
theorem a_flush_overwrites_another_table : ∃ (ops : List (Store.Op Nat Nat)),
    (Store.read (Store.run exExt exX (only 1 ops)) 1 9).map rowsOf = some [(1, 11)] ∧
    (Store.read (Store.run exExt exX ops) 1 9).map rowsOf = some [(5, 52)] :=
  ⟨exClash, by decide +kernel⟩

/-- Row 11 is written to table 1 and acknowledged; then table 2 is opened for the first time. It has a
row nobody wrote to it. -/
theorem a_new_table_gets_the_rows_of_another : ∃ (ops : List (Durable.Op Nat Nat)) (s : Durable.Sys Unit Nat Nat),
    s = Store.openBeside { C32.exC with table := 2 } (C32.ex 4 ops) 0 4 (fun _ => false) none ∧
    s.dead = false ∧ kget (C32.ex 4 ops).db.kv (.head 2) = none ∧
    (scanAll 2 s.db 99).map rowsOf = some [(1, 11)] :=
  ⟨C32.wr .plain [11], _, rfl, by decide +kernel⟩

/-! ## An undisturbed table -/

/-- Checks along a history whether a file was last changed by another table. -/
def foreignB (t : Nat) (p : Path) : Store Nat Nat → List (Store.Op Nat Nat) → Bool → Bool
  | _, [], b => b
  | s, o :: r, b =>
    foreignB t p (Store.step exExt exX s o) r
      (if (Store.step exExt exX s o).files p = s.files p then b else decide (o.table ≠ t))

theorem foreignB_snoc (t : Nat) (p : Path) : ∀ (l : List (Store.Op Nat Nat)) (s : Store Nat Nat) (b : Bool) (o : Store.Op Nat Nat),
    foreignB t p s (l ++ [o]) b =
      (if (Store.step exExt exX (l.foldl (Store.step exExt exX) s) o).files p = (l.foldl (Store.step exExt exX) s).files p
        then foreignB t p s l b else decide (o.table ≠ t))
  | [], _, _, _ => rfl
  | a :: l, s, b, o => by
    rw [List.cons_append]
    simp only [foreignB]
    rw [foreignB_snoc t p l]
    rfl

theorem foreignB_sound (t : Nat) (p : Path) (l : List (Store.Op Nat Nat)) (h : Foreign exExt exX t l p) :
    foreignB t p Store.Store.new l false = true := by
  induction l using List.reverseRecOn with
  | nil =>
    obtain ⟨a, o, r, e, -⟩ := h
    simp at e
  | append_singleton l o ih =>
    rw [foreignB_snoc]
    by_cases hc : (Store.step exExt exX (l.foldl (Store.step exExt exX) Store.Store.new) o).files p =
        (l.foldl (Store.step exExt exX) Store.Store.new).files p
    · rw [if_pos hc]
      apply ih
      by_contra hf
      obtain ⟨a, b, r, e, hb, hch, hl⟩ := h
      rcases List.eq_nil_or_concat r with rfl | ⟨q, z, rfl⟩
      · obtain ⟨rfl, e2⟩ := List.append_inj' e rfl
        cases e2
        rw [run_snoc] at hch
        exact hch hc
      · rw [List.concat_eq_append] at e hl
        rw [show a ++ b :: (q ++ [z]) = (a ++ b :: q) ++ [z] by simp] at e
        obtain ⟨rfl, e2⟩ := List.append_inj' e rfl
        cases e2
        exact hf ⟨a, b, q, rfl, hb, hch, fun l' o' r' e ht => hl l' o' (r' ++ [o]) (by rw [e]; simp) ht⟩
    · rw [if_neg hc]
      rw [decide_eq_true_eq]
      intro ht
      obtain ⟨a, b, r, e, hb, hch, hl⟩ := h
      rcases List.eq_nil_or_concat r with rfl | ⟨q, z, rfl⟩
      · obtain ⟨rfl, e2⟩ := List.append_inj' e rfl
        cases e2
        exact hb ht
      · rw [List.concat_eq_append] at e hl
        rw [show a ++ b :: (q ++ [z]) = (a ++ b :: q) ++ [z] by simp] at e
        obtain ⟨rfl, e2⟩ := List.append_inj' e rfl
        cases e2
        have := hl q o [] (by simp) ht
        rw [show a ++ b :: q ++ [o] = (a ++ b :: q) ++ [o] by simp, run_snoc] at this
        exact hc this

/-- The files the latest version of a table names. -/
def namedList (s : Store Nat Nat) (t : Nat) : List Path :=
  match snapshotLatest s.kv t with
  | .ok (_, some v) => v.ssts.flatten.map (·.info.data)
  | _ => []

theorem undisturbed_of_check (t : Nat) (ops : List (Store.Op Nat Nat))
    (h : ops.inits.all (fun l => (namedList (Store.run exExt exX l) t).all
      (fun p => !foreignB t p Store.Store.new l false)) = true) : Undisturbed exExt exX t ops := by
  rintro l r rfl p ⟨hd, v, hs, e, he, rfl⟩ hf
  rw [List.all_eq_true] at h
  have h1 := h l ((List.mem_inits l (l ++ r)).2 (List.prefix_append l r))
  rw [List.all_eq_true] at h1
  have h2 := h1 e.info.data (by unfold namedList; rw [hs]; exact List.mem_map_of_mem he)
  rw [foreignB_sound t _ l hf] at h2
  cases h2

/-- Table 1 flushes twice and compacts into `L1/3`; then table 2 writes and flushes into `L0/1`, the name of a
file table 1 has given up; both go on writing. -/
def exApart : List (Store.Op Nat Nat) :=
  [.openTable 1 0 4, .openTable 2 0 4, .on 1 (.write (.put [(11, 1)]))] ++ flush 1 ++
  [.on 2 (.write (.put [(52, 1)])), .on 1 (.write (.put [(12, 2), (31, 2)]))] ++ flush 1 ++
  [.on 1 (C38.jobOf 1 2), .on 1 (.finish 0)] ++ flush 2 ++
  [.on 1 (.write (.put [(41, 3)])), .on 2 (.write (.put [(53, 4)]))]

example : Undisturbed exExt exX 1 exApart := undisturbed_of_check 1 exApart (by decide +kernel)
example : Undisturbed exExt exX 2 exApart := undisturbed_of_check 2 exApart (by decide +kernel)

example : (Store.read (Store.run exExt exX exApart) 1 9).map rowsOf = some [(1, 12), (3, 31), (4, 41)] ∧
    (Store.read (Store.run exExt exX exApart) 2 3).map rowsOf = some [(5, 52)] := by decide +kernel

/-- The history of table 1 in it satisfies the conditions of C54. -/
def exOwn : List (Lsm.Op Nat Nat) :=
  [.write (.put [(11, 1)]), .write .freeze, .flushWrite none, .flushPublish, .flushDrain, .write (.put [(12, 2), (31, 2)]),
    .write .freeze, .flushWrite none, .flushPublish, .flushDrain, C38.jobOf 1 2, .finish 0, .write (.put [(41, 3)])]

example : only 1 exApart = .openTable 1 0 4 :: exOwn.map (.on 1) := rfl
example : C54.NoRestart exOwn ∧ (Lsm.run exExt exX 1 (Db.new 4 1 0) exOwn).1 = true ∧ (∀ w ∈ logOf exExt exOwn, w.ts ≤ 9) := by
  refine ⟨?_, by decide +kernel, by decide⟩
  intro cap h
  simp [exOwn, C38.jobOf] at h
example : ∀ l e, EverListed (reached exExt exX 4 1 0 exOwn) 1 l e →
    ∀ f, (reached exExt exX 4 1 0 exOwn).files ⟨l, e.id⟩ = some f → Fits exX.readRows f := by
  have hfiles : (reached exExt exX 4 1 0 exOwn).files = setFile (setFile (setFile (fun _ => none) ⟨0, 1⟩
      (some ⟨[(⟨1, 1⟩, 11)], []⟩)) ⟨0, 2⟩ (some ⟨[(⟨1, 2⟩, 12), (⟨3, 2⟩, 31)], []⟩)) ⟨1, 3⟩
      (some ⟨[(⟨1, 2⟩, 12), (⟨3, 2⟩, 31)], []⟩) := rfl
  intro l e _ f hf
  refine .inl ?_
  rw [hfiles] at hf
  unfold setFile at hf
  split_ifs at hf <;> cases hf <;> rfl

/-- In `memory_and_versions_are_own` no compaction of the table starts, but another table may compact. -/
example : ∀ a b c, Store.Op.on 2 (.start a b c) ∉ exApart := by
  intro a b c h
  simp [exApart, flush, C38.jobOf] at h

end Tonbo.Props.C59
