import Verif.Props.C61_Columns
import Verif.Props.C62_Staging
import Verif.Model.WalEvent

/-!
# C63  Any name will do for a column

The store puts a column `_commit_ts` beside the columns of a table, in its log and in its files, and finds it by name.
Nothing refuses a table that has a column of this name, or one named `_tombstone`. With other names the store finds its
own column; with these, the theorems below say what happens instead.
-/

namespace Tonbo.Props.C63
open Tonbo.Model Tonbo.Model.Pred Tonbo.Model.Keys Tonbo.Spec
open Tonbo.Lemmas.Proj

/-- With other names: what a file says about the time of a row is the time it was stored with, and the row has its
own cells; whatever columns are read. -/
theorem stored_time_is_read_back_partial (base scan keys : Schema) (hn : "_commit_ts" ∉ base.map (·.1))
    (hs : ∀ f ∈ scan, f ∈ base) (hk : ∀ f ∈ keys, f ∈ base) :
    ∃ fields roots m k,
      Proj.sstProjection (base ++ [("_commit_ts", .int .u64)]) scan keys = .ok (fields, roots) ∧
      Proj.sstMap (base ++ [("_commit_ts", .int .u64)]) scan keys = .ok (m, k) ∧
      ∀ (ts : Nat) (r : Row), r.length = base.length →
        m (Proj.stored ts r) = columns base (scan.map (·.1)) r ∧
        Proj.readCommit fields (Proj.project roots (Proj.stored ts r)) = some ts := by
  obtain ⟨fields, roots, m, k, h1, h2, h3⟩ := C61.file_row_is_read_by_name base scan keys hn hs hk
  exact ⟨fields, roots, m, k, h1, h2, fun ts r hr => ⟨(h3 ts r hr).1, (h3 ts r hr).2.2⟩⟩

/-- The failure in files: with a column of this name, what the row has in it is taken for the time of the row, and the
time it was stored with is never read. -/
theorem own_column_is_read_as_the_time (base scan keys : Schema) (hn : "_commit_ts" ∈ base.map (·.1))
    (hu : ∀ f ∈ base, f.1 = "_commit_ts" → f.2 = .int .u64) (hs : ∀ f ∈ scan, f ∈ base) (hk : ∀ f ∈ keys, f ∈ base) :
    ∃ fields roots,
      Proj.sstProjection (base ++ [("_commit_ts", .int .u64)]) scan keys = .ok (fields, roots) ∧
      ∀ (ts v : Nat) (r : Row), r.length = base.length → cellOf base r "_commit_ts" = some (.int .u64 v) →
        Proj.readCommit fields (Proj.project roots (Proj.stored ts r)) = some v := by
  obtain ⟨fields, roots, m, k, h1, h2, h3⟩ := sstMap_ok (base := base) (scan := scan) (keys := keys)
    (fun f hf => List.mem_map_of_mem (hs f hf)) (fun f hf => List.mem_map_of_mem (hk f hf))
  refine ⟨fields, roots, h1, fun ts v r hl hv => ?_⟩
  obtain ⟨g1, g2, g3, g4, g5, g6⟩ := h3 ts r hl
  obtain ⟨i, hi⟩ := findIdx_some (s := fields) g4
  have hcell := findIdx_cell fields (Proj.project roots (Proj.stored ts r)) _ i (by
    rw [g3, columns_length]; simp) hi
  rw [g3, cellOf_columns g4, cellOf_stored (n := Proj.commitField.1) hl hn] at hcell
  have hf : ∃ f, fields[i]? = some f ∧ f.2 = .int .u64 := by
    obtain ⟨hlt, hp, _⟩ := List.findIdx?_eq_some_iff_getElem.1 hi
    refine ⟨fields[i], List.getElem?_eq_getElem hlt, ?_⟩
    have hmem := g5 _ (List.getElem_mem hlt)
    have hname : (fields[i]).1 = "_commit_ts" := by simpa [Proj.commitField] using hp
    rcases List.mem_append.1 hmem with h | h
    · exact hu _ h hname
    · rw [List.mem_singleton.1 h]; rfl
  obtain ⟨f, hf1, hf2⟩ := hf
  unfold Proj.readCommit
  rw [hi]
  have hv' : cellOf base r Proj.commitField.1 = some (.int .u64 v) := hv
  simp only [hf1, g3, hcell, hv', hf2]
  simp

/-- If a row has null or something else than an unsigned 64-bit number in it, the row has no time: reading is an
error. -/
theorem own_column_of_another_type_is_an_error (base scan keys : Schema) (hn : "_commit_ts" ∈ base.map (·.1))
    (hs : ∀ f ∈ scan, f ∈ base) (hk : ∀ f ∈ keys, f ∈ base) :
    ∃ fields roots,
      Proj.sstProjection (base ++ [("_commit_ts", .int .u64)]) scan keys = .ok (fields, roots) ∧
      ∀ (ts : Nat) (r : Row), r.length = base.length → (∀ v, cellOf base r "_commit_ts" ≠ some (.int .u64 v)) →
        Proj.readCommit fields (Proj.project roots (Proj.stored ts r)) = none := by
  obtain ⟨fields, roots, m, k, h1, h2, h3⟩ := sstMap_ok (base := base) (scan := scan) (keys := keys)
    (fun f hf => List.mem_map_of_mem (hs f hf)) (fun f hf => List.mem_map_of_mem (hk f hf))
  refine ⟨fields, roots, h1, fun ts r hl hfits => ?_⟩
  obtain ⟨g1, g2, g3, g4, g5, g6⟩ := h3 ts r hl
  obtain ⟨i, hi⟩ := findIdx_some (s := fields) g4
  have hcell := findIdx_cell fields (Proj.project roots (Proj.stored ts r)) _ i (by
    rw [g3, columns_length]; simp) hi
  rw [g3, cellOf_columns g4, cellOf_stored (n := Proj.commitField.1) hl hn] at hcell
  unfold Proj.readCommit
  rw [hi]
  simp only
  split
  · rename_i f v hf1 hv
    rw [g3, hcell] at hv
    exact absurd hv (hfits v)
  · rfl

/-- The failure in the log: a batch with a column of one of the two names is refused, so a durable table with such a
column takes no row. -/
theorem log_refuses_reserved_names {A : Type} (b : Wal.Batch A) (ts : Wal.Col A)
    (h : ∃ f ∈ b.cols, f.name = "_commit_ts" ∨ f.name = "_tombstone") : Wal.appendCommit b ts = .error .codec := by
  obtain ⟨f, hf, hn⟩ := h
  unfold Wal.appendCommit
  split
  · rfl
  · split
    · rfl
    · split
      · rfl
      · split
        · rfl
        · split
          · rfl
          · rename_i h1
            split
            · rfl
            · rename_i h2
              exfalso
              rcases hn with hn | hn
              · exact h1 (List.any_eq_true.2 ⟨f, hf, by simp [Wal.commitCol, hn]⟩)
              · exact h2 (List.any_eq_true.2 ⟨f, hf, by simp [Wal.tombstoneCol, hn]⟩)

/-- The failure in transactions: `upsert_batch` refuses every batch with a row. -/
theorem transaction_refuses_reserved_names {t : Staging.Table} (h : ∃ f ∈ t.fields, f.name = "_commit_ts" ∨ f.name = "_tombstone")
    (rows : List Row) (hne : rows ≠ []) (hl : ∀ r ∈ rows, r.length = t.fields.length) (st : Staging.Staged) :
    ∃ e, Staging.call t st (.upsertBatch t.fields rows) = (st, .error e) := by
  cases rows with
  | nil => exact absurd rfl hne
  | cons r rest =>
    have hs : Spec.Staging.Said t (.upsertBatch t.fields (r :: rest)) [] false := .upsertBatch (.stop (.inl (fun hr => by
      obtain ⟨f, hf, hn⟩ := h
      have := hr.1 f hf
      rcases hn with hn | hn
      · exact this.1 hn
      · exact this.2 hn)))
    have hc := Lemmas.Staging.call_said (t := t) (st := st) (c := .upsertBatch t.fields (r :: rest)) hl hs
    cases hx : Staging.call t st (.upsertBatch t.fields (r :: rest)) with
    | mk a b =>
      rw [hx] at hc
      have ha : a = st := hc.1
      subst ha
      cases b with
      | error e => exact ⟨e, rfl⟩
      | ok u => cases u; exact absurd (hc.2.1 rfl) (by simp)

/-! ## Examples -/

/-- A table with a column for the number of commits of a project, so named. -/
def exBase : Schema := [("id", .str .plain), ("_commit_ts", .int .u64)]

/-- A row stored at 7 is taken to be of the time 1000. -/
example : ∃ fields roots,
    Proj.sstProjection (exBase ++ [("_commit_ts", .int .u64)]) exBase [("id", .str .plain)] = .ok (fields, roots) ∧
    Proj.readCommit fields (Proj.project roots (Proj.stored 7 [some (.str "a".toList), some (.int .u64 1000)])) = some 1000 := by
  obtain ⟨f, r, h1, h2⟩ := own_column_is_read_as_the_time exBase exBase [("id", .str .plain)] (by decide) (by decide)
    (fun f h => h) (by decide)
  exact ⟨f, r, h1, h2 7 1000 _ rfl rfl⟩

/-- With another name it is of the time 7. -/
example : Proj.sstProjection ([("id", .str .plain), ("n", .int .u64)] ++ [("_commit_ts", .int .u64)]) [("id", .str .plain)]
      [("id", .str .plain)] = .ok ([("id", .str .plain), ("_commit_ts", .int .u64)], [0, 2]) ∧
    Proj.readCommit [("id", .str .plain), ("_commit_ts", .int .u64)]
      (Proj.project [0, 2] (Proj.stored 7 [some (.str "a".toList), some (.int .u64 1000)])) = some 7 := by
  exact ⟨rfl, rfl⟩

example : Wal.appendCommit (A := Unit) ⟨[⟨"id", false, .other 1 false ()⟩, ⟨"_tombstone", false, .other 1 false ()⟩], []⟩
    (.u64 [some 3#64]) = .error .codec := rfl

end Tonbo.Props.C63
