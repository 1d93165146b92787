import Verif.Spec.Accept
import Mathlib.Tactic.Common

/-!
# C79: a table takes exactly the batches of its schema

Whatever way they come; a batch that is taken passes every check of its schema further on, in the memory, in the log,
when the log is replayed, in compactions, and the batches a query returns can be written again. The schema of the table
is the one it was declared with, but for `with_metadata`.
-/

namespace Tonbo.Props.C79
open Tonbo.Model Tonbo.Model.Accept Tonbo.Spec.Accept

variable {X : Type} [DecidableEq X] [Inhabited X]

theorem called_commit : called commitName (commitFld : Fld X) = true := by
  unfold called commitFld
  exact decide_eq_true rfl

theorem compatible_refl (s : Sch X) : compatible s s = true := by
  unfold compatible
  rw [if_pos rfl]

theorem none_reserved {s : Sch X} (h : Unreserved s) {n : List Char} (hn : Reserved n) : s.fields.any (called n) = false := by
  rw [List.any_eq_false]
  intro f hf hc
  have : f.core.name = n := by simpa [called] using hc
  exact h f hf (this ▸ hn)

theorem unreserved_of_none {s : Sch X} (h1 : s.fields.any (called commitName) = false)
    (h2 : s.fields.any (called tombName) = false) : Unreserved s := by
  rw [List.any_eq_false] at h1 h2
  rintro f hf (hn | hn)
  · exact h1 f hf (decide_eq_true hn)
  · exact h2 f hf (decide_eq_true hn)

theorem appendCommit_some {s : Sch X} (h : Unreserved s) :
    appendCommit s = some { s with fields := s.fields ++ [commitFld] } := by
  unfold appendCommit
  rw [none_reserved h (n := commitName) (.inl rfl), none_reserved h (n := tombName) (.inr rfl)]
  rfl

theorem appendCommit_iff (s : Sch X) : appendCommit s = none ↔ ¬ Unreserved s := by
  constructor
  · intro h hu
    rw [appendCommit_some hu] at h
    cases h
  · intro h
    unfold appendCommit
    by_cases h1 : s.fields.any (called commitName) = true
    · rw [if_pos h1]
    · by_cases h2 : s.fields.any (called tombName) = true
      · rw [if_neg h1, if_pos h2]
      · exact absurd (unreserved_of_none (by simpa using h1) (by simpa using h2)) h

open Classical in
theorem putRows_own (t : Table X) (log : Bool) :
    putRows t log t.schema = if log = true ∧ ¬ Unreserved t.schema then .log else .taken := by
  unfold putRows
  rw [if_pos (compatible_refl t.schema)]
  by_cases h : log = true ∧ ¬ Unreserved t.schema
  · rw [if_pos h, if_pos]
    rw [h.1, (appendCommit_iff _).2 h.2]
    rfl
  · rw [if_neg h, if_neg]
    intro hc
    simp only [Bool.and_eq_true, Option.isNone_iff_eq_none] at hc
    exact h ⟨hc.1, (appendCommit_iff _).1 hc.2⟩

/-- **C79.** `ingest` takes a batch exactly if it has the schema of the table, metadata and order of columns
included — and, with a log, no column has a reserved name (C63). Any other batch is refused before anything is
written. -/
theorem ingest_takes_its_schema (t : Table X) (log : Bool) (s : Sch X) :
    (ingest t log s = .taken ↔ s = t.schema ∧ (log = true → Unreserved t.schema)) ∧
    (ingest t log s = .mismatch ↔ s ≠ t.schema) := by
  unfold ingest
  by_cases h : t.schema = s
  · subst h
    simp only [ne_eq, not_true_eq_false, if_false, putRows_own]
    by_cases hc : log = true ∧ ¬ Unreserved t.schema
    · rw [if_pos hc]
      simp only [reduceCtorEq, true_and, false_iff, iff_false, not_false_eq_true, and_true]
      exact fun hn => hc.2 (hn hc.1)
    · rw [if_neg hc]
      simp only [true_and, true_iff, reduceCtorEq, and_true]
      intro hl
      by_contra hn
      exact hc ⟨hl, hn⟩
  · have h' : ¬ s = t.schema := fun e => h e.symm
    simp [h, h']

theorem staged_iff (s : Sch X) (has : Nat → Bool) : staged s has = true ↔ Unreserved s ∧ Plain s has := by
  unfold staged
  simp only [Bool.and_eq_true, Bool.not_eq_true', List.all_eq_true, Bool.or_eq_true]
  refine and_congr ?_ ?_
  · rw [List.any_eq_false]
    constructor
    · rintro h f hf (hn | hn)
      · exact h f hf (Bool.or_eq_true _ _ ▸ .inl (decide_eq_true hn))
      · exact h f hf (Bool.or_eq_true _ _ ▸ .inr (decide_eq_true hn))
    · intro h f hf hc
      simp only [called, Bool.or_eq_true, decide_eq_true_eq] at hc
      exact h f hf hc
  · have ht : ∀ ty, stageable ty = true ↔
        ty ∈ [KeyDecl.DataType.boolean, .int32, .int64, .uint32, .uint64, .float32, .float64, .utf8, .binary] := by
      intro ty
      cases ty <;> simp [stageable]
    constructor
    · intro h i f hf hi
      rcases h (f, i) (List.mem_zipIdx_iff_getElem?.2 hf) with h | h
      · rw [hi] at h; cases h
      · exact (ht _).1 h
    · rintro h ⟨f, i⟩ hp
      cases hi : has i with
      | false => exact .inl rfl
      | true => exact .inr ((ht _).2 (h i f (List.mem_zipIdx_iff_getElem?.1 hp) hi))

/-- **C79.** A transaction takes a batch by `upsert_batch` exactly if it has the schema of the table and is empty, or
no column has a reserved name and those with values have one of nine types. -/
theorem transaction_takes (t : Table X) (log : Bool) (s : Sch X) (rows : Nat) (has : Nat → Bool) :
    upsertBatch t log s rows has = .taken ↔ s = t.schema ∧ (rows = 0 ∨ (Unreserved s ∧ Plain s has)) := by
  unfold upsertBatch
  by_cases h : s = t.schema
  · subst h
    simp only [ne_eq, not_true_eq_false, if_false, true_and]
    by_cases hr : rows = 0
    · simp [hr]
    · rw [if_neg hr]
      by_cases hs : staged t.schema has = true
      · have hu := (staged_iff _ _).1 hs
        rw [if_pos hs, putRows_own, if_neg (fun hc => hc.2 hu.1)]
        simp [hu]
      · rw [if_neg hs]
        simp only [reduceCtorEq, false_iff]
        rintro (h0 | hu)
        · exact hr h0
        · exact hs ((staged_iff _ _).2 hu)
  · simp [h]

/-- **C79.** The three ways to write the rows of a batch agree: `ingest`, `ingest_with_tombstones` with no flag
set, a transaction with `upsert_batch`; the last one only for columns of nine types and no reserved names. -/
theorem three_ways_agree_partial (t : Table X) (log : Bool) (s : Sch X) (rows : Nat) (hrows : rows ≠ 0)
    (has : Nat → Bool) :
    ingestTomb t log s rows (List.replicate rows false) = ingest t log s ∧
    (Unreserved s → Plain s has → upsertBatch t log s rows has = ingest t log s) := by
  constructor
  · unfold ingestTomb ingest
    by_cases h : t.schema = s
    · simp [h, hrows]
    · simp [h]
  · intro hu hp
    unfold upsertBatch ingest
    by_cases h : t.schema = s
    · simp [h, hrows, (staged_iff _ _).2 ⟨hu, hp⟩]
    · have h' : ¬ s = t.schema := fun e => h e.symm
      simp [h, h']

/-- **C79 fails** for the types a transaction cannot hold: a batch with a value of any other type is taken by
`ingest`, and refused by the transaction. -/
theorem transactions_refuse_other_types (t : Table X) (log : Bool) (rows : Nat) (hrows : rows ≠ 0)
    (hu : Unreserved t.schema) (has : Nat → Bool) (hp : ¬ Plain t.schema has) :
    ingest t log t.schema = .taken ∧ upsertBatch t log t.schema rows has = .staging := by
  constructor
  · exact (ingest_takes_its_schema t log t.schema).1.2 ⟨rfl, fun _ => hu⟩
  · unfold upsertBatch
    rw [if_neg (by simp), if_neg hrows, if_neg]
    exact fun hs => hp ((staged_iff _ _).1 hs).2

/-- **C79.** With deletions: a batch of the schema of the table with a flag for every row is taken; nothing that
was logged is refused by the memory because of its schema, in any of the calls. -/
theorem memory_never_refuses_a_schema (t : Table X) (log : Bool) (s : Sch X) (rows : Nat) (flags : List Bool)
    (has : Nat → Bool) :
    ingest t log s ≠ .mem ∧ ingestTomb t log s rows flags ≠ .mem ∧ upsertBatch t log s rows has ≠ .mem ∧
    (s = t.schema → rows = flags.length → (log = true → Unreserved t.schema) →
      ingestTomb t log s rows flags = .taken) := by
  have hrows : putRows t log t.schema ≠ .mem := by
    rw [putRows_own]
    split <;> simp
  have hkeys : putKeys t (deleteSchema t) = .taken := by
    unfold putKeys
    rw [if_pos (compatible_refl _)]
  have hboth : both t log t.schema = putRows t log t.schema := by
    unfold both
    cases hp : putRows t log t.schema with
    | taken => exact hkeys
    | _ => rfl
  have htomb : ∀ (e : t.schema = s), rows = flags.length →
      ingestTomb t log s rows flags = .taken ∨ ingestTomb t log s rows flags = putRows t log t.schema := by
    intro e hl
    subst e
    unfold ingestTomb
    simp only [ne_eq, not_true_eq_false, if_false, hl]
    rw [hkeys, hboth]
    split_ifs <;> simp
  refine ⟨?_, ?_, ?_, ?_⟩
  · unfold ingest
    split
    · simp
    · rename_i h
      rw [← not_not.1 h]
      exact hrows
  · by_cases e : t.schema = s
    · by_cases hl : rows = flags.length
      · rcases htomb e hl with h | h <;> rw [h]
        · simp
        · exact hrows
      · unfold ingestTomb
        simp [e, hl]
    · unfold ingestTomb
      simp [e]
  · unfold upsertBatch
    split_ifs
    · simp
    · simp
    · exact hrows
    · simp
  · intro e hl hu
    rcases htomb e.symm hl with h | h
    · exact h
    · rw [h, putRows_own, if_neg]
      rintro ⟨h1, h2⟩
      exact h2 (hu h1)

/-- **C79.** What the log takes, replay takes: by a table of the same schema and key, and, of the rows, by no other. -/
theorem logged_batches_are_replayed (t t' : Table X) (s : Sch X) (h : appendCommit t.schema = some s) :
    (replayRows t' s = true ↔ t'.schema = t.schema) := by
  have hu : Unreserved t.schema := by
    by_contra hn
    rw [(appendCommit_iff _).2 hn] at h
    cases h
  rw [appendCommit_some hu] at h
  cases h
  have hno := none_reserved hu (n := commitName) (.inl rfl)
  have hfind : (t.schema.fields ++ [commitFld]).findIdx? (called commitName) = some t.schema.fields.length := by
    rw [List.findIdx?_append]
    have h1 : t.schema.fields.findIdx? (called commitName) = none := by
      rw [List.findIdx?_eq_none_iff]
      intro f hf
      simpa using List.any_eq_false.1 hno f hf
    rw [h1, List.findIdx?_cons, called_commit]
    simp
  have hsplit : splitCommit { t.schema with fields := t.schema.fields ++ [commitFld] } = some t.schema := by
    unfold splitCommit
    simp only [hfind]
    simp [commitFld, List.eraseIdx_append_of_length_le]
  unfold replayRows
  rw [hsplit]
  simp only [none_reserved hu (n := tombName) (.inr rfl), Bool.false_and, Bool.false_eq_true, if_false,
    decide_eq_true_eq]

/-- **C79.** Deletions in the log are replayed by a table of the same schema and key, if no key column has a reserved
name. -/
theorem logged_deletions_are_replayed (t : Table X) (h : Unreserved t.schema) : replayKeys t (deleteSchema t) = true := by
  unfold replayKeys
  simp only [ne_eq, not_true_eq_false, if_false, compatible_refl, Bool.and_true]
  have hf : (deleteSchema t).fields.find? (called commitName) = some commitFld := by
    unfold deleteSchema
    rw [List.find?_append]
    have : (t.cols.filterMap (fun i => t.schema.fields[i]?)).find? (called commitName) = none := by
      rw [List.find?_eq_none]
      intro f hf hc
      obtain ⟨i, _, hi⟩ := List.mem_filterMap.1 hf
      have hn : f.core.name = commitName := by simpa [called] using hc
      exact h f (List.mem_of_getElem? hi) (.inl hn)
    rw [this, List.find?_cons, called_commit]
    rfl
  rw [hf]
  rfl

/-- **C79.** The rows of every data file of the table are fit for a compaction, whatever metadata the schema of the
table has. -/
theorem file_batches_are_readable (t : Table X) : keyReadable t (fileSchema t) = true := by
  unfold keyReadable compatible fileSchema
  split
  · rfl
  · simp [called_commit]
    simp [commitFld]

/-- **C79.** A batch that a query without projection returns can be written again, and so can one with a projection to
the schema of the table; one with any other projection is refused. -/
theorem results_can_be_written_again (t : Table X) (log : Bool) (h : log = true → Unreserved t.schema) (p : Option (Sch X)) :
    ingest t log (resultSchema t p) = .taken ↔ ∀ s ∈ p, s = t.schema := by
  rw [(ingest_takes_its_schema t log _).1]
  constructor
  · rintro ⟨h1, _⟩ s hs
    rw [Option.mem_def] at hs
    rw [hs] at h1
    exact h1
  · intro hp
    refine ⟨?_, h⟩
    cases p with
    | none => rfl
    | some s => exact hp s rfl

/-! ## The schema of the table -/

theorem configFor_schema {s : KeyDecl.Schema} {cols : List Nat} {c : KeyDecl.Config} (h : KeyDecl.configFor s cols = .ok c) :
    c.schema = s := by
  unfold KeyDecl.configFor at h
  split at h
  · cases h
  · cases hc : KeyDecl.checkTypes s cols with
    | error _ => rw [hc] at h; cases h
    | ok _ => rw [hc] at h; cases h; rfl

theorem fromKeyCol_schema {s : KeyDecl.Schema} {n : Nat} {c : KeyDecl.Config} (h : KeyDecl.fromKeyCol s n = .ok c) :
    c.schema = s := by
  unfold KeyDecl.fromKeyCol at h
  split at h
  · cases h
  · exact configFor_schema h

theorem fromKeyName_schema {s : KeyDecl.Schema} {n : List Char} {c : KeyDecl.Config} (h : KeyDecl.fromKeyName s n = .ok c) :
    c.schema = s := by
  unfold KeyDecl.fromKeyName at h
  split at h
  · cases h
  · exact fromKeyCol_schema h

theorem fromMetadata_schema {s : KeyDecl.Schema} {c : KeyDecl.Config} (h : KeyDecl.fromMetadata s = .ok c) :
    c.schema = s := by
  unfold KeyDecl.fromMetadata at h
  split at h
  · unfold KeyDecl.fromMarks at h
    split at h
    · exact fromKeyCol_schema h
    · split at h
      · cases h
      · exact configFor_schema h
  · split at h
    · unfold KeyDecl.fromNames at h
      split at h
      · cases h
      · exact fromKeyName_schema h
      · split at h
        · cases h
        · exact configFor_schema h
    · cases h

theorem builder_schema {b : KeyDecl.Builder} {c : KeyDecl.Config} (h : b.build = .ok c) : c.schema = b.outSchema := by
  unfold KeyDecl.Builder.build at h
  split at h
  · cases h
  · split at h
    · cases h
    · exact configFor_schema h

/-- **C79.** However the key is declared, the columns of the table are those of the schema that was given, with their
metadata; and the schema is the same, unless `with_metadata` was asked for. -/
theorem declared_schema (s : Sch X) (d : Decl) (t : Table X) (h : declare s d = .ok t) :
    SameButKeys t.schema s ∧ (¬ Writes d → t.schema = s) := by
  unfold declare at h
  cases hc : configure s d with
  | error _ => rw [hc] at h; cases h
  | ok c =>
    rw [hc] at h
    cases h
    refine ⟨⟨rfl, rfl⟩, fun hw => ?_⟩
    have hk : c.schema.keys = s.keys := by
      cases d with
      | col n => rw [fromKeyCol_schema hc]; rfl
      | name n => rw [fromKeyName_schema hc]; rfl
      | indices l => rw [configFor_schema hc]; rfl
      | metadata => rw [fromMetadata_schema hc]; rfl
      | builder ps w =>
        rw [builder_schema hc]
        unfold KeyDecl.Builder.outSchema
        rw [if_neg (by simpa [Writes] using hw)]
        rfl
    simp only [hk]

/-- **C79.** So a batch of the schema that was given is taken, unless `with_metadata` was asked for. -/
theorem batches_of_the_given_schema_are_taken_partial (s : Sch X) (d : Decl) (t : Table X) (h : declare s d = .ok t)
    (hw : ¬ Writes d) (log : Bool) (hlog : log = true → Unreserved s) : ingest t log s = .taken := by
  have hs := (declared_schema s d t h).2 hw
  rw [(ingest_takes_its_schema t log s).1, hs]
  exact ⟨rfl, hlog⟩

/-- **C79 fails** for `with_metadata`: a batch of the schema that was given to the builder is taken only if that schema
already had the same entry `tonbo.keys`. -/
theorem with_metadata_refuses_the_given_schema (s : Sch X) (parts : List (List Char)) (t : Table X)
    (h : declare s (.builder parts true) = .ok t) (hk : s.keys ≠ some (KeyDecl.jsonNames parts)) (log : Bool) :
    ingest t log s = .mismatch := by
  rw [(ingest_takes_its_schema t log s).2]
  intro e
  unfold declare at h
  cases hc : configure s (.builder parts true) with
  | error _ => rw [hc] at h; cases h
  | ok c =>
    rw [hc] at h
    cases h
    have hb := builder_schema hc
    apply hk
    rw [e, hb]
    rfl

/-! ## Cases -/

def exFld (n : String) (ty : KeyDecl.DataType) (nullable : Bool) : Fld Nat := ⟨⟨n.toList, ty, none⟩, nullable, 0⟩

/-- A table of a name and a number. -/
def exSch : Sch Nat := ⟨[exFld "id" .utf8 false, exFld "v" .int64 true], none, 0⟩

def exTab : Table Nat := ⟨exSch, [0]⟩

instance : Inhabited Nat := ⟨0⟩

/-- It can be declared in several ways. -/
example : declare exSch (.name "id".toList) = .ok exTab ∧ declare exSch (.builder ["id".toList] false) = .ok exTab ∧
    declare exSch (.col 0) = .ok exTab ∧ declare exSch .metadata ≠ .ok exTab := by decide +kernel

/-- No reserved names. -/
example : Unreserved exSch := by
  intro f hf
  simp only [exSch, List.mem_cons, List.not_mem_nil, or_false] at hf
  rcases hf with rfl | rfl <;> (rintro (h | h) <;> revert h <;> decide)

/-- Taken; refused for the order of columns, a null flag, metadata of the schema, a further column. -/
example : ingest exTab true exSch = .taken ∧
    ingest exTab true ⟨[exFld "v" .int64 true, exFld "id" .utf8 false], none, 0⟩ = .mismatch ∧
    ingest exTab true ⟨[exFld "id" .utf8 false, exFld "v" .int64 false], none, 0⟩ = .mismatch ∧
    ingest exTab true ⟨exSch.fields, none, 1⟩ = .mismatch ∧
    ingest exTab true ⟨exSch.fields ++ [commitFld], none, 0⟩ = .mismatch := by decide +kernel

/-- The check in the memory alone would take the last one: it is meant for batches of data files. -/
example : compatible exSch ⟨exSch.fields ++ [commitFld], some "x".toList, 7⟩ = true := by decide +kernel

/-- Flags. -/
example : ingestTomb exTab true exSch 2 [true, false] = .taken ∧ ingestTomb exTab true exSch 2 [true] = .length ∧
    ingestTomb exTab true exSch 0 [] = .taken := by decide +kernel

/-- A date: taken by `ingest`, and by a transaction only while it is null. -/
example : ingest ⟨⟨[exFld "id" .utf8 false, exFld "day" .other true], none, 0⟩, [0]⟩ true
      ⟨[exFld "id" .utf8 false, exFld "day" .other true], none, 0⟩ = .taken ∧
    upsertBatch ⟨⟨[exFld "id" .utf8 false, exFld "day" .other true], none, 0⟩, [0]⟩ true
      ⟨[exFld "id" .utf8 false, exFld "day" .other true], none, 0⟩ 1 (fun _ => true) = .staging ∧
    upsertBatch ⟨⟨[exFld "id" .utf8 false, exFld "day" .other true], none, 0⟩, [0]⟩ true
      ⟨[exFld "id" .utf8 false, exFld "day" .other true], none, 0⟩ 1 (fun i => i == 0) = .taken ∧
    upsertBatch exTab true exSch 1 (fun _ => true) = .taken := by decide +kernel

/-- With `with_metadata`: the batch of the schema given is refused, that of the table is taken. -/
example : ∃ t, declare exSch (.builder ["id".toList] true) = .ok t ∧ ingest t false exSch = .mismatch ∧
    t.schema.keys = some "[\"id\"]".toList ∧ ingest t false t.schema = .taken := by
  refine ⟨⟨{ exSch with keys := some "[\"id\"]".toList }, [0]⟩, ?_⟩
  decide +kernel

/-- A reserved name: taken without a log, refused with one, before the memory has it. -/
example : ingest ⟨⟨[exFld "id" .utf8 false, exFld "_tombstone" .int64 true], none, 0⟩, [0]⟩ false
      ⟨[exFld "id" .utf8 false, exFld "_tombstone" .int64 true], none, 0⟩ = .taken ∧
    ingest ⟨⟨[exFld "id" .utf8 false, exFld "_tombstone" .int64 true], none, 0⟩, [0]⟩ true
      ⟨[exFld "id" .utf8 false, exFld "_tombstone" .int64 true], none, 0⟩ = .log := by decide +kernel

/-- The log of one table is refused by another. -/
example : ∃ s, appendCommit exSch = some s ∧ replayRows exTab s = true ∧
    replayRows ⟨{ exSch with rest := 1 }, [0]⟩ s = false ∧ replayKeys exTab (deleteSchema exTab) = true :=
  ⟨{ exSch with fields := exSch.fields ++ [commitFld] }, by decide +kernel⟩

end Tonbo.Props.C79
