import Verif.Lemmas.Sidecar

/-!
# C80: deletions as columns
-/

namespace Tonbo.Props.C80
open Tonbo.Model Tonbo.Model.Accept Tonbo.Model.Sidecar Tonbo.Spec.Sidecar Tonbo.Lemmas.Sidecar

variable {X V : Type} [DecidableEq X] [Inhabited X]

/-- **C80.** Deleting rows: memory gets exactly the keys of these rows, each with the time of the write, and holds the
same for the flush. For tables whose key columns have different names, none of them `_commit_ts`. -/
theorem deleted_rows_reach_memory_partial {s : Sch X} {d : Decl} {t : Table X} (ht : declare s d = .ok t)
    (hd : Distinct t) (rows : List (List (Cell V))) (idxs : List Nat) (ts : Nat) (keys : List (List (Cell V)))
    (hk : idxs.map (fun i => (rows[i]?).map (rowKey t)) = keys.map (fun k => some (k.map some)))
    (hn : ∀ k ∈ keys, Cell.null ∉ k) :
    insertDelete t (buildDelete t rows idxs ts) =
      .ok (keys.map (fun k => (k, ts)), held (keyFields t) (keys.map (fun k => (k, ts)))) := by
  obtain ⟨-, hs⟩ := declared_usable ht
  have hb : ∀ (idxs : List Nat) (keys : List (List (Cell V))),
      idxs.map (fun i => (rows[i]?).map (rowKey t)) = keys.map (fun k => some (k.map some)) →
      idxs.map (fun i => keyOf t ((rows[i]?).getD []) ++ [Cell.u64 ts]) =
        (keys.map (fun k => (k, ts))).map (fun e => e.1 ++ [Cell.u64 e.2]) ∧ ∀ k ∈ keys, k.length = t.cols.length := by
    intro idxs
    induction idxs with
    | nil =>
      intro keys h
      cases keys with
      | nil => exact ⟨rfl, fun _ h => nomatch h⟩
      | cons _ _ => cases h
    | cons i idxs ih =>
      intro keys h
      cases keys with
      | nil => cases h
      | cons k keys =>
        simp only [List.map_cons, List.cons.injEq] at h
        obtain ⟨h1, h2⟩ := ih keys h.2
        cases hr : rows[i]? with
        | none => rw [hr] at h; cases h.1
        | some r =>
          rw [hr] at h
          simp only [Option.map_some, Option.some.injEq] at h
          have hkey : keyOf t r = k := by
            have := congrArg (List.map (fun o : Option (Cell V) => o.getD .null)) h.1
            unfold rowKey at this
            rw [List.map_map, List.map_map] at this
            unfold keyOf
            simpa [Function.comp_def] using this
          refine ⟨?_, ?_⟩
          · simp only [List.map_cons, hr, Option.getD_some, hkey]
            rw [h1]
          · intro k' hk'
            rcases List.mem_cons.1 hk' with rfl | hk'
            · have := congrArg List.length h.1
              simpa [rowKey] using this.symm
            · exact h2 k' hk'
  obtain ⟨h1, h2⟩ := hb idxs keys hk
  have : buildDelete t rows idxs ts = fileOf t (keys.map (fun k => (k, ts))) := by
    unfold buildDelete fileOf
    rw [h1]
  rw [this]
  apply insertDelete_ok (keyFields_length hs) hd
  intro e he
  obtain ⟨k, hk, rfl⟩ := List.mem_map.1 he
  exact ⟨h2 k hk, hn k hk⟩

/-- **C80.** Deletions that are written to a file are read back, all of them, in order, with key and time: by a query and
by a compaction. A compaction that copies them writes the same file again. For tables whose key columns have different
names, none of them `_commit_ts`. -/
theorem deletions_are_read_back_partial {s : Sch X} {d : Decl} {t : Table X} (ht : declare s d = .ok t)
    (hd : Distinct t) (es : List (Deletion V)) (hw : ∀ e ∈ es, Whole t e) :
    ∃ file reads, toBatch (held (keyFields t) es) = .ok file ∧
      queryRead t file = .ok es ∧
      compactRead t file = .ok reads ∧ reads.map (fun r => (r.key, r.ts)) = es ∧
      copy t file = .ok file := by
  obtain ⟨hne, hs⟩ := declared_usable ht
  refine ⟨fileOf t es, _, toBatch_held _ _, queryRead_ok (keyFields_length hs) hd hw, compactRead_ok hne hs hd hw, ?_,
    copy_ok hs hd hw⟩
  rw [List.map_map]
  have : (fun p : Deletion V × Nat => (p.1.1, p.1.2)) = fun p => p.1 := rfl
  simp only [Function.comp_def, this]
  exact List.zipIdx_map_fst 0 es

/-- **C80.** From the rows a user deletes to what a query and a compaction find in the file of the next flush. -/
theorem deleted_rows_are_found_partial {s : Sch X} {d : Decl} {t : Table X} (ht : declare s d = .ok t)
    (hd : Distinct t) (rows : List (List (Cell V))) (idxs : List Nat) (ts : Nat) (keys : List (List (Cell V)))
    (hk : idxs.map (fun i => (rows[i]?).map (rowKey t)) = keys.map (fun k => some (k.map some)))
    (hn : ∀ k ∈ keys, Cell.null ∉ k) :
    ∃ index kept file reads, insertDelete t (buildDelete t rows idxs ts) = .ok (index, kept) ∧
      index = keys.map (fun k => (k, ts)) ∧ toBatch kept = .ok file ∧ queryRead t file = .ok index ∧
      compactRead t file = .ok reads ∧ reads.map (fun r => (r.key, r.ts)) = index := by
  have h := deleted_rows_reach_memory_partial ht hd rows idxs ts keys hk hn
  have hl : ∀ e ∈ keys.map (fun k => (k, ts)), Whole t e := by
    intro e he
    obtain ⟨k, hkm, rfl⟩ := List.mem_map.1 he
    refine ⟨?_, hn k hkm⟩
    have hm : some (k.map some) ∈ keys.map (fun k => some (k.map some)) := List.mem_map_of_mem hkm
    rw [← hk] at hm
    obtain ⟨i, -, hi⟩ := List.mem_map.1 hm
    cases hr : rows[i]? with
    | none => rw [hr] at hi; cases hi
    | some r =>
      rw [hr] at hi
      have := congrArg List.length (Option.some.inj hi)
      simpa [rowKey] using this.symm
  obtain ⟨file, reads, h1, h2, h3, h4, -⟩ := deletions_are_read_back_partial ht hd (keys.map (fun k => (k, ts))) hl
  exact ⟨_, _, file, reads, h, rfl, h1, h2, h3, h4⟩

/-- **C80.** In ties a compaction looks at the number of the deletion in its batch, unless a key column is called
`_sequence`. -/
theorem ties_by_position {s : Sch X} {d : Decl} {t : Table X} (ht : declare s d = .ok t) (hd : Distinct t)
    (hq : "_sequence".toList ∉ keyNames t) (es : List (Deletion V)) (hw : ∀ e ∈ es, Whole t e) :
    ∃ file reads, toBatch (held (keyFields t) es) = .ok file ∧ compactRead t file = .ok reads ∧
      reads.map (·.seq) = List.range es.length := by
  obtain ⟨hne, hs⟩ := declared_usable ht
  refine ⟨fileOf t es, _, toBatch_held _ _, compactRead_ok hne hs hd hw, ?_⟩
  have hq' : seqName ∉ (delFields t).map (·.core.name) := by
    unfold delFields
    rw [List.map_append, List.mem_append, not_or]
    refine ⟨hq, ?_⟩
    simp only [List.map_cons, List.map_nil, List.mem_singleton]
    exact (by decide : seqName ≠ commitName)
  rw [List.map_map]
  simp only [Function.comp_def, sequenceAt_none hq']
  rw [show (fun x : Deletion V × Nat => x.2) = Prod.snd from rfl, List.zipIdx_map_snd, List.range_eq_range']

/-- **C80.** A null in a key is an error; memory takes nothing of the batch. -/
theorem null_keys_are_refused {s : Sch X} {d : Decl} {t : Table X} (ht : declare s d = .ok t) (hd : Distinct t)
    (es : List (Deletion V)) (hl : ∀ e ∈ es, e.1.length = t.cols.length) (hn : ∃ e ∈ es, Cell.null ∈ e.1) :
    insertDelete t ⟨delFields t, es.map (fun e => e.1 ++ [.u64 e.2])⟩ = .error .null := by
  obtain ⟨-, hs⟩ := declared_usable ht
  have hu := keyFields_length hs
  have hcells : ∀ (r : List (Cell V)) (m i : Nat), i + m ≤ r.length → Cell.null ∈ (r.drop i).take m →
      keyCells r (List.range' i m) = .error .null := by
    intro r m
    induction m with
    | zero => intro i _ h; simp at h
    | succ m ih =>
      intro i hi h
      have hlt : i < r.length := by omega
      rw [List.drop_eq_getElem_cons hlt, List.take_succ_cons, List.mem_cons] at h
      rw [List.range'_succ]
      unfold keyCells
      rw [List.getElem?_eq_getElem hlt]
      cases hc : r[i] with
      | null => rfl
      | u64 n =>
        rw [hc] at h
        simp only [ih (i + 1) (by omega) (h.resolve_left (by simp))]
      | val v =>
        rw [hc] at h
        simp only [ih (i + 1) (by omega) (h.resolve_left (by simp))]
  have hkey : ∀ e ∈ es, Cell.null ∈ e.1 → delKey t (delFields t) (e.1 ++ [.u64 e.2]) = .error .null := by
    intro e he hne
    unfold delKey
    rw [if_pos (by unfold compatible; rw [if_pos rfl]), List.range_eq_range']
    apply hcells
    · simp [hu, hl e he]
    · have : ((e.1 ++ [Cell.u64 e.2]).drop 0).take (keyFields t).length = e.1 := by
        rw [hu, ← hl e he]; simp
      rw [this]; exact hne
  have heach : each (delKey t (delFields t)) (es.map (fun e => e.1 ++ [Cell.u64 e.2])) = .error .null := by
    clear hs hu
    induction es with
    | nil => obtain ⟨_, h, _⟩ := hn; cases h
    | cons e es ih =>
      rw [List.map_cons]
      unfold each
      by_cases hnull : Cell.null ∈ e.1
      · rw [hkey e List.mem_cons_self hnull]
      · have hw : Whole t e := ⟨hl e List.mem_cons_self, hnull⟩
        rw [delKey_ok (keyFields_length (declared_usable ht).2) hw]
        simp only
        rw [ih (fun x hx => hl x (List.mem_cons_of_mem _ hx)) (by
          obtain ⟨x, hx, hxn⟩ := hn
          rcases List.mem_cons.1 hx with rfl | hx
          · exact absurd hxn hnull
          · exact ⟨x, hx, hxn⟩) (fun x hx => hkey x (List.mem_cons_of_mem _ hx))]
  unfold insertDelete
  rw [show commitColumn (delFields t) = .ok (keyFields t).length from commitColumn_last (keyFields t) hd.2]
  simp only
  rw [heach]

/-- **C80.** A sidecar file in which a key column or the time is missing is an error for both readers, whatever else is in
it. -/
theorem missing_columns_are_refused (t : Table X) (b : Batch X V) (n : List Char)
    (hn : n ∈ keyNames t ∨ n = "_commit_ts".toList) (hm : ∀ f ∈ b.fields, f.core.name ≠ n) :
    queryRead t b = .error .noSuchField ∧ compactRead t b = .error .noSuchField ∧ copy t b = .error .noSuchField := by
  have hreq : n ∈ required t := by
    unfold required
    rw [List.mem_append, List.mem_singleton]
    exact hn
  have hleft : ∀ N : List (List Char), n ∈ N → (pick 0 b.fields N).2 ≠ [] := by
    intro N hN
    rw [pick_left]
    intro e
    rw [List.filter_eq_nil_iff] at e
    apply e n hN
    apply decide_eq_true
    intro h
    obtain ⟨f, hf, hfn⟩ := List.mem_map.1 h
    exact hm f hf hfn
  have hq : queryRoots t b.fields = .error .noSuchField := by
    unfold queryRoots
    rw [if_neg (hleft _ hreq)]
  have hc : compactRoots t b.fields = .error .noSuchField := by
    unfold compactRoots
    simp only
    split_ifs with h1 h2 h2
    · exact absurd h2 (hleft _ (List.mem_append_left _ hreq))
    · rfl
    · exact absurd h2 (hleft _ hreq)
    · rfl
  refine ⟨?_, ?_, ?_⟩
  · unfold queryRead; rw [hq]
  · unfold compactRead; rw [hc]
  · unfold copy; rw [hc]

/-! ## Cases -/

def fld (n : String) (ty : KeyDecl.DataType) : Fld Nat := ⟨⟨n.toList, ty, none⟩, false, 0⟩

instance : Inhabited Nat := ⟨0⟩

/-- A table of events with the key (day, user), which are its third and first column. -/
def tab : Table Nat := ⟨⟨[fld "user" .utf8, fld "n" .int64, fld "day" .uint64], none, 0⟩, [2, 0]⟩

def rows : List (List (Cell String)) :=
  [[.val "ann", .val "5", .u64 3], [.val "bob", .null, .u64 3], [.val "bob", .val "1", .u64 4]]

/-- The table can be declared, and its key columns have different names. -/
example : declare tab.schema (.indices [2, 0]) = .ok tab := by decide +kernel

example : Distinct tab := by
  unfold Distinct keyNames
  decide +kernel

/-- The keys of the last two rows. -/
example : [1, 2].map (fun i => (rows[i]?).map (rowKey tab)) =
    [[Cell.u64 3, .val "bob"], [.u64 4, .val "bob"]].map (fun k => some (k.map some)) := by decide +kernel

/-- They are deleted at time 9: the columns of the file, and what the readers find. -/
example : insertDelete tab (buildDelete tab rows [1, 2] 9) =
      .ok ([([.u64 3, .val "bob"], 9), ([.u64 4, .val "bob"], 9)],
        ⟨[fld "day" .uint64, fld "user" .utf8], [[.u64 3, .val "bob"], [.u64 4, .val "bob"]], [9, 9]⟩) ∧
    queryRead tab ⟨delFields tab, [[.u64 3, .val "bob", .u64 9], [.u64 4, .val "bob", .u64 9]]⟩ =
      .ok [([.u64 3, .val "bob"], 9), ([.u64 4, .val "bob"], 9)] ∧
    compactRead tab ⟨delFields tab, [[.u64 3, .val "bob", .u64 9], [.u64 4, .val "bob", .u64 9]]⟩ =
      .ok [⟨[.u64 3, .val "bob"], 9, 0⟩, ⟨[.u64 4, .val "bob"], 9, 1⟩] := by decide +kernel

/-- A null key. -/
example : insertDelete tab ⟨delFields tab, [[.u64 3, .val "bob", .u64 9], [.null, .val "bob", .u64 9]]⟩ = .error .null := by
  decide +kernel

/-- A file without the day. -/
example : queryRead tab ⟨[fld "user" .utf8, commitFld], [[.val "bob", .u64 9]]⟩ = .error .noSuchField := by decide +kernel

/-! ## Where it fails -/

/-- A table with two columns called `id`, both in the key; Arrow allows such a schema, and so does Tonbo. -/
def twins : Table Nat := ⟨⟨[fld "id" .uint64, fld "id" .uint64, fld "v" .int64], none, 0⟩, [0, 1]⟩

/-- **C80 fails** when two key columns have the same name: the deletion of the key (1, 2) at time 9 gets into memory and
into a file. Then every query of this file fails, and a compaction takes the time for the second part of the key:
it reads a deletion of the key (1, 9). -/
theorem columns_of_one_name_lose_deletions :
    declare twins.schema (.indices [0, 1]) = .ok twins ∧
    insertDelete twins (buildDelete twins [[.u64 1, .u64 2, .val "x"]] [0] 9) =
      .ok ([([.u64 1, .u64 2], 9)], held (keyFields twins) [([.u64 1, .u64 2], 9)]) ∧
    ∃ file : Batch Nat String, toBatch (held (keyFields twins) [([.u64 1, .u64 2], 9)]) = .ok file ∧
      queryRead twins file = .error .mismatch ∧
      compactRead twins file = .ok [⟨[.u64 1, .u64 9], 9, 0⟩] := by
  refine ⟨by decide +kernel, by decide +kernel, ⟨delFields twins, [[.u64 1, .u64 2, .u64 9]]⟩, ?_, ?_, ?_⟩ <;>
    decide +kernel

/-- A table whose key is a column called `_commit_ts`. -/
def own : Table Nat := ⟨⟨[fld "_commit_ts" .uint64, fld "v" .int64], none, 0⟩, [0]⟩

/-- **C80 fails** when a key column is called `_commit_ts` (C63): its value is taken for the time. The key 100 deleted at
time 9 is deleted at time 100, in memory and in files. -/
theorem own_column_is_the_time_of_a_deletion :
    declare own.schema (.indices [0]) = .ok own ∧
    (∃ kept, insertDelete own (buildDelete own [[.u64 100, .val "x"]] [0] 9) = .ok ([([.u64 100], 100)], kept)) ∧
    ∃ file : Batch Nat String, toBatch (held (keyFields own) [([.u64 100], 9)]) = .ok file ∧
      compactRead own file = .ok [⟨[.u64 100], 100, 0⟩] := by
  refine ⟨by decide +kernel, ⟨⟨keyFields own, [[.u64 9]], [100]⟩, by decide +kernel⟩,
    ⟨delFields own, [[.u64 100, .u64 9]]⟩, ?_, ?_⟩ <;> decide +kernel

/-- With a key column `_sequence` ties are decided by its value. -/
example : compactRead (⟨⟨[fld "_sequence" .uint64], none, 0⟩, [0]⟩ : Table Nat)
    (⟨[fld "_sequence" .uint64, commitFld], [[.u64 7, .u64 9], [.u64 8, .u64 9]]⟩ : Batch Nat String) =
      .ok [⟨[.u64 7], 9, 7⟩, ⟨[.u64 8], 9, 8⟩] := by decide +kernel

end Tonbo.Props.C80
