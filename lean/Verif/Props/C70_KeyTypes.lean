import Verif.Model.KeySer
import Verif.Lemmas.Runs
import Verif.Props.C45_KeyOrder

/-!
# C70: every type that is accepted for a key column works
-/

namespace Tonbo.Props.C70
open Tonbo.Model Tonbo.Model.Keys Tonbo.Model.KeySer Tonbo.Model.Mem Tonbo.Spec Tonbo.Lemmas.Mem

/-- The key fits the types of the key columns. -/
def KeyFits (tys : List KeyDecl.DataType) (k : List XCell) : Prop :=
  List.Forall₂ (fun t c => cellFits t c = true) tys k

theorem type_known {t : KeyDecl.DataType} {c : XCell} (h : cellFits t c = true) (hu : t ≠ .union) :
    (cellDataType c).isSome = true := by
  cases c with
  | plain c =>
    cases c with
    | int i v => cases i <;> rfl
    | _ => rfl
  | union a b => cases t <;> simp_all [cellFits]
  | list => cases t <;> simp [cellFits] at h
  | fixedList => cases t <;> simp [cellFits] at h
  | map => cases t <;> simp [cellFits] at h

theorem fields_some {cs : List XCell} (h : ∀ c ∈ cs, (cellDataType c).isSome = true) :
    ∀ i, ∃ fs, fieldsFrom i cs = some fs ∧ fs.map (·.2) = cs.filterMap cellDataType := by
  induction cs with
  | nil => exact fun i => ⟨[], rfl, rfl⟩
  | cons c cs ih =>
    intro i
    obtain ⟨t, ht⟩ := Option.isSome_iff_exists.1 (h c List.mem_cons_self)
    obtain ⟨fs, h1, h2⟩ := ih (fun c hc => h c (List.mem_cons_of_mem _ hc)) (i + 1)
    exact ⟨("k" ++ toString i, t) :: fs, by simp [fieldsFrom, ht, h1], by simp [ht, h2]⟩

/-- **Keys survive the manifest.** For key columns of every accepted type but unions: a key can be written,
and if the format reads back the cells it wrote, the key read back has the same components, each with the
type of its cell. -/
theorem keys_survive_the_manifest_partial {J : Type} (f : Format J) (tys : List KeyDecl.DataType)
    (hu : ∀ t ∈ tys, t ≠ .union) (k : List XCell) (hk : KeyFits tys k)
    (hf : ∀ c ∈ k, f.dec (f.enc c) = some c) :
    ∃ js fields, serialize f (k.map some) = some js ∧ deserialize f js = some (fields, k.map some) ∧
      fields.map (fun p => some p.2) = k.map cellDataType := by
  have hkn : ∀ c ∈ k, (cellDataType c).isSome = true := by
    clear hf
    induction hk with
    | nil => simp
    | cons h _ ih =>
      intro c hc
      rcases List.mem_cons.1 hc with rfl | hc
      · exact type_known h (hu _ List.mem_cons_self)
      · exact ih (fun t ht => hu t (List.mem_cons_of_mem _ ht)) c hc
  have hs : serialize f (k.map some) = some (k.map f.enc) := by
    clear hf hk
    induction k with
    | nil => rfl
    | cons c k ih =>
      obtain ⟨t, ht⟩ := Option.isSome_iff_exists.1 (hkn c List.mem_cons_self)
      simp [serialize, ht, ih (fun c hc => hkn c (List.mem_cons_of_mem _ hc))]
  have hv : visitSeq f (k.map f.enc) = some k := by
    clear hs hkn hk
    induction k with
    | nil => rfl
    | cons c k ih =>
      simp [visitSeq, hf c List.mem_cons_self, ih (fun c hc => hf c (List.mem_cons_of_mem _ hc))]
  obtain ⟨fs, h1, h2⟩ := fields_some hkn 0
  refine ⟨_, fs, hs, by simp [deserialize, hv, h1], ?_⟩
  have : fs.map (fun p => some p.2) = (fs.map (·.2)).map some := by simp
  rw [this, h2]
  clear hs hv h1 h2 hf hk
  induction k with
  | nil => rfl
  | cons c k ih =>
    obtain ⟨t, ht⟩ := Option.isSome_iff_exists.1 (hkn c List.mem_cons_self)
    simp only [List.filterMap_cons, ht, List.map_cons, ih (fun c hc => hkn c (List.mem_cons_of_mem _ hc))]

/-- Only keys without nulls and with cells of known types are written. -/
theorem what_is_written {J : Type} (f : Format J) (k : List (Option XCell)) :
    (serialize f k).isSome = true ↔ ∀ c ∈ k, ∃ x, c = some x ∧ (cellDataType x).isSome = true := by
  induction k with
  | nil => simp [serialize]
  | cons c k ih =>
    cases c with
    | none => simp [serialize]
    | some x =>
      cases hx : cellDataType x with
      | none => simp [serialize, hx]
      | some t => simp [serialize, hx, ih]

/-! ## Different keys are kept apart -/

/-- No component is a NaN. -/
def NanFree (k : List XCell) : Prop := ∀ v, (.plain (.f64 v) ∈ k ∨ .plain (.f32 v) ∈ k) → v.isNan = false

theorem plain_of_fits {tys : List KeyDecl.DataType} (hu : ∀ t ∈ tys, t ≠ .union) {k : List XCell} (hk : KeyFits tys k)
    (hn : NanFree k) : ∃ a : List Cell, k = a.map .plain ∧ Lemmas.Keys.GoodKey a := by
  induction hk with
  | nil => exact ⟨[], rfl, fun c hc => by cases hc⟩
  | @cons t c tys k h _ ih =>
    obtain ⟨a, rfl, ha⟩ := ih (fun t ht => hu t (List.mem_cons_of_mem _ ht))
      (fun v hv => hn v (hv.imp (List.mem_cons_of_mem _) (List.mem_cons_of_mem _)))
    cases c with
    | plain c =>
      refine ⟨c :: a, rfl, fun d hd => ?_⟩
      rcases List.mem_cons.1 hd with rfl | hd
      · cases d with
        | int i v => cases i <;> first | rfl | (cases t <;> simp [cellFits] at h)
        | f32 v => exact hn v (.inr List.mem_cons_self)
        | f64 v => exact hn v (.inl List.mem_cons_self)
        | _ => trivial
      · exact ha d hd
    | union x y => cases t <;> simp_all [cellFits]
    | _ => cases t <;> simp [cellFits] at h

theorem sameTypes_of_fits {tys : List KeyDecl.DataType} {a b : List Cell} (ha : KeyFits tys (a.map .plain))
    (hb : KeyFits tys (b.map .plain)) : List.Forall₂ SameType a b := by
  induction tys generalizing a b with
  | nil =>
    cases a with
    | cons x a => cases ha
    | nil =>
      cases b with
      | nil => exact .nil
      | cons y b => cases hb
  | cons t tys ih =>
    cases a with
    | nil => cases ha
    | cons x a =>
      cases b with
      | nil => cases hb
      | cons y b =>
        cases ha with
        | cons h1 h2 =>
          cases hb with
          | cons h3 h4 =>
            refine .cons ?_ (ih h2 h4)
            cases t <;> cases x <;> simp [cellFits] at h1 <;> cases y <;> simp [cellFits] at h3 <;>
              first
              | trivial
              | (rename_i i v j w
                 cases i <;> simp [cellFits] at h1 <;> cases j <;> simp [cellFits] at h3 <;> rfl)

theorem xrowCmp_plain : ∀ a b : List Cell, xrowCmp (a.map .plain) (b.map .plain) = rowCmp a b
  | [], [] => rfl
  | [], _ :: _ => rfl
  | _ :: _, [] => rfl
  | x :: a, y :: b => by
    simp only [List.map_cons, xrowCmp, rowCmp, xcmp, xrowCmp_plain a b]
    cases cellCmp x y <;> rfl

theorem xrowEq_plain : ∀ a b : List Cell, xrowEq (a.map .plain) (b.map .plain) = rowEq a b
  | [], [] => rfl
  | [], _ :: _ => rfl
  | _ :: _, [] => rfl
  | x :: a, y :: b => by simp only [List.map_cons, xrowEq, rowEq, xeq, xrowEq_plain a b]

/-- **Different keys are kept apart.** For key columns of every accepted type but unions and keys without NaN: keys
compare as their values do, component by component, and they are equal if and only if all values are the same. -/
theorem keys_are_kept_apart_partial (tys : List KeyDecl.DataType) (hu : ∀ t ∈ tys, t ≠ .union) (k l : List XCell)
    (hk : KeyFits tys k) (hl : KeyFits tys l) (nk : NanFree k) (nl : NanFree l) :
    ∃ a b : List Cell, k = a.map .plain ∧ l = b.map .plain ∧
      (xrowCmp k l = .lt ↔ KeyLt a b) ∧ (xrowCmp k l = .eq ↔ KeySame a b) ∧ (xrowCmp k l = .gt ↔ KeyLt b a) ∧
      (xrowEq k l = true ↔ KeySame a b) := by
  obtain ⟨a, rfl, ha⟩ := plain_of_fits hu hk nk
  obtain ⟨b, rfl, hb⟩ := plain_of_fits hu hl nl
  obtain ⟨h1, h2, h3⟩ := C45.key_order_is_value_order_partial a b ha hb (sameTypes_of_fits hk hl)
  refine ⟨a, b, rfl, rfl, ?_⟩
  rw [xrowCmp_plain, xrowEq_plain, C45.equal_iff_compares_equal_partial a b ha hb]
  exact ⟨h1, h2, h3, h2⟩

/-- A key whose first components are those of another, shorter one comes after it. -/
theorem longer_keys_come_after (a : List Cell) (ha : Lemmas.Keys.GoodKey a) (c : XCell) (x : List XCell) :
    xrowCmp (a.map .plain) (a.map .plain ++ c :: x) = .lt ∧ xrowCmp (a.map .plain ++ c :: x) (a.map .plain) = .gt ∧
      xrowEq (a.map .plain) (a.map .plain ++ c :: x) = false := by
  induction a with
  | nil => exact ⟨rfl, rfl, rfl⟩
  | cons y a ih =>
    have hy := (Lemmas.Keys.rowCmp_eq (k := [y]) (l := [y]) (by simpa [Lemmas.Keys.GoodKey] using ha y List.mem_cons_self)
      (by simpa [Lemmas.Keys.GoodKey] using ha y List.mem_cons_self)).2 rfl
    have hy : cellCmp y y = .eq := by
      simp only [rowCmp] at hy
      split at hy
      · assumption
      · assumption
    obtain ⟨h1, h2, h3⟩ := ih (fun c hc => ha c (List.mem_cons_of_mem _ hc))
    simp only [List.map_cons, List.cons_append, xrowCmp, xrowEq, xcmp, hy, h1, h2, h3, Bool.and_false, and_self]

/-- A union and a component of another type are never one key. -/
theorem unions_differ_from_other_cells (t : Nat) (v c : Cell) :
    xcmp (.union t v) (.plain c) ≠ .eq ∧ xcmp (.plain c) (.union t v) ≠ .eq := by
  cases c with
  | int i w => cases i <;> simp [xcmp, xtag, tag, Num.cmpNat]
  | _ => simp [xcmp, xtag, tag, Num.cmpNat]

/-- Two keys of a string and a number. -/
example : KeyFits [.utf8, .int64] [.plain (.str ['a']), .plain (.int .i64 42)] ∧
    KeyFits [.utf8, .int64] [.plain (.str ['a']), .plain (.int .i64 7)] ∧
    NanFree [.plain (.str ['a']), .plain (.int .i64 42)] ∧
    xrowCmp [.plain (.str ['a']), .plain (.int .i64 42)] [.plain (.str ['a']), .plain (.int .i64 7)] = .gt :=
  ⟨.cons rfl (.cons rfl .nil), .cons rfl (.cons rfl .nil), fun v h => by simp at h, by decide⟩

/-! ## Unions -/

/-- A schema with one union column is accepted as a key. -/
theorem union_keys_are_accepted (s : KeyDecl.Schema) (i : Nat) (f : KeyDecl.Field) (hf : s.fields[i]? = some f)
    (hu : f.type = .union) : KeyDecl.configFor s [i] = .ok ⟨s, [i]⟩ := by
  simp [KeyDecl.configFor, KeyDecl.checkTypes, hf, hu, KeyDecl.supported]

/-- **Unions are not compared**: two keys that differ in union columns only compare as equal. -/
theorem unions_are_not_compared (pre post : List XCell) (t u : Nat) (v w : Cell) (x : List XCell) :
    xrowCmp (pre ++ .union t v :: post) x = xrowCmp (pre ++ .union u w :: post) x := by
  induction pre generalizing x with
  | nil =>
    cases x with
    | nil => rfl
    | cons y x => cases y <;> rfl
  | cons a pre ih =>
    cases x with
    | nil => rfl
    | cons y x => simp only [List.cons_append, xrowCmp, ih]

/-- ... and they are never equal, not even to themselves. -/
theorem a_union_key_is_not_equal_to_itself (t : Nat) (v : Cell) (k : List XCell) :
    xrowEq (.union t v :: k) (.union t v :: k) = false ∧ xrowCmp [.union t v] [.union t v] = .eq := ⟨rfl, rfl⟩

/-- So all keys of a table with a union as its key are one key. -/
theorem one_key (k l : List XCell) (hk : KeyFits [.union] k) (hl : KeyFits [.union] l) : xrowCmp k l = .eq := by
  cases hk with
  | cons h1 h2 =>
    cases h2
    cases hl with
    | cons h3 h4 =>
      cases h4
      rename_i a b
      cases a <;> simp [cellFits] at h1
      cases b <;> simp [cellFits] at h3
      rfl

/-- **A table with a union as its key shows at most one row**, whatever was written to its memory table: the
index is ordered by comparison, under which there is one key. -/
theorem a_union_table_shows_one_row {R : Type} (cap : Nat) (calls : List (Mem.Op Unit R)) (t : Runs Unit R)
    (h : Runs.calls (fun _ => some ()) (Runs.new cap) calls = (true, t)) (rts : Nat) :
    ∃ out, scan t.mem none rts = some out ∧ out.length ≤ 1 := by
  obtain ⟨logs, cur, _, hr, _⟩ := calls_ok calls (Runs.new cap) t [] [] .nil (rep_new _ cap) h
  obtain ⟨out, h1, h2, _⟩ := rep_scan_all hr rts
  refine ⟨out, h1, ?_⟩
  match out, h2 with
  | [], _ => simp
  | [_], _ => simp
  | a :: b :: _, h2 =>
    simp only [List.map_cons, List.pairwise_cons] at h2
    exact absurd (h2.1 (toVer b) (by simp)) (lt_irrefl _)

/-- Two rows with different union keys, both written with success; only the second is there. -/
example :
    (Runs.calls (K := Unit) (fun _ => some ()) (Runs.new 4) [.put [("a", 1)], .put [("b", 2)]]).1 = true ∧
    scan (Runs.calls (K := Unit) (fun _ => some ()) (Runs.new 4) [.put [("a", 1)], .put [("b", 2)]]).2.mem none 9 =
      some [.row ⟨(), 2⟩ "b"] := by decide +kernel

/-- **A union key cannot be written to the manifest**: publishing a table file with such a smallest or
largest key fails. -/
theorem union_keys_are_not_written {J : Type} (f : Format J) (k : List XCell) (t : Nat) (v : Cell)
    (h : XCell.union t v ∈ k) : serialize f (k.map some) = none := by
  cases hs : serialize f (k.map some) with
  | none => rfl
  | some js =>
    have := (what_is_written f (k.map some)).1 (by rw [hs]; rfl) (some (.union t v)) (List.mem_map_of_mem h)
    obtain ⟨x, h1, h2⟩ := this
    cases h1
    simp [cellDataType] at h2

/-! ## JSON -/

/-- JSON reads back all keys whose floats are finite. -/
theorem json_reads_finite_keys (c : XCell)
    (h : ∀ v, (c = .plain (.f64 v) ∨ c = .plain (.f32 v)) → v.isNan = false ∧ v.isInf = false) :
    json.dec (json.enc c) = some c := by
  cases c with
  | plain c =>
    cases c with
    | f64 v => have := h v (.inl rfl); simp [json, this.1, this.2]
    | f32 v => have := h v (.inr rfl); simp [json, this.1, this.2]
    | _ => rfl
  | _ => rfl

/-- **An infinite or NaN key component makes the record unreadable**, if the manifest is kept in JSON: the key
is written without an error and cannot be read. -/
theorem infinite_keys_are_not_read_back (k : List XCell) (hk : ∀ c ∈ k, (cellDataType c).isSome = true)
    (v : Num.F64) (hv : v.isNan = true ∨ v.isInf = true) (hm : .plain (.f64 v) ∈ k ∨ .plain (.f32 v) ∈ k) :
    ∃ js, serialize json (k.map some) = some js ∧ deserialize json js = none := by
  have hs : ∀ k : List XCell, (∀ c ∈ k, (cellDataType c).isSome = true) →
      serialize json (k.map some) = some (k.map json.enc) := by
    intro k hk
    induction k with
    | nil => rfl
    | cons c k ih =>
      obtain ⟨t, ht⟩ := Option.isSome_iff_exists.1 (hk c List.mem_cons_self)
      simp [serialize, ht, ih (fun c hc => hk c (List.mem_cons_of_mem _ hc))]
  refine ⟨_, hs k hk, ?_⟩
  have hb : v.isNan || v.isInf := by rcases hv with h | h <;> simp [h]
  have hd : ∃ c ∈ k, json.dec (json.enc c) = none := by
    rcases hm with h | h
    · exact ⟨_, h, by simp only [json, hb, if_true]⟩
    · exact ⟨_, h, by simp only [json, hb, if_true]⟩
  have hvs : visitSeq json (k.map json.enc) = none := by
    clear hk hm
    induction k with
    | nil => obtain ⟨c, hc, _⟩ := hd; simp at hc
    | cons c k ih =>
      simp only [List.map_cons, visitSeq]
      cases hc : json.dec (json.enc c) with
      | none => rfl
      | some y =>
        obtain ⟨c', h1, h2⟩ := hd
        rcases List.mem_cons.1 h1 with rfl | h1
        · rw [hc] at h2; cases h2
        · simp [ih ⟨c', h1, h2⟩]
  simp [deserialize, hvs]

/-- A key of a string and a number: written and read back, with the fields `k0` and `k1`. -/
example : KeyFits [.utf8, .int64] [.plain (.str ['a']), .plain (.int .i64 42)] ∧
    ∃ js, serialize json [some (.plain (.str ['a'])), some (.plain (.int .i64 42))] = some js ∧
      deserialize json js = some ([("k0", "Utf8"), ("k1", "Int64")],
        [some (.plain (.str ['a'])), some (.plain (.int .i64 42))]) :=
  ⟨.cons rfl (.cons rfl .nil), _, rfl, rfl⟩

/-- Positive infinity. -/
example : (⟨0x7FF0000000000000⟩ : Num.F64).isInf = true := by decide

end Tonbo.Props.C70
