import Verif.Spec.SstView
import Verif.Spec.MemView
import Verif.Spec.Pred
import Verif.Spec.Bounds
import Verif.Model.ScanPlan

/-!
# What is taken for granted about files, keys and foreign crates when a store is scanned
-/

namespace Tonbo.Spec
open Tonbo.Model Tonbo.Model.Mem Tonbo.Model.Pred Tonbo.Model.Keys Tonbo.Model.Bounds Tonbo.Model.Plan

variable {K : Type} [LinearOrder K]

/-- The statistics of a file enclose its keys and timestamps. -/
def StatsEnclose (t : Sst K) : Prop :=
  ∀ kt, ((∃ r, (kt, r) ∈ t.file.data) ∨ kt ∈ t.file.dels) →
    (∀ mn, t.minKey = some mn → mn ≤ kt.key) ∧ (∀ mx, t.maxKey = some mx → kt.key ≤ mx) ∧
    ∀ lo, t.minTs = some lo → lo ≤ kt.ts

/-- The rows read from a file are rows of the file, in order, and include every visible row that
satisfies the predicate. -/
def SelectsMatches (schema : Schema) (p : Expr) (rts : Nat) (data sel : List (KT K × Row)) : Prop :=
  sel.Sublist data ∧
    sel.filter (fun e => decide (meaning (envOf schema e.2) p = .t) && decide (e.1.ts ≤ rts)) =
      data.filter (fun e => decide (meaning (envOf schema e.2) p = .t) && decide (e.1.ts ≤ rts))

/-- The history a store stands for: the writes still in memory and the versions in its files. -/
def History (log : List (Ver K Row)) (levels : List (List (Sst K))) (w : Ver K Row) : Prop :=
  w ∈ log ∨ ∃ f ∈ levels.flatten, FileVersions f.file w

/-- A row of key `k` written at `t`, in memory or in a file. -/
def RowAt (log : List (Ver K Row)) (levels : List (List (Sst K))) (k : K) (t : Nat) (r : Row) : Prop :=
  ⟨k, t, .put r⟩ ∈ log ∨ ∃ f ∈ levels.flatten, (⟨k, t⟩, r) ∈ f.file.data

/-- `out` is the answer of a filtered scan: the visible rows of which `p` is true, by ascending key. -/
def IsFilteredScan (H : Ver K Row → Prop) (schema : Schema) (p : Expr) (rts : Nat)
    (out : List (K × Row)) : Prop :=
  out.Pairwise (fun a b => a.1 < b.1) ∧
    ∀ k r, (k, r) ∈ out ↔ Visible H rts k r ∧ meaning (envOf schema r) p = .t

/-- The first `n` elements, or all. -/
def upTo {α : Type} (limit : Option Nat) (l : List α) : List α :=
  match limit with
  | none => l
  | some n => l.take n

end Tonbo.Spec
