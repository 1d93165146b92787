import Mathlib.Order.Defs.LinearOrder

/-!
# What a multi-version table means

A history is a collection of versions. A version says: at commit timestamp `ts` the key `key` was
set to a value or deleted. Nothing in this file refers to how tonbo stores versions.
-/

namespace Tonbo.Spec

/-- A mutation of one key. -/
inductive Mut (V : Type) where
  | put (v : V)
  | del
deriving Repr, DecidableEq

/-- One version of one key. -/
structure Ver (K V : Type) where
  key : K
  ts : Nat
  op : Mut V
deriving Repr, DecidableEq

/-- `w` is the newest version of its key that is not newer than `rts`, among the versions `H`. -/
def Newest {K V : Type} (H : Ver K V → Prop) (rts : Nat) (w : Ver K V) : Prop :=
  H w ∧ w.ts ≤ rts ∧ ∀ u, H u → u.key = w.key → u.ts ≤ rts → u.ts ≤ w.ts

/-- A reader at `rts` sees value `v` for key `k`: the newest version of `k` not newer than `rts`
is the upsert of `v`. -/
def Visible {K V : Type} (H : Ver K V → Prop) (rts : Nat) (k : K) (v : V) : Prop :=
  ∃ t, Newest H rts ⟨k, t, .put v⟩

/-- No two versions of the same key carry the same timestamp but different mutations. -/
def Functional {K V : Type} (H : Ver K V → Prop) : Prop :=
  ∀ a b, H a → H b → a.key = b.key → a.ts = b.ts → a.op = b.op

/-- `out` is the answer of a full scan at `rts`: strictly ascending keys and exactly the visible
rows. -/
def IsScan {K V : Type} [LT K] (H : Ver K V → Prop) (rts : Nat) (out : List (K × V)) : Prop :=
  out.Pairwise (fun a b => a.1 < b.1) ∧ ∀ k v, (k, v) ∈ out ↔ Visible H rts k v

/-- Same, restricted to keys satisfying `inRange`. -/
def IsRangeScan {K V : Type} [LT K] (H : Ver K V → Prop) (rts : Nat) (inRange : K → Prop)
    (out : List (K × V)) : Prop :=
  out.Pairwise (fun a b => a.1 < b.1) ∧
    ∀ k v, (k, v) ∈ out ↔ (inRange k ∧ Visible H rts k v)

/-- The answer of a scan that also reports deletions: for every key that has a version not newer
than `rts`, exactly its newest such version. -/
def IsVersionScan {K V : Type} [LT K] (H : Ver K V → Prop) (rts : Nat) (inRange : K → Prop)
    (out : List (Ver K V)) : Prop :=
  out.Pairwise (fun a b => a.key < b.key) ∧
    ∀ w, w ∈ out ↔ (inRange w.key ∧ Newest H rts w)

/-- A log of writes, oldest first. Writing the same key at the same timestamp twice keeps the
later write: `LastWrite log w` says `w` occurs in the log and no later write has its key and
timestamp. -/
def LastWrite {K V : Type} (log : List (Ver K V)) (w : Ver K V) : Prop :=
  ∃ pre post, log = pre ++ w :: post ∧ ∀ u ∈ post, ¬ (u.key = w.key ∧ u.ts = w.ts)

end Tonbo.Spec
