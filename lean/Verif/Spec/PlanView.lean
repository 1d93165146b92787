import Verif.Model.Planner

/-!
# What a well-formed compaction plan is

In terms of the version it was planned from: which tables are listed on which level, their sizes and
their smallest and largest keys.
-/

namespace Tonbo.Spec
open Tonbo.Model.Manifest Tonbo.Model.Planner

variable {K : Type}

/-- The version lists the table `e` on the level and with the identifier of `i`. -/
def Listed (v : Version (Info K)) (i : Input) (e : Entry (Info K)) : Prop :=
  e ∈ v.ssts.getD i.level [] ∧ e.id = i.id

/-- Smallest key according to the statistics. -/
def loKey (e : Entry (Info K)) : Option K := e.info.stats.bind (·.minKey)

/-- Largest key according to the statistics. -/
def hiKey (e : Entry (Info K)) : Option K := e.info.stats.bind (·.maxKey)

/-- Size according to the statistics. -/
def sizeOf' (e : Entry (Info K)) : Nat := (e.info.stats.map (·.bytes)).getD 0

/-- All tables of a level together. -/
def levelSize (v : Version (Info K)) (l : Nat) : Nat := ((v.ssts.getD l []).map sizeOf').sum

/-- A cap that is set and reached. -/
def Reached (cap : Option Nat) (n : Nat) : Prop := ∃ c, cap = some c ∧ c ≤ n

/-- The level is over its limits: level 0 at its trigger, the others above their threshold, or the
bytes at their cap. A level without configured threshold is never over. -/
def OverLimit (cfg : PCfg) (v : Version (Info K)) (l : Nat) : Prop :=
  if l = 0 then cfg.l0Trigger ≤ (v.ssts.getD 0 []).length ∨ Reached cfg.l0MaxBytes (levelSize v 0)
  else ∃ limit, cfg.thresholds[l - 1]? = some limit ∧
    (limit < (v.ssts.getD l []).length ∨ Reached (cfg.maxBytes.getD (l - 1) none) (levelSize v l))

/-- A well-formed plan for a version. `src` are the tables taken from the source level, `more` those
from the next one. -/
structure PlanOk [LE K] (cfg : PCfg) (v : Version (Info K)) (t : PTask K) (src more : List (Entry (Info K))) :
    Prop where
  input : t.input = src.map (fun e => ⟨t.source, e.id⟩) ++ more.map (fun e => ⟨t.source + 1, e.id⟩)
  target : t.target = t.source + 1
  /-- at least one table of the source level -/
  nonempty : src ≠ []
  /-- all inputs are listed where the plan says -/
  srcListed : ∀ e ∈ src, e ∈ v.ssts.getD t.source []
  moreListed : ∀ e ∈ more, e ∈ v.ssts.getD (t.source + 1) []
  /-- none twice -/
  once : t.input.Nodup
  /-- limits, of which only a single table may exceed the second -/
  count : src.length ≤ max 1 (if t.source = 0 then cfg.l0MaxInputs else cfg.maxInputs)
  bytes : ∀ cap, cfg.maxTaskBytes = some cap → src.length = 1 ∨ (src.map sizeOf').sum ≤ cap
  /-- the tables with the smallest keys, if the keys are known -/
  lowest : (∀ e ∈ v.ssts.getD t.source [], loKey e ≠ none) → ∀ a ∈ src, ∀ e ∈ v.ssts.getD t.source [],
    e ∉ src → ∀ x y, loKey a = some x → loKey e = some y → x ≤ y
  /-- from level 1 on: every table of the next level that overlaps the keys of the selected ones -/
  overlap : 1 ≤ t.source → (∀ a ∈ src, a.info.stats ≠ none) →
    ∀ a ∈ src, ∀ b ∈ src, ∀ e ∈ v.ssts.getD (t.source + 1) [], ∀ lo hi x y,
      loKey a = some lo → hiKey b = some hi → loKey e = some x → hiKey e = some y →
      x ≤ hi → lo ≤ y → e ∈ more
  /-- and no other table -/
  only : ∀ e ∈ more, 1 ≤ t.source ∧ ∃ a ∈ src, ∃ b ∈ src, ∃ lo hi x y,
      loKey a = some lo ∧ hiKey b = some hi ∧ loKey e = some x ∧ hiKey e = some y ∧ x ≤ hi ∧ lo ≤ y
  /-- the key range of the plan covers all its inputs -/
  range : ∀ lo hi, t.range = some (lo, hi) → ∀ e ∈ src ++ more,
      (∀ x, loKey e = some x → lo ≤ x) ∧ ∀ y, hiKey e = some y → y ≤ hi

end Tonbo.Spec
