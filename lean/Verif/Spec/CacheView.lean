import Verif.Model.Cache

/-!
# What a cache with first-in first-out eviction holds

Independent of the map and the queue of the code: a function of the insertions made.
-/

namespace Tonbo.Spec.CacheView

variable {K V : Type} [DecidableEq K]

/-- The keys held after inserting `k` into a cache for `max` keys: nothing changes if it is held already,
otherwise it joins the end, and the oldest ones leave if there are too many. -/
def letIn (max : Nat) (held : List K) (k : K) : List K :=
  if k ∈ held then held else (held ++ [k]).drop ((held ++ [k]).length - max)

/-- The keys held after a history of insertions, oldest first. -/
def held (max : Nat) (history : List (K × V)) : List K :=
  (history.map (·.1)).foldl (letIn max) []

/-- The value inserted last for a key. -/
def lastValue (history : List (K × V)) (k : K) : Option V :=
  (history.reverse.find? (fun p => decide (p.1 = k))).map (·.2)

/-- What a cache answers. -/
def answer (max : Nat) (history : List (K × V)) (k : K) : Option V :=
  if k ∈ held max history then lastValue history k else none

end Tonbo.Spec.CacheView
