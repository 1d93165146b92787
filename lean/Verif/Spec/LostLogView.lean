import Verif.Model.LostLog
import Verif.Spec.DurableView

/-!
# Tables that were flushed, and writes that are only logged
-/

namespace Tonbo.Spec.LostLog
open Tonbo.Model Tonbo.Model.Lsm Tonbo.Model.Durable

variable {A K R : Type} [LinearOrder K]

/-- Everything is in tables: there is nothing in memory. -/
def AllFlushed (s : Sys A K R) : Prop := s.db.runs.runs = [] ∧ s.db.runs.mem.index = []

/-- What happens between a flush and the next one, without transactions: writes begin and advance, alone or side by
side, are dropped, the log goes on in new segments, the memory is frozen. -/
def Ordinary : Durable.Op K R → Prop
  | .write mode _ _ => mode = .plain ∨ mode = .tomb
  | .advance _ | .cancel _ | .rotate | .freeze => True
  | _ => False

end Tonbo.Spec.LostLog
