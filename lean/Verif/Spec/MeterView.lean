import Verif.Model.Meter
import Verif.Model.MergeStream

/-!
# Limits on what is kept in memory
-/

namespace Tonbo.Spec
open Tonbo.Model Tonbo.Model.Mem Tonbo.Model.Policy

/-- The policy contains the limit `l`, possibly among others. -/
inductive HasLimit : SealPolicy → SealPolicy → Prop
  | self {l} : HasLimit l l
  | anyOf {ps p l} : p ∈ ps → HasLimit p l → HasLimit (.anyOf ps) l

/-- What a byte limit is about: each key once, with the size of the key and 32 bytes. -/
def footprint {K R : Type} (size : K → Nat) (out : List (Entry K R)) : Nat :=
  (out.map (fun e => size e.kt.key + 32)).sum

/-- The call is a direct write, not a commit, and there is something to write. -/
def DirectWrite {K R : Type} : Tonbo.Model.Meter.Op K R → Prop
  | .ingest _ _ => True
  | .ingestTomb ups dels _ => ups ≠ none ∨ dels ≠ none
  | .commit _ _ _ => False

/-- The call is the commit of a transaction. -/
def IsCommit {K R : Type} : Tonbo.Model.Meter.Op K R → Prop
  | .commit _ _ _ => True
  | _ => False

/-- The timestamp of a call. -/
def opTs {K R : Type} : Tonbo.Model.Meter.Op K R → Nat
  | .ingest _ ts | .ingestTomb _ _ ts | .commit _ _ ts => ts

/-- The timestamp of a payload of the log. -/
def payloadTs {K R : Type} : Tonbo.Model.Meter.Payload K R → Nat
  | .up _ ts | .del _ ts => ts

end Tonbo.Spec
