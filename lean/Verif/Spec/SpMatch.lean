import Verif.Model.SpMatch
import Verif.Spec.Space
/-!
# Specification of space patterns
-/
namespace Verif.Spec
open Verif Verif.Space

/-- The components are those of the elements, one for each and in order; the values are what the typed ones convert to. -/
inductive Fits {V : Type} : List (PatElem V) → List Bytes → List V → Prop
  | nil : Fits [] [] []
  | is {es cs vs} (b : Bytes) : Fits es cs vs → Fits (.is b :: es) (b :: cs) vs
  | take {es cs vs} {conv : Bytes → Option V} {c : Bytes} {v : V} : conv c = some v → Fits es cs vs → Fits (.take conv :: es) (c :: cs) (v :: vs)

/-- `vs` and `rest` are the result of the pattern on the space of these components. -/
def Matches {V : Type} (es : List (PatElem V)) (dots : Bool) (cs : List Bytes) (vs : List V) (rest : Option Bytes) : Prop :=
  ∃ front back, cs = front ++ back ∧ Fits es front vs ∧ (match dots with | true => rest = some (encodeSpace back) | false => back = [] ∧ rest = none)

end Verif.Spec
