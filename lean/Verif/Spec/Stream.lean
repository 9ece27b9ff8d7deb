import Verif.Model.Bytes
/-!
# Specification of the stream helpers
-/
namespace Verif.Spec
open Verif

/-- A stream of packets seen as linked points with the datapoints before each, and the datapoints at the end.  `Forwards prev s o` says
what is forwarded of `s` after a point that links to `prev`: of the datapoints before the next point those linked by
the last one at once, then those linked only by the next one, then that point. -/
inductive Forwards {P : Type} (hash : P → Bytes) (links : P → Option (List Bytes)) : List Bytes → List P → List P → Prop
  | stop {prev ds} : (∀ d ∈ ds, links d = none) → Forwards hash links prev ds (ds.filter fun d => hash d ∈ prev)
  | point {prev ds p ls s o} : (∀ d ∈ ds, links d = none) → links p = some ls → Forwards hash links ls s o →
      Forwards hash links prev (ds ++ p :: s)
        ((ds.filter fun d => hash d ∈ prev) ++ (ds.filter fun d => hash d ∉ prev ∧ hash d ∈ ls) ++ p :: o)

end Verif.Spec
