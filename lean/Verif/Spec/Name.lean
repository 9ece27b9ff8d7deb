import Verif.Spec.Space
import Verif.Spec.Handshake
/-!
# Specification of names
-/
namespace Verif.Spec
open Verif Verif.Pkt

/-- The components of a name, most specific first: one to seven of them, none empty or above 200 bytes, and together (with a byte for
each) at most 234 bytes. -/
structure GoodName (comps : List Bytes) : Prop where
  some : comps ≠ []
  few : comps.length ≤ 7
  each : ∀ c ∈ comps, 1 ≤ c.length ∧ c.length ≤ 200
  size : (comps.map fun c => c.length + 1).sum ≤ 234

/-- A name in the group of the machine itself: its last component is `local`. -/
def IsLocal (comps : List Bytes) : Prop := comps.getLast? = Option.some (ascii "local")

/-- The group claims of a name are made in. -/
def GroupOf (comps : List Bytes) (g : Bytes) : Prop :=
  (IsLocal comps → g = List.replicate 32 0) ∧ (¬ IsLocal comps → g = [
    98, 187, 59, 139, 61, 213, 206, 117, 225, 250, 136, 47, 225, 163, 58, 217, 89, 140, 55, 21,
    197, 137, 62, 15, 219, 139, 72, 125, 92, 253, 177, 57])

/-- A claim of a name: a link point without a key, in the domain `lns` and the group of the name, at `claims` followed by the components of
the name in reverse, with at least one link. -/
structure IsClaim (c : Content) (comps : List Bytes) (lc : LinkContent) : Prop where
  point : c = .link lc
  name : GoodName comps
  domain : lc.domain = List.replicate 13 0 ++ ascii "lns"
  group : GroupOf comps lc.group
  space : lc.rspace.drop 8 = encodeSpace (ascii "claims" :: comps.reverse)
  links : lc.links ≠ []

end Verif.Spec
