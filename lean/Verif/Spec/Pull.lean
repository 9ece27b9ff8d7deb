import Verif.Spec.Predicates
import Verif.Spec.TreeKey
/-!
# Pull requests
-/
namespace Verif.Spec
open Verif Verif.Pkt Verif.Pred

/-- The comparisons of a field (`=`, `<`, `>`, not the masks) among the statements leave exactly the value `n`. -/
def Pins (rs : List Stmt) (f : VF) (n : Nat) : Prop :=
  ∀ m, m < 2 ^ f.width →
    ((∀ r ∈ rs, r.kind = .field f → r.op = .equal ∨ r.op = .less ∨ r.op = .greater → ∃ v, ValueIs f r.val v ∧ Allows r.op m v) ↔ m = n)

/-- The place of a pull request: `/pull/<group>/<domain>/<id>`. -/
def pullSpace (g d i : Bytes) : List Bytes := [ascii "pull", g, d, i]

/-- An unsigned point made at `now` in the private group and the domain of exchanges, in the place for `g`, `d` and `i`, without links,
with this text. -/
def PullRequest (p : NetParts) (g d i text : Bytes) (now : Nat) : Prop :=
  ∃ c : LinkContent, IsPacket p (.link c) ∧ c.group = zeroGroup ∧ c.domain = List.replicate 8 255 ++ ascii "exchange" ∧
    WellRooted c.rspace (pullSpace g d i) ∧ c.links = [] ∧ c.data = text ∧ c.stamp = now

/-- What an exchange process for the group `g` watches: the domain of exchanges, the private group and the prefix `/pull/g`. -/
def exchangeWatch (g : Bytes) : List Stmt :=
  [⟨.field .domain, .equal, [(none, List.replicate 8 255 ++ ascii "exchange")]⟩, ⟨.field .group, .equal, [(none, zeroGroup)]⟩,
    ⟨.pre, .equal, [(some .fslash, ascii "pull"), (some .fslash, g)]⟩]

end Verif.Spec
