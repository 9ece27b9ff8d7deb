import Verif.Spec.Predicates
import Verif.Spec.TreeKey
/-!
# Status requests and replies
-/
namespace Verif.Spec
open Verif Verif.Pkt Verif.Pred

/-- The place of requests and replies about the group `g`, a type and an instance: `/\xffstatus/<group>/<type>(/<instance>)`. -/
def statusPlace (g t : Bytes) (i : Option Bytes) : List Bytes := [255 :: ascii "status", g, t] ++ i.toList

/-- The types and instances for which there is a place. -/
def StatusFits (t : Bytes) (i : Option Bytes) : Prop :=
  1 ≤ t.length ∧ (match i with | none => t.length ≤ 200 | some i => 1 ≤ i.length ∧ t.length + i.length ≤ 199)

/-- `p` is a link or key point with these fields in the space `cs`. -/
def PointAt (p : NetParts) (c : LinkContent) (cs : List Bytes) : Prop :=
  (IsPacket p (.link c) ∨ ∃ k s, IsPacket p (.key c k s)) ∧ WellRooted c.rspace cs

/-- A request: an unsigned point made at `now` in the private group, without links and data. -/
def StatusRequest (p : NetParts) (d g t : Bytes) (i : Option Bytes) (now : Nat) : Prop :=
  ∃ c, IsPacket p (.link c) ∧ WellRooted c.rspace (statusPlace g t i) ∧ c = ⟨zeroGroup, d, now, [], c.rspace, []⟩

/-- `p` is a point about this type, and this instance if one is given, that was made after a time. -/
def StatusAbout (p : NetParts) (d g t : Bytes) (i : Option Bytes) (after : Nat) (c : LinkContent) : Prop :=
  ∃ cs, PointAt p c cs ∧ c.group = zeroGroup ∧ c.domain = d ∧ after < c.stamp ∧ statusPlace g t i <+: cs

/-- A reply to requests about this type and instance: a point in the place of the instance with some links and some data. -/
def StatusReply (p : NetParts) (d g t i : Bytes) (c : LinkContent) : Prop :=
  PointAt p c (statusPlace g t (some i)) ∧ c.group = zeroGroup ∧ c.domain = d ∧ c.links ≠ [] ∧ c.data ≠ []

/-- `p` asks for a reply of the instance `i`: a point without links and data in the place of the type, of the instance, or below an instance. -/
def StatusAsks (p : NetParts) (g t i : Bytes) : Prop :=
  ∃ c cs, PointAt p c cs ∧ c.links = [] ∧ c.data = [] ∧
    (cs = statusPlace g t none ∨ cs = statusPlace g t (some i) ∨ (statusPlace g t none <+: cs ∧ 4 < cs.length))

/-- Each packet of the list has a link with this tag to the one before it; the first has one to `prev`. -/
def LinkedBack (tag : Bytes) : Bytes → List NetParts → Prop
  | _, [] => True
  | prev, p :: ps => ⟨tag, prev⟩ ∈ p.getLinks ∧ LinkedBack tag p.hash ps

end Verif.Spec
