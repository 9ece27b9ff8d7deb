import Verif.Model.Wrap
import Verif.Spec.PyPkt
/-!
# The packet that a wrapped packet is
-/
namespace Verif.Spec
open Verif Verif.Pkt

/-- How many of the segments of a built packet are needed: those up to the last that has a byte. -/
def placesOf : Content → Nat
  | .data b => if padTo8 (4 + b.length) = 0 then 3 else 4
  | .error b => if padTo8 (4 + b.length) = 0 then 3 else 4
  | .link c =>
    if padTo8 c.len ≠ 0 then 7
    else if c.data ≠ [] then 6
    else if c.rspace ≠ [] then 5
    else if c.links ≠ [] then 4
    else 3
  | .key _ _ _ => 8

/-- `w` is a wrapped form of the correct packet `q`; `n` counts the places of the packet inside and the headers put around it. -/
inductive Wraps (C : Crypto) : Wrap → NetPkt → Nat → Prop
  | ptr {q : NetPkt} {c : Content} : Holds C q c → Wraps C (.ptr q) q 1
  | fat {q : NetPkt} {c : Content} : Holds C q c → Wraps C (.fat q) q 1
  | arc {q : NetPkt} {c : Content} : Holds C q c → Wraps C (.arc q) q 1
  | parts {nh h : Bytes} {c : Content} : Holds C ⟨nh, h, c.layout⟩ c → Wraps C (.parts ⟨nh, h, c.parts⟩) ⟨nh, h, c.layout⟩ (placesOf c)
  | route {w : Wrap} {q : NetPkt} {n : Nat} {h : Bytes} : h.length = 32 → Wraps C w q n → Wraps C (.route h w) { q with netHeader := h } (n + 1)
  | recv {w : Wrap} {q : NetPkt} {n : Nat} (t : Nat) : Wraps C w q n → Wraps C (.recv t w) q n
  | share {w : Wrap} {q : NetPkt} {n : Nat} {a : Option NetPkt} : (a = none ∨ a = some q) → Wraps C w q n → Wraps C (.share a w) q n

end Verif.Spec
