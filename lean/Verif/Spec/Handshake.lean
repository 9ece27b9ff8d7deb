import Verif.Spec.Packet
import Verif.Model.Abtxt
/-!
# Specification of the handshake

Written against the contents of packets, without the functions of the model.
-/
namespace Verif.Spec
open Verif Verif.Pkt

/-- Both clocks differ by less than `s` seconds; stamps are microseconds. -/
def Near (s a b : Nat) : Prop := a < b + s * 1000000 ∧ b < a + s * 1000000

/-- The packet has this content, and is what a reader accepts (C02): its hash is the hash of the content and its signature, if any,
is valid. -/
structure WellMade (C : Crypto) (p : NetParts) (c : Content) : Prop where
  valid : c.Valid
  sig : c.Sealed C
  hash : p.hash = C.hash c.layout
  parts : p.parts = c.parts

/-- The group of two keys: byte for byte the exclusive or. -/
def IsPair (g a b : Bytes) : Prop := g.length = 32 ∧ ∀ (i : Nat) (x y : UInt8), a[i]? = some x → b[i]? = some y → g[i]? = some (x ^^^ y)

/-- A message of the handshake between `me` and `you` that names `h`. -/
structure Names (c : LinkContent) (me you h : Bytes) : Prop where
  domain : c.domain = List.replicate 6 0 ++ 0xff :: ascii "handshake"
  space : c.rspace = [1, 9, 9, 9, 9, 9, 9, 9, 8] ++ ascii "sentinal"
  group : IsPair c.group me you
  link : ∃ l ∈ c.links, l.ptr = h

end Verif.Spec
