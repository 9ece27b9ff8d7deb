import Verif.Spec.Packet
import Verif.Spec.Space
/-!
# Specification of the tree order

The documented tuple `(group, domain, space depth, spacename, pubkey, create stamp, hash)`.
-/
namespace Verif.Spec
open Verif Verif.Pkt

/-- The tuple of a point. -/
structure TreeTuple where
  group : Bytes
  domain : Bytes
  space : List Bytes
  pubkey : Bytes
  create : Nat
  hash : Bytes
deriving DecidableEq, Repr

/-- Lexicographic order of tuples, each component compared by its own order. -/
def LexLt : List (Prop × Prop) → Prop
  | [] => False
  | (lt, eq) :: rest => lt ∨ (eq ∧ LexLt rest)

/-- One byte string before another: they share a beginning, then the first ends or has the smaller byte. -/
def BytesBefore (a b : Bytes) : Prop :=
  (∃ x t, b = a ++ x :: t) ∨ (∃ p x y s t, a = p ++ x :: s ∧ b = p ++ y :: t ∧ x < y)

/-- Order of the points under the first five fields. -/
def TreeTuple.KeyLt (a b : TreeTuple) : Prop :=
  LexLt [(BytesBefore a.group b.group, a.group = b.group), (BytesBefore a.domain b.domain, a.domain = b.domain),
    (a.space.length < b.space.length, a.space.length = b.space.length),
    (BytesBefore (encodeSpace a.space) (encodeSpace b.space), a.space = b.space),
    (BytesBefore a.pubkey b.pubkey, a.pubkey = b.pubkey)]
def TreeTuple.KeyEq (a b : TreeTuple) : Prop :=
  a.group = b.group ∧ a.domain = b.domain ∧ a.space = b.space ∧ a.pubkey = b.pubkey
/-- Order of the entries of one key. -/
def TreeTuple.ValLt (a b : TreeTuple) : Prop :=
  LexLt [(a.create < b.create, a.create = b.create), (BytesBefore a.hash b.hash, a.hash = b.hash)]

/-- A rooted space whose depth byte is its number of components. -/
structure WellRooted (rspace : Bytes) (cs : List Bytes) : Prop where
  space : IsSpace (encodeSpace cs) cs
  depth : cs.length ≤ 8
  form : rspace = rootedOf cs ∨ rspace = rootedWith (UInt8.ofNat cs.length) cs

/-- `p` is a packet with this content: what building and reading produce (C01, C02). -/
structure IsPacket (p : NetParts) (c : Content) : Prop where
  parts : p.parts = c.parts
  valid : c.Valid
  hash : p.hash.length = 32
  header : p.netHeader.length = 32

/-- `p` is a link or key point with this tuple. -/
def HasTuple (p : NetParts) (t : TreeTuple) : Prop :=
  ∃ c : LinkContent, WellRooted c.rspace t.space ∧ t.group = c.group ∧ t.domain = c.domain ∧ t.create = c.stamp ∧
    t.hash = p.hash ∧
    ((IsPacket p (.link c) ∧ t.pubkey = List.replicate 32 0) ∨ ∃ sig, IsPacket p (.key c t.pubkey sig))

end Verif.Spec
