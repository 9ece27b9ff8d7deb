import Verif.Spec.TestSet
import Verif.Spec.TreeKey
import Verif.Spec.Base64
import Verif.Model.Predicates
/-!
# What the statements of a query say

A statement `field:op:value` is about what a packet shows: numbers for the fields and a list of components for the
space.  Nothing here refers to predicate sets or to the compiled tests.
-/
namespace Verif.Spec
open Verif Verif.Pkt Verif.Pred Verif.Abl

/-- What a packet shows.  A field it does not have counts as zero. -/
structure Seen where
  num : VF → Nat
  space : Option (List Bytes)

/-- The number a statement value stands for.  Values are plain bytes of the size of the field; a domain may be
shorter, and hash, group and key may be given in base64. -/
def ValueIs (f : VF) (val : ABList) (n : Nat) : Prop :=
  ∃ b, (val = [(none, b)] ∨ (val = [] ∧ b = [])) ∧
    match f with
    | .domain => b.length ≤ 16 ∧ n = beNat b
    | .hash | .group | .pubkey => ∃ x : Bytes, x.length = 32 ∧ n = beNat x ∧ (b = x ∨ Base64 b64UrlSafe b x)
    | f => b.length = f.bytes ∧ n = beNat b

/-- The components a statement value stands for: the bytes of the space, or up to eight parts after slashes of which
the empty ones do not count; in both forms an empty part may be in front. -/
def SpaceIs (val : ABList) (cs : List Bytes) : Prop :=
  IsSpace (encodeSpace cs) cs ∧
    ∃ l, (val = l ∨ ∃ c, c ≠ some .fslash ∧ val = (c, []) :: l) ∧
      (l = [(none, encodeSpace cs)] ∨
        (∃ bs : List Bytes, l = bs.map (fun b => (some .fslash, b)) ∧ cs = bs.filter (fun b => !b.isEmpty) ∧ cs.length ≤ 8))

/-- The packet has the point type bits `m`. -/
def HasType (x : Seen) (m : Nat) : Prop := Allows .mask1 (x.num .type) m

/-- The point type bits of the packets that have a field: 4 for keypoints, 2 for points with links, 1 for all points. -/
def needs : VF → Nat
  | .pubkey => 4
  | .group | .domain | .create | .depth | .linksLen => 2
  | .type | .netflags | .hop | .stamp | .ubits _ | .hash | .size | .dataSize => 1

/-- The packet satisfies the statement.  A field statement is also about the kind of point the field belongs to.
The receive time and the counters are not of the packet. -/
def Sat (r : Stmt) (x : Seen) : Prop :=
  match r.kind with
  | .field f => HasType x (needs f) ∧ ∃ n, ValueIs f r.val n ∧ Allows r.op (x.num f) n
  | .spacename => HasType x 2 ∧ ∃ cs, SpaceIs r.val cs ∧ x.space = some cs
  | .pre => ∃ cs, SpaceIs r.val cs ∧ (cs = [] ∨ ∃ xs, x.space = some xs ∧ cs <+: xs)
  | .recv => True
  | .limit _ => True
  | .todo _ => False

/-- The moment satisfies the statement: the receive time and the counters.  A statement that fixes the hash asks for
the first packet of the query only. -/
def SatWhen (r : Stmt) (recv : Nat) (count : QScope → Nat) : Prop :=
  match r.kind with
  | .field f => f = .hash → r.op = .equal → count .query = 0
  | .recv => ∃ b, b.length = 8 ∧ r.val = [(none, b)] ∧ Allows r.op recv (beNat b)
  | .limit q => ∃ b, b.length = 4 ∧ r.val = [(none, b)] ∧ Allows r.op (count q) (beNat b)
  | _ => True

/-- Statements about spaces name at most eight components and compare for equality; the receive time is not compared
with masks. -/
structure Plain (r : Stmt) : Prop where
  short : (r.kind = .spacename ∨ r.kind = .pre) → ∀ cs, SpaceIs r.val cs → cs.length ≤ 8
  equal : (r.kind = .spacename ∨ r.kind = .pre) → r.op = .equal
  recv : r.kind = .recv → r.op ≠ .mask0 ∧ r.op ≠ .mask1

/-- What a packet with this content shows; `cs` are the components of its space. -/
def seenOf (header hash : Bytes) (c : Content) (cs : List Bytes) : Seen where
  num := fun f =>
    match f with
    | .type => c.type.toNat
    | .netflags => (header.getD 3 0).toNat
    | .hop => beNat ((header.drop 4).take 4)
    | .stamp => beNat ((header.drop 8).take 8)
    | .ubits i => beNat ((header.drop (16 + 4 * i.val)).take 4)
    | .hash => beNat hash
    | .size => 64 + c.size + padTo8 c.size
    | .dataSize => match c with
      | .data b => b.length
      | .error b => b.length
      | .link l => l.data.length
      | .key l _ _ => l.data.length
    | .group => match c with
      | .link l => beNat l.group
      | .key l _ _ => beNat l.group
      | _ => 0
    | .domain => match c with
      | .link l => beNat l.domain
      | .key l _ _ => beNat l.domain
      | _ => 0
    | .create => match c with
      | .link l => l.stamp
      | .key l _ _ => l.stamp
      | _ => 0
    | .linksLen => match c with
      | .link l => l.links.length
      | .key l _ _ => l.links.length
      | _ => 0
    | .depth => match c with
      | .link _ => cs.length
      | .key _ _ _ => cs.length
      | _ => 0
    | .pubkey => match c with
      | .key _ pk _ => beNat pk
      | _ => 0
  space := match c with
    | .link _ => some cs
    | .key _ _ _ => some cs
    | _ => none

/-- `p` is a packet that shows `x`: its content is allowed and, if it has a space, the depth byte of the space is the
number of components (C12 has what happens otherwise). -/
def Shows (p : NetParts) (x : Seen) : Prop :=
  ∃ c cs, IsPacket p c ∧ x = seenOf p.netHeader p.hash c cs ∧
    match c with
    | .link l => WellRooted l.rspace cs
    | .key l _ _ => WellRooted l.rspace cs
    | _ => True

end Verif.Spec
