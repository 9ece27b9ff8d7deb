import Verif.Model.Packet
/-!
# Specification of points

What a point is for a user (`Content`), which contents are allowed (`Content.Valid`) and the one byte string
that stands for a content (`Content.layout`).  Written down from the packet documentation, without the
builder, segment or reader functions of the model.
-/
namespace Verif.Spec
open Verif Verif.Pkt

/-- The user visible fields shared by link points and key points. -/
structure LinkContent where
  group : Bytes
  domain : Bytes
  stamp : Nat
  links : List Link
  rspace : Bytes
  data : Bytes
deriving DecidableEq, Repr

inductive Content where
  | data (b : Bytes)
  | error (b : Bytes)
  | link (c : LinkContent)
  | key (c : LinkContent) (pubkey signature : Bytes)
deriving DecidableEq, Repr

def LinksSized (ls : List Link) : Prop := ∀ l ∈ ls, l.tag.length = 16 ∧ l.ptr.length = 32

/-- Fields have their fixed sizes and the space is one the code accepts (see C12 for which those are). -/
structure LinkContent.Sized (c : LinkContent) : Prop where
  group : c.group.length = 32
  domain : c.domain.length = 16
  stamp : c.stamp < 2 ^ 64
  links : LinksSized c.links
  rspace : Rooted.checkComponents c.rspace = .ok ()

/-- Bytes used by the link fields. -/
def LinkContent.len (c : LinkContent) : Nat := 64 + 48 * c.links.length + c.rspace.length + c.data.length

/-- Size of the point without its padding. -/
def Content.size : Content → Nat
  | .data b => 4 + b.length
  | .error b => 4 + b.length
  | .link c => c.len
  | .key c _ _ => c.len + 96

def Content.type : Content → UInt8
  | .data _ => 1
  | .error _ => 128
  | .link _ => 3
  | .key _ _ _ => 7

/-- An allowed content: sized fields and at most 65024 bytes. -/
def Content.Valid (c : Content) : Prop :=
  c.size ≤ 65024 ∧
  match c with
  | .data _ => True
  | .error _ => True
  | .link c => c.Sized
  | .key c pk sig => c.Sized ∧ pk.length = 32 ∧ sig.length = 64

/-- Number of bytes that bring `n` to a multiple of eight. -/
def padTo8 (n : Nat) : Nat := (8 - n % 8) % 8

def linkBytes (ls : List Link) : Bytes := (ls.map fun l => l.tag ++ l.ptr).flatten

def LinkContent.layout (c : LinkContent) : Bytes :=
  beBytes 2 (64 + 48 * c.links.length) ++ beBytes 2 (64 + 48 * c.links.length + c.rspace.length)
    ++ beBytes 8 c.stamp ++ c.group ++ c.domain ++ linkBytes c.links ++ c.rspace ++ c.data

def Content.head (c : Content) : Bytes := [0, c.type] ++ beBytes 2 c.size

def Content.middle : Content → Bytes
  | .data b => b
  | .error b => b
  | .link c => c.layout
  | .key c _ _ => c.layout

/-- The part of a key point that is signed, and everything of any other point. -/
def Content.unsigned (c : Content) : Bytes := c.head ++ c.middle ++ List.replicate (padTo8 c.size) 255

def Content.seal : Content → Bytes
  | .key _ pk sig => pk ++ sig
  | _ => []

/-- The bytes of a point. -/
def Content.layout (c : Content) : Bytes := c.unsigned ++ c.seal

/-- What the accessors of a point with this content return. -/
def Content.fields : Content → Fields
  | .data b => .data b
  | .error b => .error b
  | .link c => .link ⟨64 + 48 * c.links.length, 64 + 48 * c.links.length + c.rspace.length, c.stamp, c.group, c.domain⟩
      ⟨c.links, c.data, c.rspace⟩
  | .key c pk sig => .key ⟨64 + 48 * c.links.length, 64 + 48 * c.links.length + c.rspace.length, c.stamp, c.group, c.domain⟩
      ⟨c.links, c.data, c.rspace⟩ ⟨pk, sig⟩

def Content.parts (c : Content) : Parts := ⟨⟨0, c.type, c.size⟩, c.fields⟩

/-- The signature of a key point is valid for its signed part. -/
def Content.Sealed (C : Crypto) (c : Content) : Prop :=
  match c with
  | .key _ pk sig => C.verify pk sig (C.hash c.unsigned) = true
  | _ => True

/-- Group of a content, if it has one. -/
def Content.group? : Content → Option Bytes
  | .link c => some c.group
  | .key c _ _ => some c.group
  | _ => none

/-- The group of 32 zero bytes, reserved for points that stay local. -/
def zeroGroup : Bytes := List.replicate 32 0

/-- Packets the point builders return: the functions of `crates/pkt/src/builder.rs` called with fields of the
sizes their types prescribe and a 32 byte routing header. -/
inductive Built (C : Crypto) (p : NetParts) : Prop
  | data (data nh : Bytes) (hn : nh.length = 32) (h : tryDatapoint C data nh = .ok p)
  | error (msg nh : Bytes) (hn : nh.length = 32) (h : errorpoint C msg nh = .ok p)
  | point (group domain rspace data nh : Bytes) (links : List Link) (stamp : Nat) (key : Option C.Key)
      (hn : nh.length = 32) (hg : group.length = 32) (hd : domain.length = 16) (hs : stamp < 2 ^ 64)
      (hl : LinksSized links) (h : tryPoint C group domain rspace links data stamp key nh = .ok p)

/-- A buffer that starts with a complete point header of type data or error that declares a point shorter
than its own header, and has all declared bytes. -/
def ShortPoint (b : Bytes) : Prop :=
  68 ≤ b.length ∧ b[64]? = some 0 ∧ (b[65]? = some 1 ∨ b[65]? = some 128) ∧
    beNat ((b.drop 66).take 2) < 4 ∧ (beNat ((b.drop 66).take 2) = 0 ∨ 72 ≤ b.length)

/-- A complete link or key point whose header and offsets are fine but whose space bytes are not a space. -/
def BadSpacePoint (b : Bytes) : Prop :=
  let size := beNat ((b.drop 66).take 2)
  let r := beNat ((b.drop 68).take 2)
  let d := beNat ((b.drop 70).take 2)
  let fin := if b[65]? = some 7 then size - 96 else size
  68 ≤ b.length ∧ b[64]? = some 0 ∧ size ≤ 65024 ∧ 64 + (size + padTo8 size) ≤ b.length ∧
    ((b[65]? = some 3 ∧ 64 ≤ size) ∨ (b[65]? = some 7 ∧ 160 ≤ size)) ∧
    64 ≤ r ∧ (r - 64) % 48 = 0 ∧ r ≤ d ∧ d ≤ fin ∧
    Rooted.checkComponents (((b.drop 64).drop r).take (d - r)) ≠ .ok ()

/-- A toy instance of the cryptographic functions, to show the assumptions are satisfiable. -/
def toyCrypto : Crypto where
  hash b := (b.reverse ++ List.replicate 32 0).take 32
  Key := UInt8
  pubkey k := List.replicate 32 k
  sign k h := List.replicate 32 k ++ (h ++ List.replicate 32 0).take 32
  verify pk sig h := sig == pk ++ (h ++ List.replicate 32 0).take 32

theorem toyCrypto_laws : toyCrypto.Laws where
  hash_len b := by
    show ((b.reverse ++ List.replicate 32 0).take 32).length = 32
    rw [List.length_take, List.length_append, List.length_replicate]; omega
  pub_len k := List.length_replicate
  sign_len (k : UInt8) h := by
    show (List.replicate 32 (k : UInt8) ++ (h ++ List.replicate 32 0).take 32).length = 64
    rw [List.length_append, List.length_take, List.length_append, List.length_replicate,
      List.length_replicate]; omega
  verify_sign k h := beq_self_eq_true _

end Verif.Spec
