import Verif.Model.View
/-!
# Keys and values of the tree index (`crates/pkt/src/netpkt/tree_order.rs`, `crates/pkt/src/netpkt/cmp.rs`)
-/
namespace Verif.Tree
open Verif Verif.Pkt

/-- `TreeKey::from_fields`, `crates/pkt/src/netpkt/tree_order.rs:25-39`. -/
def keyOfFields (group domain : Bytes) (depth : UInt8) (space : Bytes) (key : Option Bytes) : Bytes :=
  group ++ domain ++ [depth] ++ space ++ key.getD (zeros 32)

/-- `TreeValue`, `crates/pkt/src/netpkt/tree_order.rs:42-50`. -/
structure TreeValue where
  create : Nat
  hash : Bytes
  logptr : Nat
  linksLen : Nat
  dataSize : Nat
deriving DecidableEq, Repr

/-- `TreeValue::from_pkt`, `crates/pkt/src/netpkt/tree_order.rs:52-60` (the casts to `u16` wrap). -/
def TreeValue.fromPkt (logptr : Nat) (p : NetParts) : TreeValue :=
  ⟨p.getCreate, p.hash, logptr, p.getLinks.length % 65536, p.data.length % 65536⟩
/-- `into_bytes`, 61-63: the packed struct of big-endian numbers. -/
def TreeValue.bytes (v : TreeValue) : Bytes :=
  beBytes 8 v.create ++ v.hash ++ beBytes 8 v.logptr ++ beBytes 2 v.linksLen ++ beBytes 2 v.dataSize
/-- `TreeEntry::val`, 104-107. -/
def TreeValue.ofBytes (b : Bytes) : TreeValue :=
  ⟨beNat (b.take 8), (b.drop 8).take 32, beNat ((b.drop 40).take 8), beNat ((b.drop 48).take 2), beNat ((b.drop 50).take 2)⟩

/-- `TreeEntry`, 18-22. -/
structure TreeEntry where
  key : Bytes
  val : Bytes
deriving DecidableEq, Repr

/-- `TreeEntry::from_pkt`, 67-75; data points have no entry. -/
def TreeEntry.fromPkt (logptr : Nat) (p : NetParts) : Option TreeEntry :=
  match p.parts.fields.commonIdx with
  | none => none
  | some (h, rspace, key) =>
    some ⟨keyOfFields h.group h.domain (rspace.headD 0) (spaceOf rspace) key, (TreeValue.fromPkt logptr p).bytes⟩

/-- The derived `PartialOrd` of `TreeEntry`, 18: key first, then value. -/
def TreeEntry.cmp (a b : TreeEntry) : Ordering :=
  if bytesLt a.key b.key then .lt else if bytesLt b.key a.key then .gt
  else if bytesLt a.val b.val then .lt else if bytesLt b.val a.val then .gt else .eq

/-- `KeyFixedHead` and `fixed_head`, 128-132 and 162-164. -/
def keyGroup (k : Bytes) : Bytes := k.take 32
def keyDomain (k : Bytes) : Bytes := (k.drop 32).take 16
def keyDepth (k : Bytes) : UInt8 := (k.drop 48).headD 0
/-- `pop_key`, 152-156. -/
def keyPubkey (k : Bytes) : Bytes := k.drop (k.length - 32)
/-- `space_and_key`, 157-161. -/
def keySpace (k : Bytes) : Bytes := (k.take (k.length - 32)).drop 49

/-- `Ord for PktCmp`, `crates/pkt/src/netpkt/cmp.rs:25-33`: `Ok` (an entry) sorts before `Err` (the hash). -/
def pktCmp (p q : NetParts) : Ordering :=
  match TreeEntry.fromPkt 0 p, TreeEntry.fromPkt 0 q with
  | some a, some b => a.cmp b
  | some _, none => .lt
  | none, some _ => .gt
  | none, none => if bytesLt p.hash q.hash then .lt else if bytesLt q.hash p.hash then .gt else .eq
/-- `PartialEq for PktCmp`, `crates/pkt/src/netpkt/cmp.rs:19-23`. -/
def pktEq (p q : NetParts) : Bool := p.hash == q.hash

end Verif.Tree
