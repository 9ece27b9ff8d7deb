import Verif.Spec.TreeKey
/-!
# Specification of packet objects of the bindings
-/
namespace Verif.Spec
open Verif Verif.Pkt

/-- `q` are the bytes of a correct packet with this content. -/
structure Holds (C : Crypto) (q : NetPkt) (c : Content) : Prop where
  valid : c.Valid
  sealed : c.Sealed C
  point : q.point = c.layout
  header : q.netHeader.length = 32
  hash32 : q.hash.length = 32
  hash : q.hash = C.hash c.layout

/-- The link fields of a content that has them. -/
def Content.link? : Content → Option LinkContent
  | .link c => some c
  | .key c _ _ => some c
  | _ => none
/-- Public key and signature. -/
def Content.keys? : Content → Option (Bytes × Bytes)
  | .key _ pk sig => some (pk, sig)
  | _ => none
/-- The data of any content. -/
def Content.payload : Content → Bytes
  | .data b => b
  | .error b => b
  | .link c => c.data
  | .key c _ _ => c.data

/-- How a packet is sorted: a point of the tree by its tuple, any other packet by its hash. -/
inductive SortKey
  | tree (t : TreeTuple)
  | hash (h : Bytes)
def SortKey.Before : SortKey → SortKey → Prop
  | .tree a, .tree b => a.KeyLt b ∨ (a.KeyEq b ∧ a.ValLt b)
  | .tree _, .hash _ => True
  | .hash _, .tree _ => False
  | .hash a, .hash b => BytesBefore a b
/-- The key of a packet with this hash and content. -/
def SortsBy (hash : Bytes) (c : Content) : SortKey → Prop
  | .tree t => ∃ l, c.link? = some l ∧ WellRooted l.rspace t.space ∧ t.group = l.group ∧ t.domain = l.domain ∧ t.create = l.stamp ∧ t.hash = hash ∧
      t.pubkey = (c.keys?.map (·.1)).getD (List.replicate 32 0)
  | .hash h => c.link? = none ∧ h = hash

/-- `out` is what a loop over an iterator with the step `next` gives that is started in state `i` and left in state `j`: steps until there is nothing. -/
inductive Loop {σ α ε : Type} (next : σ → Except ε (Option α × σ)) : σ → List α → σ → Prop
  | stop {i j} : next i = .ok (none, j) → Loop next i [] j
  | step {i j k a out} : next i = .ok (some a, j) → Loop next j out k → Loop next i (a :: out) k

/-- The value last assigned to an attribute. -/
def lastAssigned {κ α : Type} [DecidableEq κ] (k : κ) (es : List (κ × α)) : Option α := ((es.filter (fun e => e.1 = k)).getLast?).map (·.2)

end Verif.Spec
