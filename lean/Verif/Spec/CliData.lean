import Verif.Spec.Packet
import Verif.Spec.Space
import Verif.Model.CliData
/-!
# Data cut into blocks, records and points
-/
namespace Verif.Spec
open Verif Verif.Pkt Verif.Pred Verif.Rd

/-- Asking a reader again and again, each time for at most the next number of bytes: the blocks it gives, and how it
ends. -/
def blocks (ev : Bytes → PRes Bytes) : Reader → List Nat → List Bytes × Ending
  | _, [] => ([], .running)
  | r, f :: fs =>
    match readNext ev r f [] with
    | .error e => ([], .stop e)
    | .ok (false, _, _) => ([], .ended)
    | .ok (true, r', d) => (d :: (blocks ev r' fs).1, (blocks ev r' fs).2)

/-- The blocks are no longer than asked for. -/
inductive Within : List Bytes → List Nat → Prop
  | nil {fs} : Within [] fs
  | cons {d f ds fs} : d.length ≤ f → Within ds fs → Within (d :: ds) (f :: fs)

/-- The text is made of these records: each ends with the delimiter, the last may also end with the text. -/
inductive Records (d : UInt8) : Bytes → List Bytes → Prop
  | nil : Records d [] []
  | last {w} : w ≠ [] → d ∉ w → Records d w [w]
  | cons {w s ws} : d ∉ w → Records d s ws → Records d (w ++ d :: s) (w :: ws)

/-- The records fit into what is read at once, and their values into what was asked for. -/
inductive Values (ev : Bytes → PRes Bytes) (most : Option Nat) : List Bytes → List Nat → List Bytes → Prop
  | nil : Values ev most [] [] []
  | cons {w f v ws fs vs} : w.length ≤ most.getD f → ev w = .ok v → v.length ≤ f → Values ev most ws fs vs →
      Values ev most (w :: ws) (f :: fs) (v :: vs)

/-- What is asked for is positive, and more is only read if it may be split. -/
def Asked (r : Reader) (fs : List Nat) : Prop :=
  ∀ f ∈ fs, 0 < f ∧ 0 < r.takeMax.getD f ∧ (r.onOverflow = .split ∨ r.takeMax.getD f ≤ f)

/-- How the records are evaluated. -/
def recordValue (ev : Bytes → PRes Bytes) (r : Reader) : Bytes → PRes Bytes := if r.eval then ev else .ok

/-- Values of records. -/
inductive Mapped (ev : Bytes → PRes Bytes) (most : Nat) : List Bytes → List Bytes → Prop
  | nil : Mapped ev most [] []
  | cons {w v ws vs} : w.length ≤ most → ev w = .ok v → Mapped ev most ws vs → Mapped ev most (w :: ws) (v :: vs)

/-- The point with these fields, signed with the key if there is one. -/
def IsPoint (C : Crypto) (nh : Bytes) (c : LinkContent) (key : Option C.Key) (p : NetParts) : Prop :=
  ∃ ct : Content, ct.Valid ∧ ct.Sealed C ∧ p = ⟨nh, C.hash ct.layout, ct.parts⟩ ∧
    (key = none → ct = .link c) ∧ ∀ k, key = some k → ∃ sig, ct = .key c (C.pubkey k) sig

/-- The link of `--multi-link` to the point with this hash. -/
def linkTo {C : Crypto} (c : PointCmd C) (i : Nat) (ptr : Bytes) : List Link := (c.tag.map fun t => (⟨t i, ptr⟩ : Link)).toList

/-- Points with these data: the first has the links `ls`, each later one those of the command and one to the point
before. -/
inductive Chained {C : Crypto} (nh : Bytes) (c : PointCmd C) : Nat → List Link → List Bytes → List NetParts → Prop
  | nil {i ls} : Chained nh c i ls [] []
  | cons {i ls d ds p ps} : IsPoint C nh ⟨c.group, c.domain, c.stamp i, ls, c.rspace, d⟩ c.key p →
      Chained nh c (i + 1) (c.links ++ linkTo c (i + 1) p.hash) ds ps → Chained nh c i ls (d :: ds) (p :: ps)

/-- The fields have the sizes of their types. -/
structure CmdSized {C : Crypto} (c : PointCmd C) (cs : List Bytes) : Prop where
  group : c.group.length = 32
  domain : c.domain.length = 16
  stamp : ∀ i, c.stamp i < 2 ^ 64
  links : LinksSized c.links
  tag : ∀ t, c.tag = some t → ∀ i, (t i).length = 16
  space : IsSpace (encodeSpace cs) cs
  eight : cs.length ≤ 8
  rspace : c.rspace = rootedOf cs

/-- Bytes left for data: the point has 65024, of which 64 are headers, 48 each link and 96 a signature. -/
def freeFor {C : Crypto} (c : PointCmd C) (links : Nat) : Nat :=
  65024 - (64 + 48 * links + c.rspace.length + if c.key.isSome then 96 else 0)

/-- The number of links of a later point. -/
def laterLinks {C : Crypto} (c : PointCmd C) : Nat := c.links.length + if c.tag.isSome then 1 else 0

/-- What the command takes for the free space: 60 too much for a signed point (see C04). -/
def askedFor {C : Crypto} (c : PointCmd C) (links : Nat) : Nat := freeFor c links + if c.key.isSome then 60 else 0

/-- The headers fit. -/
def Room {C : Crypto} (c : PointCmd C) (links : Nat) : Prop :=
  64 + 48 * links + c.rspace.length + (if c.key.isSome then 96 else 0) ≤ 65024

/-- The free space the command asks for: first for the first point, then for the later ones. -/
def asks {C : Crypto} (c : PointCmd C) (n : Nat) : List Nat :=
  askedFor c c.links.length :: List.replicate n (askedFor c (laterLinks c))

end Verif.Spec
