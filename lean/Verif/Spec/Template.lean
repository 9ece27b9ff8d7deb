import Verif.Spec.Packet
import Verif.Spec.Space
import Verif.Spec.Eval
/-!
# What a packet expression means

The fields of a packet by name, from its content; templates of text, fields and rows for links, and what they are to
print.  Nothing of the scopes of the model is used here.
-/
namespace Verif.Spec
open Verif Verif.Pkt Verif.Abe Verif.Abtxt Verif.Num Verif.Fit Verif.Eval

/-- The components of the space of a content. -/
def Content.HasSpace (c : Content) (cs : List Bytes) : Prop :=
  match c with
  | .link l => l.rspace = rootedOf cs ∧ IsSpace (encodeSpace cs) cs ∧ cs.length ≤ 8
  | .key l _ _ => l.rspace = rootedOf cs ∧ IsSpace (encodeSpace cs) cs ∧ cs.length ≤ 8
  | _ => cs = []

/-- The user visible link fields; a content without them has empty ones. -/
def Content.linked : Content → LinkContent
  | .link l => l
  | .key l _ _ => l
  | .data b => ⟨List.replicate 32 0, List.replicate 16 0, 0, [], [], b⟩
  | .error b => ⟨List.replicate 32 0, List.replicate 16 0, 0, [], [], b⟩
def Content.pubkey : Content → Bytes
  | .key _ pk _ => pk
  | _ => List.replicate 32 0
def Content.signature : Content → Bytes
  | .key _ _ s => s
  | _ => List.replicate 64 0

/-- A packet as its parts: routing header, hash, content and the components of its space. -/
structure Shown where
  nh : Bytes
  hash : Bytes
  c : Content
  cs : List Bytes
  nhLen : nh.length = 32
  hashLen : hash.length = 32
  valid : c.Valid
  space : c.HasSpace cs

def Shown.pkt (s : Shown) : NetParts := ⟨s.nh, s.hash, s.c.parts⟩

/-- The routing fields: name, offset in the header and size. -/
def routing : List (String × Nat × Nat) :=
  [("netflags", 3, 1), ("hop", 4, 4), ("stamp", 8, 8), ("ubits0", 16, 4), ("ubits1", 20, 4), ("ubits2", 24, 4), ("ubits3", 28, 4)]

def compNames : List String := ["comp0", "comp1", "comp2", "comp3", "comp4", "comp5", "comp6", "comp7"]

def Shown.route (s : Shown) (off size : Nat) : Bytes := (s.nh.drop off).take size

/-- The bytes of every field.  The size is that of the whole packet with its headers and padding. -/
def Shown.values (s : Shown) : List (Bytes × Bytes) :=
  routing.map (fun r => (ascii r.1, s.route r.2.1 r.2.2)) ++
  [(ascii "hash", s.hash), (ascii "type", [s.c.type]), (ascii "size", beBytes 2 (64 + s.c.layout.length)),
   (ascii "pubkey", s.c.pubkey), (ascii "signature", s.c.signature), (ascii "group", s.c.linked.group),
   (ascii "domain", s.c.linked.domain), (ascii "create", beBytes 8 s.c.linked.stamp), (ascii "depth", beBytes 1 s.cs.length),
   (ascii "links_len", beBytes 2 s.c.linked.links.length), (ascii "data_size", beBytes 2 s.c.linked.data.length),
   (ascii "data", s.c.linked.data)] ++
  compNames.zipIdx.map (fun e => (ascii e.1, s.cs.getD e.2 [])) ++
  [(ascii "spacename", encodeSpace s.cs), (ascii "rspacename", rootedOf s.cs)]

/-- How the point types are called. -/
def Content.typeText : Content → Bytes
  | .data _ => ascii "DataPoint"
  | .error _ => ascii "ErrorPoint"
  | .link _ => ascii "LinkPoint"
  | .key _ _ _ => ascii "KeyPoint"

/-- A domain or tag without its leading zero bytes. -/
def bare (b : Bytes) : Bytes := b.dropWhile (· == 0)

/-- The text of every field but the net flags and the space. -/
def Shown.texts (s : Shown) : List (Bytes × Bytes) :=
  (routing.drop 1).map (fun r => (ascii r.1, dec (beNat (s.route r.2.1 r.2.2)))) ++
  [(ascii "hash", base64 s.hash), (ascii "type", s.c.typeText), (ascii "size", dec (64 + s.c.layout.length)),
   (ascii "pubkey", base64 s.c.pubkey), (ascii "signature", base64 s.c.signature), (ascii "group", base64 s.c.linked.group),
   (ascii "domain", asAbtxt (bare s.c.linked.domain)), (ascii "create", dec s.c.linked.stamp), (ascii "depth", dec s.cs.length),
   (ascii "links_len", dec s.c.linked.links.length), (ascii "data_size", dec s.c.linked.data.length),
   (ascii "data", asAbtxt s.c.linked.data)] ++
  compNames.zipIdx.map (fun e => (ascii e.1, asAbtxt (s.cs.getD e.2 [])))

/-! ### templates -/

inductive Form
  | raw | str | abe
deriving DecidableEq, Repr

/-- A field of the packet, or of the link at hand. -/
inductive Ref
  | field (name : Bytes)
  | ptr
  | tag
  | idx
deriving DecidableEq, Repr

/-- Text and references in turn, and the text at the end. -/
structure Row where
  parts : List (Bytes × Ref × Form)
  fin : Bytes

inductive Piece
  | ref (name : Bytes) (f : Form)
  | links (row : Row)

structure Template where
  parts : List (Bytes × Piece)
  fin : Bytes

def Ref.name : Ref → Bytes
  | .field n => n
  | .ptr => ascii "ptr"
  | .tag => ascii "tag"
  | .idx => ascii "i"

def Form.text : Form → Bytes
  | .raw => []
  | .str => ascii ":str"
  | .abe => ascii ":abe"

/-- How templates are written. -/
def refText (name : Bytes) (f : Form) : Bytes := ascii "[" ++ name ++ f.text ++ ascii "]"
def Row.text (r : Row) : Bytes := r.parts.flatMap (fun p => asAbtxt p.1 ++ refText p.2.1.name p.2.2) ++ asAbtxt r.fin
def Piece.text : Piece → Bytes
  | .ref n f => refText n f
  | .links r => ascii "[/links:" ++ r.text ++ ascii "]"
def Template.text (t : Template) : Bytes := t.parts.flatMap (fun p => asAbtxt p.1 ++ p.2.text) ++ asAbtxt t.fin

/-- The text evaluates to the bytes in the scope every expression has. -/
def Reads (text bytes : Bytes) : Prop := ∀ dbg p n, EvalsTo dbg (coreScope p) (n + 1) text bytes

/-- `out` is the field in this form.  As an expression, every field but those of the space. -/
def Shown.Field (s : Shown) (name : Bytes) (f : Form) (out : Bytes) : Prop :=
  match f with
  | .raw => (name, out) ∈ s.values
  | .str => (name, out) ∈ s.texts
  | .abe => name ≠ ascii "spacename" ∧ name ≠ ascii "rspacename" ∧ ∃ b, (name, b) ∈ s.values ∧ Reads out b

/-- `out` is the form of something with these bytes and text. -/
def InForm (bytes text : Bytes) (f : Form) (out : Bytes) : Prop :=
  match f with
  | .raw => out = bytes
  | .str => out = text
  | .abe => Reads out bytes

/-- `out` stands for the reference, in the row of link `i`. -/
def Shown.RefIs (s : Shown) (l : Link) (i : Nat) (r : Ref) (f : Form) (out : Bytes) : Prop :=
  match r with
  | .field n => s.Field n f out
  | .ptr => InForm l.ptr (base64 l.ptr) f out
  | .tag => InForm l.tag (asAbtxt (bare l.tag)) f out
  | .idx => InForm (beBytes 2 i) (dec i) f out

/-- The row printed for link `i`. -/
inductive Shown.RowParts (s : Shown) (l : Link) (i : Nat) : List (Bytes × Ref × Form) → Bytes → Prop
  | nil : s.RowParts l i [] []
  | cons {t r f v ps out} : s.RefIs l i r f v → s.RowParts l i ps out → s.RowParts l i ((t, r, f) :: ps) (t ++ v ++ out)
def Shown.RowIs (s : Shown) (l : Link) (i : Nat) (r : Row) (out : Bytes) : Prop := ∃ o, s.RowParts l i r.parts o ∧ out = o ++ r.fin

/-- The rows of the links from the `i`-th on, one after the other. -/
inductive Shown.RowsAre (s : Shown) (r : Row) : Nat → List Link → Bytes → Prop
  | nil {i} : s.RowsAre r i [] []
  | cons {i l ls o out} : s.RowIs l i r o → s.RowsAre r (i + 1) ls out → s.RowsAre r i (l :: ls) (o ++ out)

def Shown.PieceIs (s : Shown) : Piece → Bytes → Prop
  | .ref n f, out => s.Field n f out
  | .links r, out => s.RowsAre r 0 s.c.linked.links out

/-- What a template is to print. -/
inductive Shown.Parts (s : Shown) : List (Bytes × Piece) → Bytes → Prop
  | nil : s.Parts [] []
  | cons {t p v ps out} : s.PieceIs p v → s.Parts ps out → s.Parts ((t, p) :: ps) (t ++ v ++ out)
def Shown.Prints (s : Shown) (t : Template) (out : Bytes) : Prop := ∃ o, s.Parts t.parts o ∧ out = o ++ t.fin

/-- The templates meant: known fields, and as text or expression only those that have one here. -/
def okField (name : Bytes) : Form → Bool
  | .raw => name ∈ (routing.map fun r => ascii r.1) ++ (["hash", "type", "size", "pubkey", "signature", "group", "domain", "create",
      "depth", "links_len", "data_size", "data", "comp0", "comp1", "comp2", "comp3", "comp4", "comp5", "comp6", "comp7", "spacename",
      "rspacename"].map ascii)
  | .str => name ∈ ((routing.drop 1).map fun r => ascii r.1) ++ (["hash", "type", "size", "pubkey", "signature", "group", "domain", "create",
      "depth", "links_len", "data_size", "data", "comp0", "comp1", "comp2", "comp3", "comp4", "comp5", "comp6", "comp7"].map ascii)
  | .abe => name ∈ (routing.map fun r => ascii r.1) ++ (["hash", "type", "size", "pubkey", "signature", "group", "domain", "create",
      "depth", "links_len", "data_size", "data", "comp0", "comp1", "comp2", "comp3", "comp4", "comp5", "comp6", "comp7"].map ascii)
def Row.Ok (r : Row) : Prop := ∀ p ∈ r.parts, ∀ n, p.2.1 = .field n → okField n p.2.2
def Piece.Ok : Piece → Prop
  | .ref n f => okField n f
  | .links r => r.Ok
def Template.Ok (t : Template) : Prop := ∀ p ∈ t.parts, p.2.Ok

/-! ### pages -/

/-- One line for each link. -/
def Shown.linkLines (s : Shown) : Bytes :=
  s.c.linked.links.flatMap fun l => ascii "\t" ++ asAbtxt (bare l.tag) ++ ascii " " ++ base64 l.ptr ++ ascii "\n"

/-- A packet on a page, given the texts of group, space, key and data. -/
def Shown.page (s : Shown) (group space key data gap fin : Bytes) : Bytes :=
  ascii "type\t" ++ s.c.typeText ++ ascii "\nhash\t" ++ base64 s.hash ++ ascii "\ngroup\t" ++ group ++
  ascii "\ndomain\t" ++ asAbtxt (bare s.c.linked.domain) ++ ascii "\nspace\t" ++ space ++ ascii "\npubkey\t" ++ key ++
  ascii "\ncreate\t" ++ dec s.c.linked.stamp ++ ascii "\nlinks\t" ++ dec s.c.linked.links.length ++ ascii "\n" ++ s.linkLines ++ gap ++
  ascii "data\t" ++ dec s.c.linked.data.length ++ ascii "\n" ++ data ++ fin

/-- The text evaluates to the space. -/
def ReadsSpace (text : Bytes) (cs : List Bytes) : Prop :=
  ∀ dbg p n, spaceStr dbg (coreScope p) (n + 1) text = .ok (encodeSpace cs)

end Verif.Spec
