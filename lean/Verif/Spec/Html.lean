import Verif.Spec.Template
/-!
# Packets as a fragment of a web page (specification)

A reader of markup, and the fragment of a packet as the elements it is to consist of.  The reader follows the rules for
tags and attributes in quotes; whatever else would begin with `<` (comments, attributes without quotes, references in
attributes) it refuses.
-/
namespace Verif.Spec
open Verif Verif.Abe Verif.Abtxt Verif.Num Verif.Pkt

/-- What a page consists of. -/
inductive Mark
  | opening (name : Bytes) (attrs : List (Bytes × Bytes))
  | closing (name : Bytes)
  | char (c : UInt8)
deriving DecidableEq, Repr

/-- Where the reader is: in text, after `<`, in the name of a closing or opening tag, between attributes, in the name of
one, after its `=`, in its value, after its value. -/
inductive Spot
  | text | lt | close (n : Bytes) | name (n : Bytes)
  | gap (n : Bytes) (as : List (Bytes × Bytes))
  | attr (n : Bytes) (as : List (Bytes × Bytes)) (a : Bytes)
  | eq (n : Bytes) (as : List (Bytes × Bytes)) (a : Bytes)
  | value (n : Bytes) (as : List (Bytes × Bytes)) (a v : Bytes)
  | after (n : Bytes) (as : List (Bytes × Bytes))

def isLower (c : UInt8) : Bool := 0x61 ≤ c && c ≤ 0x7a
def isAttrChar (c : UInt8) : Bool := isLower c || (0x30 ≤ c && c ≤ 0x39) || c == 0x2d
def isBlank (c : UInt8) : Bool := c == 0x20 || c == 0x0a

def Spot.step : Spot → UInt8 → Option (Spot × List Mark)
  | .text, c => if c = 0x3c then some (.lt, []) else some (.text, [.char c])
  | .lt, c => if c = 0x2f then some (.close [], []) else if isLower c then some (.name [c], []) else none
  | .close n, c => if c = 0x3e then some (.text, [.closing n]) else if isLower c then some (.close (n ++ [c]), []) else none
  | .name n, c => if c = 0x3e then some (.text, [.opening n []]) else if isBlank c then some (.gap n [], [])
      else if isLower c then some (.name (n ++ [c]), []) else none
  | .gap n as, c => if c = 0x3e then some (.text, [.opening n as]) else if isBlank c then some (.gap n as, [])
      else if isLower c then some (.attr n as [c], []) else none
  | .attr n as a, c => if c = 0x3d then some (.eq n as a, []) else if isAttrChar c then some (.attr n as (a ++ [c]), []) else none
  | .eq n as a, c => if c = 0x27 then some (.value n as a [], []) else none
  | .value n as a v, c => if c = 0x27 then some (.after n (as ++ [(a, v)]), []) else if c = 0x26 then none
      else some (.value n as a (v ++ [c]), [])
  | .after n as, c => if c = 0x3e then some (.text, [.opening n as]) else if isBlank c then some (.gap n as, []) else none

/-- The marks of a page; it has to end in text. -/
def marks : Spot → Bytes → Option (List Mark)
  | .text, [] => some []
  | _, [] => none
  | a, c :: r =>
    match a.step c with
    | none => none
    | some (a', o) => (marks a' r).map (o ++ ·)

/-! ### the fragment -/

def chars (t : Bytes) : List Mark := t.map .char
def elem (name : String) (attrs : List (Bytes × Bytes)) (kids : List Mark) : List Mark :=
  .opening (ascii name) attrs :: (kids ++ [.closing (ascii name)])
/-- The upper half of byte `i`. -/
def colour (b : Bytes) (i : Nat) : Bytes := dec ((b.getD i 0).toNat / 16)
/-- Bytes with their text in full as an attribute, and a short text. -/
def coded (short : Bytes → Bytes) (attr : String) (b : Bytes) : List Mark :=
  elem "span" [(ascii attr, base64 b), (ascii "class", ascii "lk-b64 lk-c" ++ colour b 14 ++ ascii " lk-d" ++ colour b 15)] (chars (short b))

def compMarks (txt : Bytes → Bytes) : Nat → List Bytes → List Mark
  | _, [] => []
  | i, c :: cs => elem "li" [(ascii "lk-space" ++ dec i, base64 c)] (chars (txt (asAbtxt c))) ++ compMarks txt (i + 1) cs

def linkMarks (short txt : Bytes → Bytes) (ls : List Link) : List Mark := ls.flatMap fun l =>
  elem "li" [(ascii "lk-link-tag", base64 l.tag)]
    (elem "span" [(ascii "lk-tag", base64 l.tag)] (chars (txt (asAbtxt (bare l.tag)))) ++ coded short "lk-ptr" l.ptr) ++ chars (ascii "\n")

/-- The fields of a link point with its space. -/
def fieldMarks (short txt : Bytes → Bytes) (l : LinkContent) (cs : List Bytes) : List Mark :=
  let depth := dec cs.length
  let n := dec l.links.length
  elem "span" [(ascii "lk-domain", base64 l.domain)] (chars (txt (asAbtxt (bare l.domain)))) ++
  coded short "lk-group" l.group ++
  elem "span" [(ascii "lk-create", dec l.stamp)] (chars (dec l.stamp)) ++
  elem "span" [(ascii "lk-depth", depth)] (chars depth) ++
  elem "ol" [(ascii "lk-space", base64 (encodeSpace cs)), (ascii "lk-depth", depth)] (chars (ascii "\n") ++ compMarks txt 0 cs) ++ chars (ascii "\n") ++
  elem "span" [(ascii "lk-links-len", n)] (chars n) ++
  elem "ol" [(ascii "lk-links", n)] (chars (ascii "\n") ++ linkMarks short txt l.links)

/-- The packet as a fragment: `short` abbreviates hashes, keys and groups, `txt` writes text of the author, `data` is its data
as text. -/
def Shown.html (s : Shown) (short txt : Bytes → Bytes) (data : Bytes) : List Mark :=
  let size := dec s.c.linked.data.length
  elem "div"
    ([(ascii "lk-point", base64 s.hash), (ascii "lk-ptype", dec s.c.type.toNat), (ascii "class", ascii "lk-c" ++ colour s.hash 0)] ++
      (match s.c with
        | .key _ pk _ => [(ascii "lk-pubkey", base64 pk)]
        | _ => []) ++
      [(ascii "lk-data-size", size), (ascii "lk-links-len", dec s.c.linked.links.length), (ascii "lk-depth", dec s.cs.length)])
    (coded short "lk-hash" s.hash ++
      (match s.c with
        | .key l pk _ => coded short "lk-pubkey" pk ++ fieldMarks short txt l s.cs
        | .link l => fieldMarks short txt l s.cs
        | _ => []) ++
      elem "span" [(ascii "lk-data-size", size)] (chars size) ++ chars (ascii "\n") ++
      elem "pre" [(ascii "lk-data", size)] (chars (txt data)))

/-! ### references -/

/-- The longest name of the table, of at most `n` characters, that the text begins with. -/
def nameAt (tbl : List (Bytes × Bytes)) (r : Bytes) : Nat → Option (Nat × Bytes)
  | 0 => none
  | n + 1 =>
    match tbl.lookup (r.take (n + 1)) with
    | some v => some (n + 1, v)
    | none => nameAt tbl r n

/-- Text as it is shown: `&` and a name of the table stand for the character with that name. -/
def decodeRefs (tbl : List (Bytes × Bytes)) : Bytes → Bytes
  | [] => []
  | c :: r =>
    if c = 0x26 then
      match nameAt tbl r r.length with
      | some (n, v) => v ++ decodeRefs tbl (r.drop n)
      | none => c :: decodeRefs tbl r
    else c :: decodeRefs tbl r
termination_by s => s.length
decreasing_by all_goals simp; try omega

/-- What matters of the table of the standard: these three names are known without a semicolon, and all names they begin
end with one. -/
structure RefTable (tbl : List (Bytes × Bytes)) : Prop where
  amp : tbl.lookup (ascii "amp") = some (ascii "&")
  lt : tbl.lookup (ascii "lt") = some (ascii "<")
  gt : tbl.lookup (ascii "gt") = some (ascii ">")
  longer : ∀ n v, tbl.lookup n = some v → ∀ m ∈ [ascii "amp", ascii "lt", ascii "gt"], m <+: n → n = m ∨ 0x3b ∈ n

end Verif.Spec
