import Verif.Model.Scopes
import Verif.Model.View
/-!
# Packets as text and as html

Models `crates/pkt/src/repr.rs`.  `BStr`'s `Display` (lossy UTF-8) is a parameter.
-/
namespace Verif.Repr
open Verif Verif.Abe Verif.Abtxt Verif.Num Verif.Fit Verif.Pkt Verif.Eval

/-- `PointTypeFlags::as_str`, `crates/pkt/src/lib.rs:305-313`. -/
def typeName (t : UInt8) : Bytes :=
  if t = 1 then ascii "DataPoint" else if t = 3 then ascii "LinkPoint" else if t = 7 then ascii "KeyPoint"
  else if t = 128 then ascii "ErrorPoint" else ascii "UnknownPointType"

/-- `get_signature`, `crates/pkt/src/lib.rs:216-218`. -/
def getSignature (p : NetParts) : Bytes := (p.parts.fields.signed?.map (·.signature)).getD (zeros 64)
/-- `get_rooted_spacename`, 248-250. -/
def getRspace (p : NetParts) : Bytes := (p.parts.fields.tail?.map (·.rspace)).getD []
/-- `get_spacename`, 252-254. -/
def getSpace (p : NetParts) : Bytes := p.space?.getD []

/-- `as_str(true)` of a domain or tag, `crates/byte-fmt/src/lib.rs:126-128`. -/
def abStr (b : Bytes) : Bytes := asAbtxt (cutPrefixNulls b)

/-- What the formatters need beside the packet: the groups with a name (`crates/pkt/src/consts.rs`) and lossy UTF-8. -/
structure Consts where
  publicGrp : Bytes
  testGrp : Bytes
  lossy : Bytes → Bytes

/-- The names of groups, `crates/pkt/src/repr.rs:65-73,92-97`; `none` for any other. -/
def groupName (k : Consts) (g : Bytes) : Option Bytes :=
  if g = zeros 32 then some (ascii "[#:0]") else if g = k.publicGrp then some (ascii "[#:pub]")
  else if g = k.testGrp then some (ascii "[#:test]") else none

def line (name value : Bytes) : Bytes := name ++ 0x09 :: (value ++ [0x0a])

/-- The lines of the links, 122-124. -/
def linkLines (ls : List Link) : Bytes := ls.flatMap fun l => 0x09 :: (abStr l.tag ++ 0x20 :: (base64 l.ptr ++ [0x0a]))

/-- `PktFmt::to_str`, 87-131; `recv` is the stamp of arrival if known. -/
def toStr (k : Consts) (p : NetParts) (recv : Option Nat) (addRecv : Bool) (limit : Nat) : ER Bytes :=
  match displaySpace (getSpace p) with
  | .error _ => .abort
  | .ok space =>
    let g := p.getGroup
    .ok ((if addRecv then (match recv with
          | some r => line (ascii "recv") (dec r)
          | none => line (ascii "recv") (ascii "???")) else [])
      ++ line (ascii "type") (typeName p.parts.header.ptype)
      ++ line (ascii "hash") (base64 p.hash)
      ++ line (ascii "group") ((groupName k g).getD (bracket (ascii "b") (base64 g)))
      ++ line (ascii "domain") (abStr p.getDomain)
      ++ line (ascii "space") space
      ++ line (ascii "pubkey") (bracket (ascii "b") (base64 p.getPubkey))
      ++ line (ascii "create") (dec p.getCreate)
      ++ line (ascii "links") (dec p.getLinks.length)
      ++ linkLines p.getLinks
      ++ line (ascii "data") (dec p.data.length)
      ++ k.lossy (p.data.take limit))

/-! ### html -/

/-- `EscapeHTML`, 221-234.  The characters it looks for are single bytes of UTF-8. -/
def escapeHtml (s : Bytes) : Bytes :=
  s.flatMap fun c => if c = 0x26 then ascii "&amp" else if c = 0x3c then ascii "&lt" else if c = 0x3e then ascii "&gt" else [c]

/-- ` name='value'`. -/
def attr (name value : Bytes) : Bytes := name ++ ascii "='" ++ value ++ ascii "'"

/-- `fmt_b64`, 62-85. -/
def fmtB64 (k : Consts) (b cls : Bytes) : Bytes :=
  ascii "<span " ++ attr (ascii "lk-" ++ cls) (base64 b) ++
    ascii " class='lk-b64 lk-c" ++ dec ((b.getD 14 0).toNat / 16) ++ ascii " lk-d" ++ dec ((b.getD 15 0).toNat / 16) ++ ascii "'>" ++
    (groupName k b).getD (miniB64 b) ++ ascii "</span>"

/-- The components of the space, 185-189. -/
def htmlComps : Nat → List Bytes → Bytes
  | _, [] => []
  | i, c :: cs => ascii "<li " ++ attr (ascii "lk-space" ++ dec i) (base64 c) ++ ascii ">" ++ escapeHtml (asAbtxt c) ++ ascii "</li>" ++
      htmlComps (i + 1) cs
/-- The links, 196-205. -/
def htmlLinks (k : Consts) (ls : List Link) : Bytes := ls.flatMap fun l =>
  ascii "<li " ++ attr (ascii "lk-link-tag") (base64 l.tag) ++ ascii "><span " ++ attr (ascii "lk-tag") (base64 l.tag) ++ ascii ">" ++
    escapeHtml (abStr l.tag) ++ ascii "</span>" ++ fmtB64 k l.ptr (ascii "ptr") ++ ascii "</li>\n"

/-- What is printed of the fields of a link point, 169-207. -/
def htmlFields (k : Consts) (p : NetParts) (h : LinkHead) (cs : List Bytes) : Bytes :=
  let depth := dec p.getDepth.toNat
  let n := dec p.getLinks.length
  (match p.parts.fields.signed? with
    | some s => fmtB64 k s.pubkey (ascii "pubkey")
    | none => [])
  ++ ascii "<span " ++ attr (ascii "lk-domain") (base64 h.domain) ++ ascii ">" ++ escapeHtml (abStr h.domain) ++ ascii "</span>"
  ++ fmtB64 k h.group (ascii "group")
  ++ ascii "<span " ++ attr (ascii "lk-create") (dec p.getCreate) ++ ascii ">" ++ dec p.getCreate ++ ascii "</span>"
  ++ ascii "<span " ++ attr (ascii "lk-depth") depth ++ ascii " >" ++ depth ++ ascii "</span>"
  ++ ascii "<ol " ++ attr (ascii "lk-space") (base64 (getSpace p)) ++ ascii " " ++ attr (ascii "lk-depth") depth ++ ascii ">\n"
  ++ htmlComps 0 cs ++ ascii "</ol>\n"
  ++ ascii "<span " ++ attr (ascii "lk-links-len") n ++ ascii ">" ++ n ++ ascii "</span>"
  ++ ascii "<ol " ++ attr (ascii "lk-links") n ++ ascii ">\n" ++ htmlLinks k p.getLinks ++ ascii "</ol>"

/-- `PktFmt::to_html`, 140-218, with `include` being `None`. -/
def toHtml (k : Consts) (p : NetParts) (withData : Bool) : ER Bytes :=
  let size := dec p.data.length
  let top := ascii "<div " ++ attr (ascii "lk-point") (base64 p.hash) ++ ascii " " ++ attr (ascii "lk-ptype") (dec p.parts.header.ptype.toNat) ++
    ascii " class='lk-c" ++ dec ((p.hash.getD 0 0).toNat / 16) ++ ascii "' " ++
    (match p.parts.fields.signed? with
      | some s => attr (ascii "lk-pubkey") (base64 s.pubkey)
      | none => []) ++
    ascii "\n" ++ attr (ascii "lk-data-size") size ++ ascii " " ++ attr (ascii "lk-links-len") (dec p.getLinks.length) ++ ascii " " ++
    attr (ascii "lk-depth") (dec p.getDepth.toNat) ++ ascii ">" ++ fmtB64 k p.hash (ascii "hash")
  let last := ascii "<span " ++ attr (ascii "lk-data-size") size ++ ascii ">" ++ size ++ ascii "</span>\n" ++
    (if withData then ascii "<pre " ++ attr (ascii "lk-data") size ++ ascii ">" ++ escapeHtml (k.lossy p.data) ++ ascii "</pre>" else []) ++
    ascii "</div>"
  match p.parts.fields.head? with
  | none => .ok (top ++ last)
  | some h =>
    match Space.iter (getSpace p) with
    | .error _ => .abort
    | .ok cs => .ok (top ++ htmlFields k p h cs ++ last)

end Verif.Repr
