import Verif.Model.Repr
import Verif.Model.QueryText
/-!
# Packet expressions

Models `crates/pkt/src/eval.rs` and the `bytes`, `display` and `abe` of `crates/pkt/src/field_ids.rs`.

Macros and functions of this scope evaluate again with more functions in front of (or behind) the scope they were called
from.  Those additions are a stack of `Frame`s; an evaluation is given by the fixed scope and the stack.
-/
namespace Verif.Tpl
open Verif Verif.Ast Verif.Abl Verif.Abe Verif.Abtxt Verif.Num Verif.Fit Verif.Pkt Verif.Eval Verif.Repr

/-! ### fields -/

/-- `FieldEnum`, `crates/pkt/src/field_ids.rs:69-96,166-196`. -/
inductive Fd
  | netflags | hop | stamp | ubits (i : Fin 4) | hash | type | size | pubkey | signature | group | domain | create | depth
  | linksLen | dataSize | spacename | rspacename | comp (i : Fin 8) | data
deriving DecidableEq, Repr

/-- The names, 166-196. -/
def fieldTable : List (Bytes × Fd) := [
  (ascii "netflags", .netflags), (ascii "hop", .hop), (ascii "stamp", .stamp), (ascii "ubits0", .ubits 0),
  (ascii "ubits1", .ubits 1), (ascii "ubits2", .ubits 2), (ascii "ubits3", .ubits 3), (ascii "hash", .hash),
  (ascii "type", .type), (ascii "size", .size), (ascii "pubkey", .pubkey), (ascii "signature", .signature),
  (ascii "group", .group), (ascii "domain", .domain), (ascii "create", .create), (ascii "depth", .depth),
  (ascii "links_len", .linksLen), (ascii "data_size", .dataSize), (ascii "spacename", .spacename),
  (ascii "rspacename", .rspacename), (ascii "comp0", .comp 0), (ascii "comp1", .comp 1), (ascii "comp2", .comp 2),
  (ascii "comp3", .comp 3), (ascii "comp4", .comp 4), (ascii "comp5", .comp 5), (ascii "comp6", .comp 6),
  (ascii "comp7", .comp 7), (ascii "data", .data)]

/-- Reading a component of a packet whose space is broken is a panic. -/
def ofComp : Space.Res Bytes → ER Bytes
  | .ok b => .ok b
  | .error _ => .abort

/-- `FieldEnum::bytes`, 398-434. -/
def Fd.bytes (p : NetParts) : Fd → ER Bytes
  | .netflags => .ok [p.netHeader.getD 3 0]
  | .hop => .ok ((p.netHeader.drop 4).take 4)
  | .stamp => .ok ((p.netHeader.drop 8).take 8)
  | .ubits i => .ok ((p.netHeader.drop (16 + 4 * i.val)).take 4)
  | .hash => .ok p.hash
  | .type => .ok [p.parts.header.ptype]
  | .size => .ok (beBytes 2 p.parts.header.size)
  | .pubkey => .ok p.getPubkey
  | .signature => .ok (getSignature p)
  | .group => .ok p.getGroup
  | .domain => .ok p.getDomain
  | .create => .ok (beBytes 8 p.getCreate)
  | .depth => .ok [p.getDepth]
  | .linksLen => .ok (beBytes 2 p.getLinks.length)
  | .dataSize => .ok (beBytes 2 p.data.length)
  | .spacename => .ok (getSpace p)
  | .rspacename => .ok (getRspace p)
  | .comp i => ofComp (Rooted.comp (getRspace p) i.val)
  | .data => .ok p.data

/-- `FieldEnum::display`, 435-468.  `flags` is the `Debug` text of the net flags. -/
def Fd.display (flags : UInt8 → Bytes) (p : NetParts) : Fd → ER Bytes
  | .netflags => .ok (flags (p.netHeader.getD 3 0))
  | .hop => .ok (dec (beNat ((p.netHeader.drop 4).take 4)))
  | .stamp => .ok (dec (beNat ((p.netHeader.drop 8).take 8)))
  | .ubits i => .ok (dec (beNat ((p.netHeader.drop (16 + 4 * i.val)).take 4)))
  | .hash => .ok (base64 p.hash)
  | .type => .ok (typeName p.parts.header.ptype)
  | .size => .ok (dec p.parts.header.size)
  | .pubkey => .ok (base64 p.getPubkey)
  | .signature => .ok (base64 (getSignature p))
  | .group => .ok (base64 p.getGroup)
  | .domain => .ok (abStr p.getDomain)
  | .create => .ok (dec p.getCreate)
  | .depth => .ok (dec p.getDepth.toNat)
  | .linksLen => .ok (dec p.getLinks.length)
  | .dataSize => .ok (dec p.data.length)
  | .spacename => ofComp (displaySpace (getSpace p))
  | .rspacename => ofComp (displaySpace (getSpace p))
  | .comp i => (ofComp (Rooted.comp (getRspace p) i.val)).map asAbtxt
  | .data => .ok (asAbtxt p.data)

/-- `Space::to_abe_str`. -/
def spaceAbeStr (sp : Bytes) : ER Bytes :=
  match Space.iter sp with
  | .ok cs => .ok (printAbe (compsToAbe cs))
  | .error _ => .abort

/-- `to_abe_str` of `B64`, `crates/byte-fmt/src/lib.rs:408-410`. -/
def b64Abe (b : Bytes) : Bytes := bracket (ascii "b") (base64 b)

/-- `FieldEnum::abe`, 475-508. -/
def Fd.abe (p : NetParts) : Fd → ER Bytes
  | .netflags => .ok (bracket (ascii "b2") (encDigits 2 [p.netHeader.getD 3 0]))
  | .hop => .ok (bracket (ascii "u32") (dec (beNat ((p.netHeader.drop 4).take 4))))
  | .stamp => .ok (bracket (ascii "u64") (dec (beNat ((p.netHeader.drop 8).take 8))))
  | .ubits i => .ok (bracket (ascii "u32") (dec (beNat ((p.netHeader.drop (16 + 4 * i.val)).take 4))))
  | .hash => .ok (b64Abe p.hash)
  | .type => .ok (bracket (ascii "b2") (encDigits 2 [p.parts.header.ptype]))
  | .size => .ok (bracket (ascii "u16") (dec p.parts.header.size))
  | .pubkey => .ok (b64Abe p.getPubkey)
  | .signature => .ok (b64Abe (getSignature p))
  | .group => .ok (b64Abe p.getGroup)
  | .domain => .ok (abToAbeStr p.getDomain)
  | .create => .ok (bracket (ascii "u64") (dec p.getCreate))
  | .depth => .ok (bracket (ascii "u8") (dec p.getDepth.toNat))
  | .linksLen => .ok (bracket (ascii "u16") (dec p.getLinks.length))
  | .dataSize => .ok (bracket (ascii "u16") (dec p.data.length))
  | .spacename => spaceAbeStr (getSpace p)
  | .rspacename => spaceAbeStr (getSpace p)
  | .comp i => (ofComp (Rooted.comp (getRspace p) i.val)).map abToAbeStr
  | .data => .ok (bracket [] (asAbtxt p.data))

/-! ### scopes -/

/-- A packet to evaluate with: `recv` is what the packet knows of its arrival, `now` what the clock says. -/
structure Ctx where
  pkt : NetParts
  recv : Option Nat
  now : Nat

/-- What is put around a scope. -/
inductive Frame
  | link (l : Link) (i : Nat)
  | pkt (c : Ctx)
structure Dyn where
  pre : List Frame
  post : List Frame
/-- Evaluation in a stack of frames. -/
abbrev Ev := Dyn → List ABE → ER ABList

/-- Parameters: the constants of the formatters and the `Debug` text of the net flags. -/
structure PktParams extends Consts where
  flags : UInt8 → Bytes

/-- The `apply` of `as_scopefn!`, `crates/pkt/src/eval.rs:46-70`. -/
def fieldApply (k : PktParams) (p : NetParts) (f : Fd) (i : List Bytes) : AR Bytes :=
  if i = [ascii "abe"] then (f.abe p).toAR
  else if i = [ascii "str"] then (f.display k.flags p).toAR
  else if i = [] ∨ i = [[]] ∨ i = [ascii "bytes"] then (f.bytes p).toAR
  else .err
/-- `NetPktFieldsEval`, 46-83. -/
def fieldFns (k : PktParams) (p : NetParts) : List Fn := fieldTable.map fun e =>
  { id := e.1, lo := 0, hi := 1, init := some true, apply := fun _ i _ => fieldApply k p e.2 i }

/-- `DEFAULT_PKT`, `crates/pkt/src/repr.rs:21-33`. -/
def defaultPkt : Bytes := ascii
  "type\\t[type:str]\\nhash\\t[hash:str]\\ngroup\\t[/~?:[group]/#/b]\\ndomain\\t[domain:str]\\nspace\\t[spacename:str]\\npubkey\\t[/~?:[pubkey]/@/b]\\ncreate\\t[create:str]\\nlinks\\t[links_len:str]\\n[/links:\\t[tag:str] [ptr:str]\\n]\\ndata\\t[data_size:str]\\n[data/~utf8]\\n"

/-- `pkt`, `netpkt` and `point`, `crates/pkt/src/eval.rs:91-102`: `DEFAULT_FMT` in the scope of the packet, unwrapped. -/
def pktFn (ev : Ev) (d : Dyn) (c : Ctx) : AR Bytes :=
  match parseStrict defaultPkt with
  | .error _ => .abort
  | .ok abe =>
    match ev { d with pre := .pkt c :: d.pre } abe with
    | .ok l => .value (concat l)
    | _ => .abort

/-- `usize::from_str` of an argument that may be absent, 106. -/
def limitArg : Option Bytes → Option Nat
  | none => some (2 ^ 64 - 1)
  | some s => parseUsize s
/-- `pkt-quick`, 103-109. -/
def quickFn (k : PktParams) (c : Ctx) (i : List Bytes) : AR Bytes :=
  let add := match i.head? with
    | none => false
    | some a => !(a == ascii "false" || a == [])
  match limitArg i[1]? with
  | none => .err
  | some n => (toStr k.toConsts c.pkt c.recv add n).toAR

/-- `NetPktPrintDefault`, 84-121. -/
def printFns (k : PktParams) (ev : Ev) (d : Dyn) (c : Ctx) : List Fn := [
  { id := ascii "pkt", lo := 0, hi := 0, init := some true, apply := fun _ _ _ => pktFn ev d c },
  { id := ascii "netpkt", lo := 0, hi := 0, init := some true, apply := fun _ _ _ => pktFn ev d c },
  { id := ascii "point", lo := 0, hi := 0, init := some true, apply := fun _ _ _ => pktFn ev d c },
  { id := ascii "pkt-quick", lo := 0, hi := 2, init := some true, apply := fun _ i _ => quickFn k c i },
  { id := ascii "html-quick", lo := 0, hi := 0, init := some true, apply := fun _ _ _ => (toHtml k.toConsts c.pkt true).toAR },
  { id := ascii "netbytes", lo := 0, hi := 0, init := some true,
    apply := fun top _ _ => match c.pkt.segments top.dbg with
      | .ok s => .value (Segments.bytes s)
      | .error _ => .abort }]

/-- `first_tailmask`, 136-141. -/
def firstTailmask (ls : List Link) (tail : Bytes) : Option Link :=
  if tail.length > 16 then none else ls.find? fun l => tail.isSuffixOf l.tag

/-- `Display for Link`, `crates/pkt/src/lib.rs:112-116`. -/
def linkText (l : Link) : Bytes := asAbtxt l.tag ++ 0x3a :: base64 l.ptr

/-- The body of the function `links`, `crates/pkt/src/eval.rs:155-169`. -/
def joinLinks (delim : Bytes) : List Link → Bytes
  | [] => []
  | l :: ls => linkText l ++ ls.flatMap fun l => delim ++ linkText l
def linksFn (ls : List Link) (i : List Bytes) : AR Bytes :=
  match slice ls (i.drop 1) with
  | .value r => .value (joinLinks (i.head?.getD [0x0a]) r)
  | .err => .err
  | .noValue => .noValue
  | .abort => .abort

/-- `abe`, `str` or nothing, 231-236,244-249,257-262,270-276. -/
def inForm (abe str raw : Bytes) (i : List Bytes) : AR Bytes :=
  let a := i.head?.getD []
  if a = ascii "abe" then .value abe else if a = ascii "str" then .value str else if a = [] then .value raw else .err

/-- `LinkEnv`, 218-267. -/
def linkFns (l : Link) (i : Nat) : List Fn := [
  { id := ascii "ptr", lo := 0, hi := 1, apply := fun _ a _ => inForm (b64Abe l.ptr) (base64 l.ptr) l.ptr a },
  { id := ascii "tag", lo := 0, hi := 1, apply := fun _ a _ => inForm (abToAbeStr l.tag) (abStr l.tag) l.tag a },
  { id := ascii "i", lo := 0, hi := 1, apply := fun _ a _ => inForm (bracket (ascii "u16") (dec (i % 65536))) (dec (i % 65536)) (beBytes 2 i) a }]

/-- The loop of the macro `links`, 191-211. -/
def linksLoop (ev : Ev) (d : Dyn) (abe : List ABE) : Nat → List Link → ER Bytes
  | _, [] => .ok []
  | i, l :: ls => (ev { d with pre := .link l i :: d.pre } abe).bind fun r =>
      match asExactBytes r with
      | none => .err
      | some o => (linksLoop ev d abe (i + 1) ls).map (o ++ ·)
/-- The macro `links`, 183-214. -/
def linksMac (ev : Ev) (d : Dyn) (ls : List Link) : List ABE → AR Bytes
  | .ctr .colon :: r => (linksLoop ev d r 0 ls).toAR
  | _ => .err

/-- `SelectLink`, 129-216. -/
def selectFns (ls : List Link) : List Fn := [
  { id := ascii "links", lo := 0, hi := 4, init := some true, apply := fun _ i _ => linksFn ls i },
  { id := ascii "link", lo := 1, hi := 1, init := some true,
    apply := fun _ i _ => .ofOption ((firstTailmask ls (i.headD [])).map (·.ptr)) }]

/-- `eval_recv`, 269-277. -/
def stampForm (s : Nat) (i : List Bytes) : AR Bytes := inForm (bracket (ascii "u64") (dec s)) (dec s) (beBytes 8 s) i
/-- `RecvStamp`, 280-312. -/
def recvFns (c : Ctx) : List Fn := [
  { id := ascii "recv", lo := 0, hi := 1, init := some true, apply := fun _ i _ => stampForm (c.recv.getD c.now) i },
  { id := ascii "recv_now", lo := 0, hi := 1, init := some true,
    apply := fun _ i _ => match c.recv with
      | some s => stampForm s i
      | none => .err }]

/-- `pkt_scope`, 13-19. -/
def pktScope (k : PktParams) (ev : Ev) (d : Dyn) (c : Ctx) : Scope :=
  ((table (fieldFns k c.pkt) []).pair (table (printFns k ev d c) [])).pair
    ((table (selectFns c.pkt.getLinks) [(ascii "links", fun _ abe => linksMac ev d c.pkt.getLinks abe)]).pair (table (recvFns c) []))

def frameScope (k : PktParams) (ev : Ev) (d : Dyn) : Frame → Scope
  | .link l i => table (linkFns l i) []
  | .pkt c => pktScope k ev d c

/-- The scope of a stack: the frames in front, the fixed scope, the frames behind.  The fixed scope may evaluate in
other stacks too. -/
def denote (k : PktParams) (base : Ev → Dyn → Scope) (ev : Ev) (d : Dyn) : Scope :=
  d.pre.foldr (fun f s => (frameScope k ev d f).pair s) (d.post.foldl (fun s f => s.pair (frameScope k ev d f)) (base ev d))

/-- `eval`, `crates/abe/src/eval.rs:903-924`, in a stack of frames. -/
def evalD (dbg : Bool) (k : PktParams) (base : Ev → Dyn → Scope) : Nat → Ev
  | 0, _, _ => .abort
  | n + 1, d, abe =>
    let sc := denote k base (evalD dbg k base n) d
    (evalItems sc ⟨evalD dbg k base n d, sc.enc, dbg⟩ abe).map fromItems

/-- `lk_eval` with a packet, `crates/linkspace/src/lib.rs:359-364,510-535,1133-1137`: the packet goes in front. -/
def lkEvalPkt (dbg : Bool) (k : PktParams) (base : Ev → Dyn → Scope) (n : Nat) (c : Ctx) (expr : Bytes) : ER Bytes :=
  match parseStrict expr with
  | .ok abe => (evalD dbg k base n ⟨[.pkt c], []⟩ abe).map concat
  | .error _ => .err

end Verif.Tpl
