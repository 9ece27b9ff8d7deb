import Verif.Model.RootedSpace
/-!
# Points and packets (`crates/pkt/src`)

Points are modelled twice, as in the code: as the enum form (`PointParts`) and as flat bytes
(`PointThinPtr`).  Hash and signature functions are parameters.
-/
namespace Verif.Pkt
open Verif Verif.Space

/-- The cryptographic functions used by the packet code, `crates/cryptography/src/lib.rs:41-69`.
`hash` is `hash_segments` of the concatenated segments (an incremental blake3 hash). -/
structure Crypto where
  hash : Bytes → Bytes
  Key : Type
  pubkey : Key → Bytes
  sign : Key → Bytes → Bytes
  /-- `validate_signature pubkey signature hash` -/
  verify : Bytes → Bytes → Bytes → Bool

/-- What the proofs assume about the cryptographic functions: fixed output sizes and that a signature
verifies.  No unforgeability or collision resistance is assumed. -/
structure Crypto.Laws (C : Crypto) : Prop where
  hash_len : ∀ b, (C.hash b).length = 32
  pub_len : ∀ k, (C.pubkey k).length = 32
  sign_len : ∀ k h, (C.sign k h).length = 64
  verify_sign : ∀ k h, C.verify (C.pubkey k) (C.sign k h) h = true

/-- `MAX_POINT_SIZE`, `crates/pkt/src/consts.rs:5`. -/
def maxPointSize : Nat := 65024
/-- `MAX_CONTENT_SIZE`, `crates/pkt/src/consts.rs:16`. -/
def maxContentSize : Nat := maxPointSize - 4
/-- `MAX_LINKPOINT_DATA_SIZE`, `crates/pkt/src/consts.rs:19`. -/
def maxLinkpointData : Nat := maxContentSize - 60
/-- `MAX_KEYPOINT_DATA_SIZE`, `crates/pkt/src/consts.rs:20`. -/
def maxKeypointData : Nat := maxContentSize - 96
/-- `MIN_NETPKT_SIZE`, `crates/pkt/src/consts.rs:9`: net header, hash and point header. -/
def minNetpktSize : Nat := 68
/-- `MAX_NETPKT_SIZE`, `crates/pkt/src/consts.rs:12-14`. -/
def maxNetpktSize : Nat := maxPointSize + 64

/-- `pkt::Error`, `crates/pkt/src/lib.rs:335-373`; only the variants the modelled functions produce. -/
inductive PktError where
  | unknownPktType (b : UInt8)
  | space (e : SpaceError)
  | hashMismatch
  | invalidSignature
  | contentLen
  | missingHeader
  | paddingBits
  | indivisableLinkbytes
  | dataOffsetIncompatible
  | ispOffsetIncompatible
  | headerReservedSet (b : UInt8)
  | missingBytes (netpktSize : Nat)
  | privateGroup
deriving DecidableEq, Repr

/-- `Error::requires_more`, `crates/pkt/src/lib.rs:375-381`. -/
def PktError.requiresMore : PktError → Option Nat
  | .missingHeader => some minNetpktSize
  | .missingBytes n => some n
  | _ => none

abbrev Res (α : Type) := Except (Fault PktError) α

/-! ### the fields -/

/-- `PointTypeFlags`, `crates/pkt/src/lib.rs:283-300`. -/
def tData : UInt8 := 1
def tLink : UInt8 := 3
def tKey : UInt8 := 7
def tError : UInt8 := 128
/-- `contains(PointTypeFlags::LINK)` -/
def hasLink (t : UInt8) : Bool := t &&& 2 == 2
/-- `contains(PointTypeFlags::SIGNATURE)` -/
def hasSig (t : UInt8) : Bool := t &&& 4 == 4

/-- `PointHeader`, `crates/pkt/src/point.rs:8-15`. -/
structure PointHeader where
  reserved : UInt8
  ptype : UInt8
  uset : Nat
deriving DecidableEq, Repr

/-- `PointHeader::as_bytes`, `crates/pkt/src/point.rs:87-89`. -/
def PointHeader.bytes (h : PointHeader) : Bytes := h.reserved :: h.ptype :: beBytes 2 h.uset
/-- Reading a header from the first four bytes of a point (cast in `crates/pkt/src/point_ptr.rs:74-79`). -/
def PointHeader.ofBytes (b : Bytes) : PointHeader :=
  ⟨b.getD 0 0, b.getD 1 0, beNat ((b.drop 2).take 2)⟩

/-- `padded_point_size`, `crates/pkt/src/point.rs:97-103`.  (The `u16` product overflows from 65529 on;
every caller has checked the header first, which bounds the size by 65024.) -/
def PointHeader.paddedSize (h : PointHeader) : Nat := (h.uset + 7) / 8 * 8
/-- `padding`, `crates/pkt/src/point.rs:94-96`. -/
def PointHeader.padding (h : PointHeader) : Nat := h.paddedSize - h.uset
/-- `ucontent_size`, `crates/pkt/src/point.rs:105-108` (saturating). -/
def PointHeader.contentSize (h : PointHeader) : Nat := h.uset - 4
/-- `size`, `crates/pkt/src/point.rs:115-117`. -/
def PointHeader.size (h : PointHeader) : Nat := h.paddedSize + 32 + 32

/-- `PointHeader::check`, `crates/pkt/src/point.rs:66-86`. -/
def PointHeader.check (h : PointHeader) : Except PktError PointHeader :=
  if h.reserved ≠ 0 then .error (.headerReservedSet h.reserved)
  else
    let len := h.contentSize
    if len > maxContentSize then .error .contentLen
    else if h.ptype = tData then .ok h
    else if h.ptype = tLink then (if len ≥ 60 then .ok h else .error .contentLen)
    else if h.ptype = tKey then (if len ≥ 60 + 96 then .ok h else .error .contentLen)
    else if h.ptype = tError then .ok h
    else .error (.unknownPktType h.ptype)

/-- `PointHeader::new_point_size`, `crates/pkt/src/point.rs:51-64`. -/
def newPointSize (kind : UInt8) (size : Nat) : Except PktError PointHeader :=
  if size > maxPointSize then .error .contentLen
  else PointHeader.check ⟨0, kind, size⟩

/-- `PointHeader::new_content_len`, `crates/pkt/src/point.rs:44-50`.  (`saturating_add` on `usize`: sizes
are mathematical here.) -/
def newContentLen (kind : UInt8) (len : Nat) : Except PktError PointHeader := newPointSize kind (len + 4)

/-- `Link`, `crates/pkt/src/lib.rs:85-93`. -/
structure Link where
  tag : Bytes
  ptr : Bytes
deriving DecidableEq, Repr
def Link.bytes (l : Link) : Bytes := l.tag ++ l.ptr
/-- `Tail::links_as_bytes`, `crates/pkt/src/point_parts.rs:67-74`. -/
def linksBytes (ls : List Link) : Bytes := ls.flatMap Link.bytes

/-- `LinkPointHeader`, `crates/pkt/src/point.rs:17-30`. -/
structure LinkHead where
  offRspace : Nat
  offData : Nat
  stamp : Nat
  group : Bytes
  domain : Bytes
deriving DecidableEq, Repr
/-- `LinkPointHeader::as_bytes`, `crates/pkt/src/point.rs:31-35`. -/
def LinkHead.bytes (h : LinkHead) : Bytes :=
  beBytes 2 h.offRspace ++ beBytes 2 h.offData ++ beBytes 8 h.stamp ++ h.group ++ h.domain
/-- The cast in `crates/pkt/src/point_ptr.rs:110,242`. -/
def LinkHead.ofBytes (b : Bytes) : LinkHead :=
  ⟨beNat (b.take 2), beNat ((b.drop 2).take 2), beNat ((b.drop 4).take 8), (b.drop 12).take 32,
    (b.drop 44).take 16⟩

/-- `Signed`, `crates/pkt/src/point_parts.rs:18-31`. -/
structure Signed where
  pubkey : Bytes
  signature : Bytes
deriving DecidableEq, Repr
def Signed.bytes (s : Signed) : Bytes := s.pubkey ++ s.signature
def Signed.ofBytes (b : Bytes) : Signed := ⟨b.take 32, b.drop 32⟩

/-- `Tail`, `crates/pkt/src/point_parts.rs:60-65`. -/
structure Tail where
  links : List Link
  data : Bytes
  rspace : Bytes
deriving DecidableEq, Repr
/-- `Tail::byte_len`, `crates/pkt/src/point_parts.rs:75-77`. -/
def Tail.byteLen (t : Tail) : Nat := t.data.length + t.rspace.length + (linksBytes t.links).length

/-- `PointFields`, `crates/pkt/src/point_parts.rs:33-41`. -/
inductive Fields where
  | data (b : Bytes)
  | link (h : LinkHead) (t : Tail)
  | key (h : LinkHead) (t : Tail) (s : Signed)
  | error (b : Bytes)
  | unknown (b : Bytes)
deriving DecidableEq, Repr

/-- `PointParts`, `crates/pkt/src/point_parts.rs:8-14`. -/
structure Parts where
  header : PointHeader
  fields : Fields
deriving DecidableEq, Repr

/-! ### byte segments -/

/-- `ByteSegments`, `crates/pkt/src/byte_segments.rs:8-9`: always eight segments. -/
abbrev Segments := List Bytes
/-- `ByteSegments::from_array`, `crates/pkt/src/byte_segments.rs:79-88` (arrays of fewer than 8). -/
def Segments.fromArray (l : List Bytes) : Segments := l ++ List.replicate (8 - l.length) []
/-- `ByteSegments::push_front`, `crates/pkt/src/byte_segments.rs:94-103`. -/
def Segments.pushFront (dbg : Bool) (s : Segments) (head : Bytes) : Except (Fault PktError) Segments :=
  if dbg && !(s.getD 7 []).isEmpty then .error .panic else .ok (head :: s.take 7)
/-- The bytes the segments stand for: iteration (17-66), `to_bytes` (105-107), `write_segments_unchecked`
(113-124) and `write_into` of `crates/pkt/src/byte_segments.rs`. -/
def Segments.bytes (s : Segments) : Bytes := s.flatten

/-- `PointParts::padding`, `crates/pkt/src/point_parts.rs:131-135`. -/
def Parts.padding (p : Parts) : Bytes := List.replicate p.header.padding 255

/-- `PointParts::pkt_segments`, `crates/pkt/src/point_parts.rs:99-125`. -/
def Parts.segments (p : Parts) : Segments :=
  match p.fields with
  | .unknown b => .fromArray [p.header.bytes, b, p.padding]
  | .data b => .fromArray [p.header.bytes, b, p.padding]
  | .error b => .fromArray [p.header.bytes, b, p.padding]
  | .link h t => .fromArray [p.header.bytes, h.bytes, linksBytes t.links, t.rspace, t.data, p.padding]
  | .key h t s =>
    .fromArray [p.header.bytes, h.bytes, linksBytes t.links, t.rspace, t.data, p.padding, s.bytes]

/-- `compute_hash`, `crates/pkt/src/lib.rs:266-268`. -/
def Parts.computeHash (C : Crypto) (p : Parts) : Bytes := C.hash p.segments.bytes

/-- `NetPktParts`, `crates/pkt/src/netpkt/netpkt_parts.rs:11-17`. -/
structure NetParts where
  netHeader : Bytes
  hash : Bytes
  parts : Parts
deriving DecidableEq, Repr

/-- `NetPktParts::byte_segments`, `crates/pkt/src/netpkt/netpkt_parts.rs:53-60`. -/
def NetParts.segments (dbg : Bool) (p : NetParts) : Except (Fault PktError) Segments :=
  p.parts.segments.pushFront dbg (p.netHeader ++ p.hash)

/-! ### builders -/

/-- `try_datapoint_ref`, `crates/pkt/src/builder.rs:13-24`. -/
def tryDatapoint (C : Crypto) (data netHeader : Bytes) : Except PktError NetParts :=
  match newContentLen tData data.length with
  | .error e => .error e
  | .ok h =>
    let p : Parts := ⟨h, .data data⟩
    .ok ⟨netHeader, p.computeHash C, p⟩

/-- `errorpoint`, `crates/pkt/src/builder.rs:203-218`: unwraps. -/
def errorpoint (C : Crypto) (msg netHeader : Bytes) : Res NetParts :=
  match newContentLen tError msg.length with
  | .error _ => .error .panic
  | .ok h =>
    let p : Parts := ⟨h, .error msg⟩
    .ok ⟨netHeader, p.computeHash C, p⟩

/-- `linkp`, `crates/pkt/src/builder.rs:95-139`.  `check_components().unwrap()` panics on an invalid space;
`try_into::<u16>` fails above 65535. -/
def linkp (group domain rspace : Bytes) (links : List Link) (data : Bytes) (stamp : Nat) :
    Res (PointHeader × LinkHead × Tail) :=
  match Rooted.checkComponents rspace with
  | .error _ => .error .panic
  | .ok () =>
    let tail : Tail := ⟨links, data, rspace⟩
    let offRspace := 4 + 60 + 48 * links.length
    if offRspace > 65535 then .error (.err .contentLen)
    else if offRspace + rspace.length > 65535 then .error (.err .contentLen)
    else match newContentLen tLink (60 + tail.byteLen) with
      | .error e => .error (.err e)
      | .ok h => .ok (h, ⟨offRspace, offRspace + rspace.length, stamp, group, domain⟩, tail)

/-- `try_linkpoint_ref`, `crates/pkt/src/builder.rs:141-161`. -/
def tryLinkpoint (C : Crypto) (group domain rspace : Bytes) (links : List Link) (data : Bytes)
    (stamp : Nat) (netHeader : Bytes) : Res NetParts :=
  match linkp group domain rspace links data stamp with
  | .error e => .error e
  | .ok (h, lh, t) =>
    let p : Parts := ⟨h, .link lh t⟩
    .ok ⟨netHeader, p.computeHash C, p⟩

/-- `try_keypoint_ref`, `crates/pkt/src/builder.rs:164-201`. -/
def tryKeypoint (C : Crypto) (group domain rspace : Bytes) (links : List Link) (data : Bytes)
    (stamp : Nat) (key : C.Key) (netHeader : Bytes) : Res NetParts :=
  match linkp group domain rspace links data stamp with
  | .error e => .error e
  | .ok (h, lh, t) =>
    match newPointSize (h.ptype ||| 4) (h.uset + 96) with
    | .error e => .error (.err e)
    | .ok h' =>
      let linkHash := Parts.computeHash C ⟨h', .link lh t⟩
      let p : Parts := ⟨h', .key lh t ⟨C.pubkey key, C.sign key linkHash⟩⟩
      .ok ⟨netHeader, p.computeHash C, p⟩

/-- `try_point`, `crates/pkt/src/builder.rs:28-43`. -/
def tryPoint (C : Crypto) (group domain rspace : Bytes) (links : List Link) (data : Bytes)
    (stamp : Nat) (key : Option C.Key) (netHeader : Bytes) : Res NetParts :=
  match key with
  | some k => tryKeypoint C group domain rspace links data stamp k netHeader
  | none => tryLinkpoint C group domain rspace links data stamp netHeader

/-- `calc_free_space`, `crates/pkt/src/builder.rs:223-235`; takes the plain space. -/
def calcFreeSpace (space : Bytes) (links : List Link) (data : Bytes) (signed : Bool) : Int :=
  let size : Int := if signed then maxKeypointData else maxLinkpointData
  let size := size - (links.length * 48 : Nat)
  let size := if !space.isEmpty then size - (space.length + 8 : Nat) else size
  size - data.length

/-! ### reading -/

/-- Bytes `a..b` of a point. -/
def slice (pt : Bytes) (a b : Nat) : Bytes := (pt.drop a).take (b - a)

/-- `BarePointFields`, `crates/pkt/src/point_ptr.rs:384-401`. -/
inductive Bare where
  | data (data padding : Bytes)
  | link (h : LinkHead) (signed : Option Signed) (padding : Bytes)
  | error (msg padding : Bytes)
  | unknown (rest : Bytes)
deriving DecidableEq, Repr

/-- `PointThinPtr::fixed`, `crates/pkt/src/point_ptr.rs:99-133`, on the padded point bytes `pt`.
`split_at_unchecked` out of range is undefined behaviour and `rest.len() - padding` overflows (a panic, the
release profile has overflow checks); both are reported as `panic`. -/
def fixed (pt : Bytes) : Except (Fault PktError) Bare :=
  let h := PointHeader.ofBytes pt
  if pt.length < 4 then .error .panic
  else
    let rest := pt.drop 4
    let pad := h.padding
    if hasLink h.ptype then
      if rest.length < 60 then .error .panic
      else
        let lh := LinkHead.ofBytes (rest.take 60)
        let rest := rest.drop 60
        if hasSig h.ptype then
          if rest.length < 96 then .error .panic
          else
            let signed := Signed.ofBytes (rest.drop (rest.length - 96))
            let rest := rest.take (rest.length - 96)
            if rest.length < pad then .error .panic
            else .ok (.link lh (some signed) (rest.drop (rest.length - pad)))
        else
          if rest.length < pad then .error .panic
          else .ok (.link lh none (rest.drop (rest.length - pad)))
    else
      if rest.length < pad then .error .panic
      else
        let mem := rest.take (rest.length - pad)
        let padding := rest.drop (rest.length - pad)
        if h.ptype = tData then .ok (.data mem padding)
        else if h.ptype = tError then .ok (.error mem padding)
        else .ok (.unknown rest)

/-- Splitting the link bytes into 48-byte links. -/
def readLinks : Nat → Bytes → List Link
  | 0, _ => []
  | n + 1, b => ⟨b.take 16, (b.drop 16).take 32⟩ :: readLinks n (b.drop 48)

/-- `PointThinPtr::unchecked_tail`, `crates/pkt/src/point_ptr.rs:239-263`.  Pointer ranges that do not lie in
order inside the point are undefined behaviour, reported as `panic`; `dbg` is `cfg!(debug_assertions)`. -/
def uncheckedTail (dbg : Bool) (pt : Bytes) : Except (Fault PktError) Tail :=
  let h := PointHeader.ofBytes pt
  let lh := LinkHead.ofBytes (slice pt 4 64)
  let size := if hasSig h.ptype then h.uset - 96 else h.uset
  if ¬ (64 ≤ lh.offRspace ∧ lh.offRspace ≤ lh.offData ∧ lh.offData ≤ size ∧ size ≤ pt.length) then
    .error .panic
  else
    let links := readLinks ((lh.offRspace - 64) / 48) (slice pt 64 lh.offRspace)
    let rspace := slice pt lh.offRspace lh.offData
    let data := slice pt lh.offData size
    if dbg && (Rooted.checkComponents rspace).isOk == false then .error .panic
    else .ok ⟨links, data, rspace⟩

/-- `PointThinPtr::internal_consitent_length`, `crates/pkt/src/point_ptr.rs:136-181`. -/
def internalConsistent (dbg : Bool) (pt : Bytes) : Res Unit :=
  let h := PointHeader.ofBytes pt
  match h.check with
  | .error e => .error (.err e)
  | .ok _ =>
    match fixed pt with
    | .error e => .error e
    | .ok bare =>
      let padding : Res Bytes := match bare with
        | .data _ p => .ok p
        | .error _ p => .ok p
        | .unknown _ => .ok []
        | .link lh _ p =>
          let size := if hasSig h.ptype then h.uset - 96 else h.uset
          if lh.offData > size then .error (.err .dataOffsetIncompatible)
          else if lh.offRspace > lh.offData then .error (.err .dataOffsetIncompatible)
          else if lh.offRspace < 64 then .error (.err .ispOffsetIncompatible)
          else if (lh.offRspace - 64) % 48 ≠ 0 then .error (.err .indivisableLinkbytes)
          else match uncheckedTail dbg pt with
            | .error e => .error e
            | .ok t =>
              match Rooted.checkComponents t.rspace with
              | .error e => .error (.err (.space e))
              | .ok () => .ok p
      match padding with
      | .error e => .error e
      | .ok p =>
        if p.length > 7 then .error (.err .paddingBits)
        else if !p.all (· == 255) then .error (.err .paddingBits)
        else .ok ()

/-- `PointThinPtr::check_signature`, `crates/pkt/src/point_ptr.rs:183-198`. -/
def checkSignature (C : Crypto) (pt : Bytes) : Res Unit :=
  match fixed pt with
  | .error e => .error e
  | .ok (.link _ (some s) _) =>
    if C.verify s.pubkey s.signature (C.hash (pt.take (pt.length - 96))) then .ok ()
    else .error (.err .invalidSignature)
  | .ok _ => .ok ()

/-- `Point for PointThinPtr`, `parts`, `crates/pkt/src/point_ptr.rs:288-323`. -/
def parts (dbg : Bool) (pt : Bytes) : Res Parts :=
  match fixed pt with
  | .error e => .error e
  | .ok bare =>
    let h := PointHeader.ofBytes pt
    match bare with
    | .data d _ => .ok ⟨h, .data d⟩
    | .error d _ => .ok ⟨h, .error d⟩
    | .unknown d => .ok ⟨h, .unknown d⟩
    | .link lh none _ =>
      match uncheckedTail dbg pt with
      | .error e => .error e
      | .ok t => .ok ⟨h, .link lh t⟩
    | .link lh (some s) _ =>
      match uncheckedTail dbg pt with
      | .error e => .error e
      | .ok t => .ok ⟨h, .key lh t s⟩

/-- A packet in its byte form (`NetPktPtr`, `crates/pkt/src/netpkt/netpkt_ptr.rs:22-28`): net header, hash
and the padded point bytes. -/
structure NetPkt where
  netHeader : Bytes
  hash : Bytes
  point : Bytes
deriving DecidableEq, Repr

/-- `as_netpkt_bytes` / `byte_segments` of the byte form, `crates/pkt/src/netpkt/netpkt_ptr.rs:97-99`. -/
def NetPkt.bytes (p : NetPkt) : Bytes := p.netHeader ++ p.hash ++ p.point
/-- `NetPktExt::size`, `crates/pkt/src/netpkt/mod.rs:148-150`. -/
def NetPkt.size (p : NetPkt) : Nat := (PointHeader.ofBytes p.point).size
def NetPkt.parts (dbg : Bool) (p : NetPkt) : Res Parts := Pkt.parts dbg p.point

/-- `NetPktPtr::check`, `crates/pkt/src/netpkt/netpkt_ptr.rs:87-96`. -/
def NetPkt.check (C : Crypto) (dbg : Bool) (p : NetPkt) (skipHash : Bool) : Res Unit :=
  match internalConsistent dbg p.point with
  | .error e => .error e
  | .ok () =>
    if skipHash then .ok ()
    else match checkSignature C p.point with
      | .error e => .error e
      | .ok () => if p.hash ≠ C.hash p.point then .error (.err .hashMismatch) else .ok ()

/-- `read_pkt`, `crates/pkt/src/read.rs:5-34`.  The aligned (borrowing) and unaligned (copying) branch give
the same packet, so alignment is not modelled.  A header that declares a point of size zero passes the header
check, and `fixed` then splits an empty slice at 4 (`crates/pkt/src/point_ptr.rs:100-103`): the `panic` case
here, since the point bytes below would not even hold the header that was checked. -/
def readPkt (C : Crypto) (dbg : Bool) (bytes : Bytes) (skipHash : Bool) : Res NetPkt :=
  if bytes.length < minNetpktSize then .error (.err .missingHeader)
  else
    let h := PointHeader.ofBytes (bytes.drop 64)
    match h.check with
    | .error e => .error (.err e)
    | .ok _ =>
      if h.size > bytes.length then .error (.err (.missingBytes h.size))
      else if h.paddedSize < 4 then .error .panic
      else
        let p : NetPkt := ⟨bytes.take 32, (bytes.drop 32).take 32, (bytes.drop 64).take h.paddedSize⟩
        match p.check C dbg skipHash with
        | .error e => .error e
        | .ok () => .ok p

/-- `linkpoint_header`, `crates/pkt/src/point_ptr.rs:284-286`. -/
def linkpointHeader (pt : Bytes) : Res (Option LinkHead) :=
  match fixed pt with
  | .error e => .error e
  | .ok (.link lh _ _) => .ok (some lh)
  | .ok _ => .ok none

/-- `PRIVATE`, `crates/pkt/src/consts.rs`: the all-zero group. -/
def privateGroup : Bytes := List.replicate 32 0

/-- `check_private` on the byte form, `crates/pkt/src/lib.rs:269-275`. -/
def checkPrivate (pt : Bytes) : Res Unit :=
  match linkpointHeader pt with
  | .error e => .error e
  | .ok (some lh) => if lh.group = privateGroup then .error (.err .privateGroup) else .ok ()
  | .ok none => .ok ()

/-- `check_private` on the enum form. -/
def Parts.checkPrivate (p : Parts) : Except PktError Unit :=
  match p.fields with
  | .link h _ => if h.group = privateGroup then .error .privateGroup else .ok ()
  | .key h _ _ => if h.group = privateGroup then .error .privateGroup else .ok ()
  | _ => .ok ()

/-- `lk_read`, `crates/linkspace/src/lib.rs:174-181` (`skip = false`), and `lk_read_unchecked` (183-193), which
passes `cfg!(debug_assertions)` as `skip`. -/
def lkReadWith (C : Crypto) (dbg skip : Bool) (buf : Bytes) (allowPrivate : Bool) : Res (NetPkt × Bytes) :=
  match readPkt C dbg buf skip with
  | .error e => .error e
  | .ok p =>
    match (if allowPrivate then .ok () else checkPrivate p.point : Res Unit) with
    | .error e => .error e
    | .ok () => .ok (p, buf.drop p.size)

def lkRead (C : Crypto) (dbg : Bool) := lkReadWith C dbg false
def lkReadUnchecked (C : Crypto) (dbg : Bool) := lkReadWith C dbg dbg

/-- `lk_write` of a packet in enum form, `crates/linkspace/src/lib.rs:196-206`: the bytes handed to the
writer. -/
def lkWriteParts (dbg : Bool) (p : NetParts) (allowPrivate : Bool) : Res Bytes :=
  match (if allowPrivate then .ok () else p.parts.checkPrivate : Except PktError Unit) with
  | .error e => .error (.err e)
  | .ok () =>
    match p.segments dbg with
    | .error e => .error e
    | .ok s => .ok s.bytes

/-- `lk_write` of a packet in byte form. -/
def lkWrite (p : NetPkt) (allowPrivate : Bool) : Res Bytes :=
  match (if allowPrivate then .ok () else checkPrivate p.point : Res Unit) with
  | .error e => .error e
  | .ok () => .ok p.bytes

/-- `NetPkt::as_netbox`, `crates/pkt/src/netpkt/mod.rs:60-82`: the packet copied into its byte form; with debug
assertions the copy is checked and a failure panics. -/
def NetParts.asNetbox (C : Crypto) (dbg : Bool) (p : NetParts) : Res NetPkt :=
  match p.segments dbg with
  | .error e => .error e
  | .ok s =>
    let b : NetPkt := ⟨s.bytes.take 32, (s.bytes.drop 32).take 32, s.bytes.drop 64⟩
    if dbg && (b.check C dbg false).isOk == false then .error .panic else .ok b

/-! ### rerouting -/

/-- `byte_segments` of the byte form: one segment, `crates/pkt/src/netpkt/netpkt_ptr.rs:97-99`. -/
def NetPkt.segments (p : NetPkt) : Segments := .fromArray [p.bytes]

/-- `ReroutePkt::byte_segments`, `crates/pkt/src/netpkt/reroute.rs:43-47`, for an inner packet with the
segments `s`. -/
def rerouteSegments (dbg : Bool) (s : Segments) (route : Bytes) : Except (Fault PktError) Segments :=
  match s with
  | [] => .error .panic
  | s0 :: rest => Segments.pushFront dbg (s0.drop 32 :: rest) route

/-- `NetPktHeader::hop`, `crates/pkt/src/netpkt/header.rs:104-108`, on the 32 header bytes: prefix 3, flags 1,
hop 4, stamp 8, ubits 16.  `U32::incr` saturates. -/
def hopHeader (h : Bytes) : Bytes :=
  h.take 3 ++ [h.getD 3 0 &&& 0x7f] ++ beBytes 4 (min (beNat ((h.drop 4).take 4) + 1) (2 ^ 32 - 1)) ++ h.drop 8

/-- The routing header fields that can be changed, `FieldEnum::mut_route`,
`crates/pkt/src/field_ids.rs:199-210`; offset and size in the 32 header bytes
(`crates/pkt/src/netpkt/header.rs:24-30`). -/
inductive RouteField where
  | flags | hop | stamp | ubits0 | ubits1 | ubits2 | ubits3
deriving DecidableEq, Repr
def RouteField.range : RouteField → Nat × Nat
  | .flags => (3, 1)
  | .hop => (4, 4)
  | .stamp => (8, 8)
  | .ubits0 => (16, 4)
  | .ubits1 => (20, 4)
  | .ubits2 => (24, 4)
  | .ubits3 => (28, 4)

/-- Overwrite `v.length` bytes at `off`. -/
def overwrite (b : Bytes) (off : Nat) (v : Bytes) : Bytes := b.take off ++ v ++ b.drop (off + v.length)

/-- `NetHeaderMutate`, `crates/core/src/mut_header.rs:20-29`. -/
structure Mutate where
  clear : Bytes
  set : Bytes
deriving DecidableEq, Repr
def Mutate.default : Mutate := ⟨List.replicate 32 255, List.replicate 32 0⟩

/-- `try_add_rule` with the `=` operator, `crates/core/src/mut_header.rs:51-61` and `mutate`, 79-92: the value
must have the size of the field; the clear mask is set to all ones and the value is stored in the set mask.
Every other operator is refused. -/
def Mutate.addRule (m : Mutate) (f : RouteField) (v : Bytes) : Option Mutate :=
  if v.length ≠ f.range.2 then none
  else some ⟨overwrite m.clear f.range.1 (List.replicate v.length 255), overwrite m.set f.range.1 v⟩

/-- `from_lst`, `crates/core/src/mut_header.rs:40-49`, after evaluation of the expressions. -/
def Mutate.fromRules (rules : List (RouteField × Bytes)) : Option Mutate :=
  rules.foldlM (fun m r => m.addRule r.1 r.2) Mutate.default

/-- `NetHeaderMutate::mutate`, `crates/core/src/mut_header.rs:30-39`. -/
def Mutate.apply (m : Mutate) (h : Bytes) : Bytes :=
  List.zipWith (fun hc s => hc ||| s) (List.zipWith (fun a b => a &&& b) h m.clear) m.set

/-! ### decoding a stream -/

/-- The header loop of `NetPktDecoder::next`, `crates/common/src/pkt_reader.rs:42-65`.  The reader is the
list of what its `read` calls deliver; an empty chunk is a call that returned `Ok(0)`, and after the last
chunk every call returns `Ok(0)`.  A chunk larger than the buffer is delivered in parts.  Reader errors are
not modelled. -/
def readHeaderLoop : Nat → Nat → List Bytes → Option (Bytes × List Bytes)
  | 0, _, chunks => some ([], chunks)
  | _ + 1, _, [] => none
  | need + 1, zeros, [] :: rest => if zeros > 3 then none else readHeaderLoop (need + 1) (zeros + 1) rest
  | need + 1, zeros, (x :: xs) :: rest =>
    if (x :: xs).length ≤ need + 1 then
      match readHeaderLoop (need + 1 - (x :: xs).length) zeros rest with
      | none => none
      | some (b, r) => some ((x :: xs) ++ b, r)
    else some ((x :: xs).take (need + 1), (x :: xs).drop (need + 1) :: rest)

/-- `Read::read_exact` on the same reader: fails on the first `Ok(0)`. -/
def readExact : Nat → List Bytes → Option (Bytes × List Bytes)
  | 0, chunks => some ([], chunks)
  | _ + 1, [] => none
  | _ + 1, [] :: _ => none
  | need + 1, (x :: xs) :: rest =>
    if (x :: xs).length ≤ need + 1 then
      match readExact (need + 1 - (x :: xs).length) rest with
      | none => none
      | some (b, r) => some ((x :: xs) ++ b, r)
    else some ((x :: xs).take (need + 1), (x :: xs).drop (need + 1) :: rest)

/-- Errors of the decoder, `crates/common/src/pkt_reader.rs:11-17`. -/
inductive DecError where
  | pkt (e : Fault PktError)
  | io
deriving DecidableEq, Repr

/-- `NetPktDecoder`, `crates/common/src/pkt_reader.rs:19-25`. -/
structure Decoder where
  allowPrivate : Bool := false
  hop : Bool := true
  skipHash : Bool := false

/-- `NetPktDecoder::next`, `crates/common/src/pkt_reader.rs:40-93`.  Result: the item and what is left of the
reader when a packet was returned.  `&mut s[68..]` panics when the packet size is 64. -/
def Decoder.next (C : Crypto) (dbg : Bool) (d : Decoder) (chunks : List Bytes) :
    Option (Except DecError (NetPkt × List Bytes)) :=
  match readHeaderLoop 68 0 chunks with
  | none => none
  | some (head, chunks) =>
    let h := PointHeader.ofBytes (head.drop 64)
    match h.check with
    | .error e => some (.error (.pkt (.err e)))
    | .ok _ =>
      if h.size < 68 then some (.error (.pkt .panic))
      else match readExact (h.size - 68) chunks with
        | none => some (.error .io)
        | some (body, chunks) =>
          let p : NetPkt := ⟨head.take 32, (head.drop 32).take 32, head.drop 64 ++ body⟩
          match p.check C dbg d.skipHash with
          | .error e => some (.error (.pkt e))
          | .ok () =>
            match (if d.allowPrivate then .ok () else checkPrivate p.point : Res Unit) with
            | .error e => some (.error (.pkt e))
            | .ok () =>
              some (.ok (if d.hop then { p with netHeader := hopHeader p.netHeader } else p, chunks))

/-- A caller that takes packets from the decoder until it ends or fails; at most `fuel` calls. -/
def Decoder.collect (C : Crypto) (dbg : Bool) (d : Decoder) : Nat → List Bytes → List NetPkt × Option DecError
  | 0, _ => ([], none)
  | fuel + 1, chunks =>
    match d.next C dbg chunks with
    | none => ([], none)
    | some (.error e) => ([], some e)
    | some (.ok (p, chunks)) =>
      let (ps, e) := Decoder.collect C dbg d fuel chunks
      (p :: ps, e)

/-- A caller that reads packets from a buffer with `lk_read` until it is empty or a read fails. -/
def readAll (C : Crypto) (dbg : Bool) : Nat → Bytes → List NetPkt × Option (Fault PktError)
  | 0, _ => ([], none)
  | fuel + 1, buf =>
    if buf = [] then ([], none)
    else match lkRead C dbg buf true with
      | .error e => ([], some e)
      | .ok (p, rest) =>
        let (ps, e) := readAll C dbg fuel rest
        (p :: ps, e)

end Verif.Pkt
