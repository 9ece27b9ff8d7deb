import Verif.Model.PktScope
import Verif.Model.TreeKey
import Verif.Model.Env
/-!
# Packets in Python and JavaScript

`ffi/linkspace-py/src/pynetpkt.rs`, `ffi/linkspace-js/src/jspkt.rs`.  An exception is the fault `err`, a panic (which `pyo3` turns into a `PanicException` and
which traps in JavaScript) the fault `panic`.  What an exception says is not modelled.
-/
namespace Verif.Ffi
open Verif Verif.Pkt Verif.Tree
open Verif.Pred (PRes)

/-- An error of the library as an exception. -/
def forget {ε α : Type} : Except (Fault ε) α → PRes α
  | .ok a => .ok a
  | .error (.err _) => .error (.err ())
  | .error .panic => .error .panic

/-! ### the shared copy of a packet -/

/-- `NetPktArc::from_header_and_copy`, `crates/pkt/src/netpkt/netpkt_arc.rs:112-128`: `head` are the four bytes of the point header and `content` what `copy_from`
writes, which has to be the bytes of the point behind its header.  As in `readPkt` a header that declares no bytes at all is a panic of the check. -/
def fromHeaderAndCopy (C : Crypto) (dbg : Bool) (nh hash head : Bytes) (skipHash : Bool) (content : Bytes) : Res NetPkt :=
  if (PointHeader.ofBytes head).paddedSize < 4 then .error .panic
  else
    let q : NetPkt := ⟨nh, hash, head ++ content⟩
    match q.check C dbg skipHash with
    | .error e => .error e
    | .ok () => .ok q

/-- `NetPkt::as_netarc`, `crates/pkt/src/netpkt/mod.rs:83-99`, of a packet in enum form: the first segment without the point header and the others are copied. -/
def arcOfParts (C : Crypto) (dbg : Bool) (p : NetParts) : PRes NetPkt :=
  match p.parts.segments with
  | [] => .error .panic
  | s0 :: rest =>
    match fromHeaderAndCopy C dbg p.netHeader p.hash p.parts.header.bytes false (Segments.bytes (s0.drop 4 :: rest)) with
    | .ok q => .ok q
    | .error _ => .error .panic
/-- The same of a packet in byte form, whose point is one segment. -/
def arcOfPtr (C : Crypto) (dbg : Bool) (q : NetPkt) : PRes NetPkt :=
  match fromHeaderAndCopy C dbg q.netHeader q.hash (q.point.take 4) false (q.point.drop 4) with
  | .ok q => .ok q
  | .error _ => .error .panic

/-- `Pkt`, `pynetpkt.rs:20-22`: `ReroutePkt<RecvPkt<NetPktArc>>`, a header of its own, the time it was received, and the packet. -/
structure PyPkt where
  netHeader : Bytes
  recv : Nat
  pkt : NetPkt
deriving DecidableEq, Repr

/-- `ReroutePkt::new` and `Pkt::from_arc`, `crates/pkt/src/netpkt/reroute.rs:18-25` and `pynetpkt.rs:24-29`; a packet that has no stamp of receipt gets the time. -/
def PyPkt.new (recv : Nat) (q : NetPkt) : PyPkt := ⟨q.netHeader, recv, q⟩
/-- `Pkt::from_dyn`, 30-35, of a built packet. -/
def PyPkt.ofParts (C : Crypto) (dbg : Bool) (recv : Nat) (p : NetParts) : PRes PyPkt := (arcOfParts C dbg p).map (PyPkt.new recv)
/-- `Pkt::from_dyn`, 30-35, of a packet in byte form (read from a buffer or from the database). -/
def PyPkt.ofPtr (C : Crypto) (dbg : Bool) (recv : Nat) (q : NetPkt) : PRes PyPkt := (arcOfPtr C dbg q).map (PyPkt.new recv)

/-! ### attributes, the same in both languages -/

/-- `tail()` of the byte form, `crates/pkt/src/point_ptr.rs:272-278`. -/
def tailOf (dbg : Bool) (q : NetPkt) : PRes (Option Tail) := (forget (q.parts dbg)).map (·.fields.tail?)
/-- `signed()`, `point_ptr.rs:280-282`, taken from all fields here. -/
def signedOf (dbg : Bool) (q : NetPkt) : PRes (Option Signed) := (forget (q.parts dbg)).map (·.fields.signed?)
/-- `linkpoint_header()`, `point_ptr.rs:284-286`. -/
def headerOf (q : NetPkt) : PRes (Option LinkHead) := forget (linkpointHeader q.point)

/-- `pkt_type`, `pynetpkt.rs:72-74`, `jspkt.rs:73-75`. -/
def pktType (q : NetPkt) : UInt8 := (PointHeader.ofBytes q.point).ptype
/-- `data`, `pynetpkt.rs:88-90`, `jspkt.rs:89-91`; also what `data_buffer` shows, `pynetpkt.rs:80-85`. -/
def dataOf (dbg : Bool) (q : NetPkt) : PRes Bytes := (forget (q.parts dbg)).map (·.fields.data')
/-- `domain`, `pynetpkt.rs:94-98`, `jspkt.rs:93-95`. -/
def domainOf (q : NetPkt) : PRes (Option Bytes) := (headerOf q).map (·.map (·.domain))
/-- `create`, `pynetpkt.rs:99-103`, `jspkt.rs:97-99`. -/
def createOf (q : NetPkt) : PRes (Option Bytes) := (headerOf q).map (·.map fun h => beBytes 8 h.stamp)
/-- `group`, `pynetpkt.rs:104-107`, `jspkt.rs:101-103`. -/
def groupOf (q : NetPkt) : PRes (Option Bytes) := (headerOf q).map (·.map (·.group))
/-- `rooted_spacename`, `pynetpkt.rs:114-119`, `jspkt.rs:109-111`. -/
def rootedOfPkt (dbg : Bool) (q : NetPkt) : PRes (Option Bytes) := (tailOf dbg q).map (·.map (·.rspace))
/-- `spacename`, `pynetpkt.rs:108-113`, `jspkt.rs:105-107`. -/
def spaceOfPkt (dbg : Bool) (q : NetPkt) : PRes (Option Bytes) :=
  match rootedOfPkt dbg q with
  | .error e => .error e
  | .ok none => .ok none
  | .ok (some r) => (forget (Rooted.space r)).map some
/-- `comp0` to `comp7`, `pynetpkt.rs:121-152`, `jspkt.rs:117-147`. -/
def compOf (dbg : Bool) (q : NetPkt) (i : Fin 8) : PRes Bytes :=
  match rootedOfPkt dbg q with
  | .error e => .error e
  | .ok r => forget (Rooted.comp (r.getD []) i.val)
/-- `comp_list`, `pynetpkt.rs:153-160`, `jspkt.rs:148-155`: all eight components (`comps_bytes`, `crates/pkt/src/rooted_space.rs:282-284`) sliced by the depth
byte. -/
def compList (dbg : Bool) (q : NetPkt) : PRes (Option (List Bytes)) :=
  match rootedOfPkt dbg q with
  | .error e => .error e
  | .ok none => .ok none
  | .ok (some r) =>
    match forget ((List.range 8).mapM (Rooted.comp r)) with
    | .error e => .error e
    | .ok l => if Rooted.depth r ≤ l.length then .ok (some (l.take (Rooted.depth r))) else .error .panic
/-- `depth`, `pynetpkt.rs:188-192`, `jspkt.rs:167-169`. -/
def depthOf (dbg : Bool) (q : NetPkt) : PRes (Option UInt8) := (tailOf dbg q).map (·.map fun t => t.rspace.headD 0)
/-- `pubkey`, `pynetpkt.rs:176-180`, `jspkt.rs:158-160`. -/
def pubkeyOf (dbg : Bool) (q : NetPkt) : PRes (Option Bytes) := (signedOf dbg q).map (·.map (·.pubkey))
/-- `signature`, `pynetpkt.rs:181-185`, `jspkt.rs:162-164`. -/
def signatureOf (dbg : Bool) (q : NetPkt) : PRes (Option Bytes) := (signedOf dbg q).map (·.map (·.signature))

/-! ### links -/

/-- `links` of Python, `pynetpkt.rs:257-265`; a point without links has no list. -/
def pyLinks (dbg : Bool) (q : NetPkt) : PRes (Option (List Link)) := (tailOf dbg q).map (·.map (·.links))
/-- `links` of JavaScript over `get_links`, `jspkt.rs:175-180`. -/
def jsLinks (dbg : Bool) (q : NetPkt) : PRes (List Link) := (tailOf dbg q).map fun t => (t.map (·.links)).getD []

/-- `Links::__getitem__`, `pynetpkt.rs:287-294`, on a 64 bit machine: a negative index is added to the length, wrapping. -/
def linkAt (ls : List Link) (idx : Int) : Option Link :=
  ls[if idx < 0 then (((ls.length : Int) + idx) % 2 ^ 64).toNat else idx.toNat]?

/-- `Links::__next__`, `pynetpkt.rs:296-300`, and `next`, `jspkt.rs:226-234`: the state is the index, which is counted past the end too. -/
def linkNext (ls : List Link) (idx : Nat) : PRes (Option Link × Nat) :=
  if idx + 1 < 2 ^ 64 then .ok (ls[idx]?, idx + 1) else .error .panic

/-- `links_bytes`, `jspkt.rs:196-198`. -/
def jsLinksBytes (dbg : Bool) (q : NetPkt) : PRes (Option Bytes) := (tailOf dbg q).map (·.map fun t => linksBytes t.links)
/-- `links_array`, `jspkt.rs:181-195`: pairs of views into the bytes. -/
def jsLinksArray (dbg : Bool) (q : NetPkt) : PRes (List (Bytes × Bytes)) :=
  match jsLinksBytes dbg q, jsLinks dbg q with
  | .error e, _ => .error e
  | _, .error e => .error e
  | .ok none, .ok _ => .ok []
  | .ok (some b), .ok ls => .ok ((List.range ls.length).map fun i =>
      ((b.drop (48 * i)).take 16, (b.drop (48 * i + 16)).take 32))

/-! ### comparing -/

/-- `CompareOp` of `pyo3`. -/
inductive CmpOp
  | lt | le | eq | ne | gt | ge
deriving DecidableEq, Repr

/-- What an operator says of an `Ordering`; `CompareOp::matches` of `pyo3`, and the operators of a `PartialOrd` that is total. -/
def CmpOp.holds : CmpOp → Ordering → Bool
  | .lt, o => o == .lt
  | .le, o => o != .gt
  | .eq, o => o == .eq
  | .ne, o => o != .eq
  | .gt, o => o == .gt
  | .ge, o => o != .lt

/-- The packet as its fields. -/
def enumOf (dbg : Bool) (q : NetPkt) : PRes NetParts := (forget (q.parts dbg)).map fun p => ⟨q.netHeader, q.hash, p⟩

/-- `Pkt::__richcmp__`, `pynetpkt.rs:55-67`: the keys are made first; equality looks at the hash only. -/
def richcmp (dbg : Bool) (op : CmpOp) (a b : PyPkt) : PRes Bool :=
  match enumOf dbg a.pkt, enumOf dbg b.pkt with
  | .error e, _ => .error e
  | _, .error e => .error e
  | .ok p, .ok q =>
    match op with
    | .eq => .ok (a.pkt.hash == b.pkt.hash)
    | .ne => .ok (a.pkt.hash != b.pkt.hash)
    | op => .ok (op.holds (pktCmp p q))

/-- `Pkt::__hash__`, `pynetpkt.rs:68-71`, for `w` bytes in an `isize`: `hash.0[8..w]` and the conversion to an array of `w` bytes, as the bytes that are
read as a number. -/
def pyHash (w : Nat) (a : PyPkt) : PRes Bytes :=
  if 8 ≤ w ∧ w ≤ a.pkt.hash.length then
    let b := (a.pkt.hash.take w).drop 8
    if b.length = w then .ok b else .error .panic
  else .error .panic

/-- The derived order of `Link`, `pynetpkt.rs:311-315`: the tag, then the pointer. -/
def linkCmp (a b : Link) : Ordering :=
  if bytesLt a.tag b.tag then .lt else if bytesLt b.tag a.tag then .gt
  else if bytesLt a.ptr b.ptr then .lt else if bytesLt b.ptr a.ptr then .gt else .eq
/-- `Link::__richcmp__`, `pynetpkt.rs:345-347`. -/
def linkRichcmp (op : CmpOp) (a b : Link) : Bool := op.holds (linkCmp a b)

/-! ### the header -/

/-- `NetFlags::from_bits`, `crates/pkt/src/netpkt/header.rs:129-142`: bits that no flag has are refused. -/
def flagBits : UInt8 := 0x8f

/-- The setters, `pynetpkt.rs:193-219`.  A value of the wrong size is an exception (the argument does not convert); flags that are not known are a panic. -/
def setAttr (f : RouteField) (v : Bytes) (p : PyPkt) : PRes PyPkt :=
  if v.length ≠ f.range.2 then .error (.err ())
  else if f = .flags ∧ v.any (fun x => x &&& flagBits != x) then .error .panic
  else .ok { p with netHeader := overwrite p.netHeader f.range.1 v }
/-- The getters, `pynetpkt.rs:220-255`; that of `stamp` is called `until`. -/
def getAttr (f : RouteField) (p : PyPkt) : Bytes := (p.netHeader.drop f.range.1).take f.range.2

/-- `lk_write`, `lib.rs:249-260`: the segments with the edited header in front, written to a zeroed object of the size of the packet. -/
def pyWrite (dbg : Bool) (p : PyPkt) (allowPrivate : Bool) : PRes Bytes :=
  match forget (if allowPrivate then .ok () else checkPrivate p.pkt.point : Res Unit) with
  | .error e => .error e
  | .ok () =>
    match forget (rerouteSegments dbg p.pkt.segments p.netHeader) with
    | .error e => .error e
    | .ok s => if s.bytes.length ≤ p.pkt.size then .ok (s.bytes ++ List.replicate (p.pkt.size - s.bytes.length) 0) else .error (.err ())

/-- `Pkt::__getitem__`, `pynetpkt.rs:48-54`: the field of `netpktptr()`, which is the packet inside with the header it came with. -/
def pyItem (dbg : Bool) (p : PyPkt) (name : Bytes) : PRes Bytes :=
  match Tpl.fieldTable.find? (fun e => e.1 == name) with
  | none => .error (.err ())
  | some (_, fd) =>
    match enumOf dbg p.pkt with
    | .error e => .error e
    | .ok q =>
      match fd.bytes q with
      | .ok b => .ok b
      | .abort => .error .panic
      | _ => .error (.err ())

/-- `lk_save_all`, `lib.rs:342-351`, and `lk_save`, 336-340, for one packet: `netpktptr()` of each is saved. -/
def pySaveAll (dbg : Bool) (io : Nat → Env.Call) (now : Nat) (disk : Env.Db) (ps : List PyPkt) : PRes (Env.Db × Except Env.Stop Nat) :=
  match ps.mapM (fun p => enumOf dbg p.pkt) with
  | .error e => .error e
  | .ok l => .ok (Env.lkSaveAll io now disk l)

end Verif.Ffi
