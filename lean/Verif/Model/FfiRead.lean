import Verif.Model.PyPkt
/-!
# Model of reading and writing packets in the bindings

`ffi/linkspace-js/src/lib.rs:234-312`, `ffi/linkspace-py/src/lib.rs:262-268` and `crates/pkt/src/netpkt/serde_impl.rs`.
-/
namespace Verif.Ffi
open Verif Verif.Pkt
open Verif.Pred (PRes)

/-- What `lk_read` of JavaScript throws: a number, or the text of an error of the packet library (`ffi/linkspace-js/src/utils.rs:6-25`). -/
inductive JsReadErr
  | number (n : Nat)
  | text (e : PktError)
deriving DecidableEq, Repr

/-- The result of a library function with its error turned into a text. -/
def jsText {α : Type} : Res α → Except (Fault JsReadErr) α
  | .ok a => .ok a
  | .error (.err e) => .error (.err (.text e))
  | .error .panic => .error .panic

/-- `Uint8Array.slice(a, b)` with `a` and `b` not negative: the elements from `a` to before `b`, as far as there are any. -/
def jsSlice (b : Bytes) (i j : Nat) : Bytes := (b.take j).drop i

/-- `_read`, `ffi/linkspace-js/src/lib.rs:273-312`. The first 68 bytes are copied into a header of which the three parts are taken, the rest is
copied behind it. The result is the packet and the bytes behind it. -/
def jsReadWith (C : Crypto) (dbg skipHash : Bool) (bytes : Bytes) (allowPrivate : Bool) : Except (Fault JsReadErr) (NetPkt × Bytes) :=
  let bufsize := bytes.length
  if bufsize < minNetpktSize then .error (.err (.number minNetpktSize))
  else
    let partial' := jsSlice bytes 0 minNetpktSize
    let head := jsSlice partial' 64 68
    let h := PointHeader.ofBytes head
    match h.check with
    | .error e => .error (.err (.text e))
    | .ok _ =>
      let pktsize := h.size
      if pktsize > bufsize then .error (.err (.number pktsize))
      else
        match jsText (fromHeaderAndCopy C dbg (jsSlice partial' 0 32) (jsSlice partial' 32 64) head skipHash (jsSlice bytes 68 pktsize)) with
        | .error e => .error e
        | .ok pkt =>
          match jsText (if allowPrivate then .ok () else checkPrivate pkt.point) with
          | .error e => .error e
          | .ok () => .ok (pkt, jsSlice bytes pktsize bufsize)
/-- `lk_read`, 253-255; the second argument is optional and `false` if left out. -/
def jsRead (C : Crypto) (dbg : Bool) (bytes : Bytes) (allowPrivate : Option Bool) := jsReadWith C dbg false bytes (allowPrivate.getD false)
/-- `lk_read_unchecked`, 266-271. -/
def jsReadUnchecked (C : Crypto) (dbg : Bool) (bytes : Bytes) (allowPrivate : Option Bool) := jsReadWith C dbg true bytes (allowPrivate.getD false)

/-- `lk_write`, 234-241: an array of the size in the header, into which the bytes are copied (`copy_from` panics if there are more or fewer). -/
def jsWrite (q : NetPkt) (allowPrivate : Option Bool) : Except (Fault JsReadErr) Bytes :=
  match jsText (if allowPrivate = some true then .ok () else checkPrivate q.point) with
  | .error e => .error e
  | .ok () => if q.size = q.bytes.length then .ok q.bytes else .error .panic

/-- `lk_read` of Python, `ffi/linkspace-py/src/lib.rs:262-268`: `lk_read` of the library, and the packet becomes an object. -/
def pyRead (C : Crypto) (dbg : Bool) (recv : Nat) (buf : Bytes) (allowPrivate : Bool) : PRes (PyPkt × Bytes) :=
  match forget (lkRead C dbg buf allowPrivate) with
  | .error e => .error e
  | .ok (q, rest) =>
    match PyPkt.ofPtr C dbg recv q with
    | .error e => .error e
    | .ok o => .ok (o, rest)

/-- `as_netbox`, `crates/pkt/src/netpkt/mod.rs:60-82`, of a packet in byte form. -/
def boxOfPtr (C : Crypto) (dbg : Bool) (q : NetPkt) : Res NetPkt :=
  if dbg && (q.check C dbg false).isOk == false then .error .panic else .ok q

/-- `Serialize`, `crates/pkt/src/netpkt/serde_impl.rs:18-41`: the bytes of the packet, which the format writes as a byte string. -/
def serialize (q : NetPkt) : Bytes := q.bytes
/-- `Deserialize for NetPktBox`, 43-52. `aligned` says whether the bytes of the format start at a multiple of eight: then the packet is borrowed and `into_owned`
copies it (`crates/pkt/src/netpkt/netpkt_ptr.rs:32-38`). -/
def deserializeBox (C : Crypto) (dbg aligned : Bool) (b : Bytes) : Res NetPkt :=
  match readPkt C dbg b false with
  | .error e => .error e
  | .ok q => if aligned then boxOfPtr C dbg q else .ok q
/-- `Deserialize for NetPktArc`, 53-62. -/
def deserializeArc (C : Crypto) (dbg : Bool) (b : Bytes) : Res NetPkt :=
  match readPkt C dbg b false with
  | .error e => .error e
  | .ok q =>
    match arcOfPtr C dbg q with
    | .ok q => .ok q
    | .error _ => .error .panic

end Verif.Ffi
