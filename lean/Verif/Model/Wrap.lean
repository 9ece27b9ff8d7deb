import Verif.Model.PyPkt
/-!
# Wrapped packets

The forms of a packet and the wrappers of `crates/pkt/src/netpkt/reroute.rs`.  References and `Box` forward to the packet inside
(`crates/pkt/src/netpkt/mod.rs:103-133`) and are left out.
-/
namespace Verif.Pkt
open Verif Verif.Ffi

/-- A packet: `NetPktPtr`, `NetPktFatPtr` (in a box), `NetPktArc`, `NetPktParts`, or inside of `ReroutePkt` (`crates/pkt/src/netpkt/reroute.rs:13-16`), `RecvPkt` (67-70)
or `ShareArcPkt` (129-132, with the shared copy once it is made). -/
inductive Wrap where
  | ptr (q : NetPkt)
  | fat (q : NetPkt)
  | arc (q : NetPkt)
  | parts (p : NetParts)
  | route (header : Bytes) (w : Wrap)
  | recv (stamp : Nat) (w : Wrap)
  | share (copy : Option NetPkt) (w : Wrap)

namespace Wrap

/-- `net_header_ref`, `reroute.rs:40-42`, 114-116, 165-167; `netpkt_ptr.rs:159-161`, 190-192; `netpkt_arc.rs:166-168`; `netpkt_parts.rs`. -/
def netHeader : Wrap → Bytes
  | ptr q | fat q | arc q => q.netHeader
  | parts p => p.netHeader
  | route h _ => h
  | recv _ w | share _ w => w.netHeader

/-- `hash_ref`, `reroute.rs:36-38`, 107-109, 158-160. -/
def hash : Wrap → Bytes
  | ptr q | fat q | arc q => q.hash
  | parts p => p.hash
  | route _ w | recv _ w | share _ w => w.hash

/-- `recv`, `reroute.rs:58-60`, 110-112, 161-163; none of the forms has one. -/
def received : Wrap → Option Nat
  | ptr _ | fat _ | arc _ | parts _ => none
  | route _ w | share _ w => w.received
  | recv t _ => some t

/-- `as_point().pkt_segments()`, `crates/pkt/src/point_ptr.rs:331-333` and `crates/pkt/src/point_parts.rs:99-125`; the wrappers forward `as_point`. -/
def pointSegments : Wrap → Segments
  | ptr q | fat q | arc q => .fromArray [q.point]
  | parts p => p.parts.segments
  | route _ w | recv _ w | share _ w => w.pointSegments

/-- The bytes of `as_point().point_header()`. -/
def pointHeader : Wrap → Bytes
  | ptr q | fat q | arc q => q.point.take 4
  | parts p => p.parts.header.bytes
  | route _ w | recv _ w | share _ w => w.pointHeader

/-- `byte_segments`, `reroute.rs:43-47`, 118-120, 173-175; `netpkt_ptr.rs:149-151`, 194-196; `netpkt_arc.rs:174-176`; `netpkt_parts.rs:56-63`. -/
def segments (dbg : Bool) : Wrap → Res Segments
  | ptr q | fat q | arc q => .ok q.segments
  | parts p => p.segments dbg
  | route h w =>
    match w.segments dbg with
    | .error e => .error e
    | .ok s => rerouteSegments dbg s h
  | recv _ w | share _ w => w.segments dbg

/-- `NetPkt::as_netbox`, `crates/pkt/src/netpkt/mod.rs:60-82`, from the segments. -/
def boxOf (C : Crypto) (dbg : Bool) : Res Segments → Res NetPkt
  | .error e => .error e
  | .ok s =>
    let b : NetPkt := ⟨s.bytes.take 32, (s.bytes.drop 32).take 32, s.bytes.drop 64⟩
    if dbg && (b.check C dbg false).isOk == false then .error .panic else .ok b

/-- `as_netbox`: `reroute.rs:48-52` sets the header of the box of the packet inside; the others have that of the trait, `NetPktArc` that of the pointer in it
(`netpkt_arc.rs:186-188`). -/
def asNetbox (C : Crypto) (dbg : Bool) : Wrap → Res NetPkt
  | route h w =>
    match w.asNetbox C dbg with
    | .error e => .error e
    | .ok b => .ok { b with netHeader := h }
  | w => boxOf C dbg (w.segments dbg)

/-- `unwrap` and `expect`. -/
def unwrapped : Res NetPkt → Res NetPkt
  | .ok q => .ok q
  | .error _ => .error .panic

/-- `NetPkt::as_netarc`, `crates/pkt/src/netpkt/mod.rs:83-99`. -/
def arcDefault (C : Crypto) (dbg : Bool) (w : Wrap) : Res NetPkt :=
  match w.pointSegments with
  | [] => .error .panic
  | s0 :: rest => unwrapped (fromHeaderAndCopy C dbg w.netHeader w.hash w.pointHeader false (Segments.bytes (s0.drop 4 :: rest)))

/-- `as_netarc`: `netpkt_ptr.rs:129-142` (without checking the hash), `netpkt_arc.rs:170-172`, `reroute.rs:169-171`; the others have that of the trait. -/
def asNetarc (C : Crypto) (dbg : Bool) : Wrap → Res NetPkt
  | ptr q => unwrapped (fromHeaderAndCopy C dbg q.netHeader q.hash (q.point.take 4) true (q.point.drop 4))
  | arc q => .ok q
  | share (some a) _ => .ok a
  | share none w => w.asNetarc C dbg
  | fat q => arcDefault C dbg (fat q)
  | parts p => arcDefault C dbg (parts p)
  | route h w => arcDefault C dbg (route h w)
  | recv t w => arcDefault C dbg (recv t w)

/-- `borrow_arc` and `as_netarc` of `ShareArcPkt` keep the copy, `reroute.rs:141-145`. -/
def keepArc (C : Crypto) (dbg : Bool) : Wrap → Res Wrap
  | share none w =>
    match w.asNetarc C dbg with
    | .error e => .error e
    | .ok a => .ok (share (some a) w)
  | w => .ok w

/-- Setting the header of a rerouted packet inside of a shared one: both fields are public (`reroute.rs:13-16`, 129-132). -/
def setHeader (h : Bytes) : Wrap → Wrap
  | share c (route _ w) => share c (route h w)
  | w => w

end Wrap
end Verif.Pkt
