import Verif.Model.Runtime
import Verif.Model.QueryText
import Verif.Model.Options
/-!
# Handlers around callbacks

Models `crates/common/src/runtime/handlers.rs` and `watch_query` of `crates/common/src/runtime/rx.rs`.  A handler is what the program
(`Model/Runtime.lean`) does for a watch; the handlers here are made from another one.
-/
namespace Verif.Rt
open Verif Verif.Pkt Verif.Pred Verif.Env Verif.Query Verif.Matcher Verif.Opt

variable {C : Type}

/-- `PktStreamHandler`, `crates/common/src/runtime/handlers.rs:35-40`, with state `C`. -/
structure Handler (C : Type) where
  handle : C → Nat × NetParts → Act C
  stopped : C → Reason → Act C

/-- Going on with the new state if the callback did not break: `?` on a `ControlFlow`. -/
def Act.andThen : Act C → (C → Act C) → Act C
  | .ret c true, _ => .ret c true
  | .ret c false, k => k c
  | .ask q f, k => .ask q fun a => (f a).andThen k

/-- Going on in any case. -/
def Act.always : Act C → (C → Act C) → Act C
  | .ret c _, k => k c
  | .ask q f, k => .ask q fun a => (f a).always k

/-- `ReroutePkt::new(pkt)` and changed flags, `crates/pkt/src/netpkt/reroute.rs:18-25`; byte 3 of the routing header
(`crates/pkt/src/netpkt/header.rs:26-32`).  The rest of the packet and its receive stamp are those of the inner packet. -/
def reflag (f : UInt8 → UInt8) (p : NetParts) : NetParts := { p with netHeader := p.netHeader.set 3 (f (p.netHeader.getD 3 0)) }

/-- `LINKED_IN_FUTURE_PKT` and `LINKED_IN_PREVIOUS_PKT`, `crates/pkt/src/netpkt/header.rs:136-137`. -/
def flagFuture : UInt8 := 2
def flagPrevious : UInt8 := 4

/-- The flags of the packet itself, `crates/common/src/runtime/handlers.rs:97-100`. -/
def ownFlags (f : UInt8) : UInt8 := f &&& ~~~ flagFuture &&& ~~~ flagPrevious
/-- The flags of a linked packet, 114-117. -/
def linkedFlags (f : UInt8) : UInt8 := (f ||| flagFuture) &&& ~~~ flagPrevious

/-- The loop of `FollowHandler`, 108-122; what cannot be read is left out. -/
def followLinks (h : Handler C) (d : Db) : List Link → C → Act C
  | [], c => .ret c false
  | l :: ls, c =>
    match d.read l.ptr with
    | none => followLinks h d ls c
    | some e => (h.handle c (e.1, reflag linkedFlags e.2)).andThen (followLinks h d ls)

/-- `FollowHandler`, 90-126.  The reader is taken once, after the packet was given to the inner handler.  `stopped` is that of the trait, which
does nothing (39). -/
def follow (h : Handler C) : Handler C where
  handle c e := (h.handle c (e.1, reflag ownFlags e.2)).andThen fun c =>
    if e.2.getLinks.isEmpty then .ret c false
    else .ask .reader fun a =>
      match a with
      | .db d => followLinks h d e.2.getLinks c
      | _ => .ret c false
  stopped c _ := .ret c false

/-- `NotifyClose::new`, 66-75: the packet that is given on closing.  A packet that was not received by a database has receive stamp 0 here. -/
def notifyOrigin (c : Conf) (p : NetParts) : Option NetParts :=
  match getOption c (ascii "notify-close") with
  | .ok (some _) => some p
  | _ => none

/-- `NotifyClose`, 78-89.  Simplified: `take` is left out, a watch is stopped once. -/
def notifyClose (origin : Option NetParts) (h : Handler C) : Handler C where
  handle := h.handle
  stopped c r :=
    match origin with
    | none => h.stopped c r
    | some p => (h.handle c (0, p)).always fun c => h.stopped c r

/-- `watch_query`, `crates/common/src/runtime/rx.rs:360-383`, up to the call of `watch`: the id, the mode and the handler.  Without an id it
panics. -/
def watchQuery (c : Conf) (h : Handler C) : PRes (Bytes × Mode × Handler C) :=
  match getMode c with
  | .error e => .error e
  | .ok m =>
    match getOption c (ascii "qid") with
    | .error (.err _) => .error (.err ())
    | .error .panic => .error .panic
    | .ok none => .error .panic
    | .ok (some none) => .error .panic
    | .ok (some (some id)) =>
      match getOption c (ascii "follow") with
      | .error (.err _) => .error (.err ())
      | .error .panic => .error .panic
      | .ok none => .ok (id, m, h)
      | .ok (some _) => .ok (id, m, follow h)

/-- The watch of `setup_watch`, `cli/linkspace/src/multi_watch.rs:99-101`. -/
def closingWatch (c : Conf) (origin : NetParts) (h : Handler C) : PRes (Bytes × Mode × Handler C) := watchQuery c (notifyClose (notifyOrigin c origin) h)

/-- A program whose watches have these handlers; the state of a watch tells which one. -/
def handlers (pick : C → Handler C) (clock : Nat → Nat) : Prog C := ⟨fun c => (pick c).handle c, fun c => (pick c).stopped c, clock⟩

end Verif.Rt
