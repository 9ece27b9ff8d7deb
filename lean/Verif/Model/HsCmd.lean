import Verif.Model.Handshake
import Verif.Model.PktCmd
/-!
# The handshake program (`cli/handshake/src/main.rs`)

Decrypting the key and opening the destinations come before; they have succeeded.  The messages are boxed when they are made (`as_netbox`),
which changes none of their bytes (C01).
-/
namespace Verif.HsCmd
open Verif Verif.Pkt Verif.Cmd Verif.Pred Verif.Multi Verif.Shake

/-- `Handshake`, `cli/handshake/src/main.rs:37-51`. -/
inductive Mode where
  | connect | serve | phase0 | phase1 | phase2 | phase3
deriving DecidableEq, Repr

/-- `Opts`, 15-35, and the default routing header of new packets. -/
structure Opts (C : Crypto) where
  io : IoOpts := {}
  write : List Dest
  forward : List Dest := []
  maxDiff : Option Nat := none
  id : C.Key
  nh : Bytes

/-- The clock where it is read: when the first message is made, when the stamp of the other's is checked, and when the answer is made. -/
structure Clock where
  made : Nat
  seen : Nat
  sign : Nat

/-- `writer`, 76: the message to all of `--write`. -/
def send {C : Crypto} (dbg : Bool) (y : Sys) (o : Opts C) (p : NetParts) (w : World) : Left World :=
  Left.get w (Item.ofParts dbg p) fun x => writeMulti y o.io o.write x w

/-- What is left of the input: packets, and the error after them. -/
abbrev Inp := List NetPkt × Option DecError

/-- `inp.next()` of 79-87 with the `?`s after it: the next packet after it was forwarded.  No further packet is an error, 92, 100-101, 109-111, 118, 126, 130. -/
def need {C : Crypto} (dbg : Bool) (y : Sys) (o : Opts C) (w : World) (i : Inp) (k : World → Inp → NetParts → Left World) : Left World :=
  match i with
  | ([], none) => (w, .error (.err ()))
  | ([], some (.pkt .panic)) => (w, .error .panic)
  | ([], some _) => (w, .error (.err ()))
  | (q :: qs, e) => Left.get w (Item.ofPkt dbg q) fun x => Left.next (writeMulti y o.io o.forward x w) fun w => k w (qs, e) x.parts

/-- The `match mode`, 88-134. -/
def modes (C : Crypto) (dbg : Bool) (y : Sys) (o : Opts C) (t : Clock) (w : World) (i : Inp) : Mode → Left World
  | .phase0 => Left.get w (phase0 C o.nh t.made o.id) fun p => send dbg y o p w
  | .phase1 => need dbg y o w i fun w _ p0 => Left.get w (phase1 C o.nh t.seen t.sign p0 o.id o.maxDiff) fun p => send dbg y o p w
  | .phase2 => need dbg y o w i fun w i p0 => need dbg y o w i fun w _ p1 =>
      Left.get w (phase2 C o.nh t.seen t.sign p0 p1 o.id o.maxDiff) fun p => send dbg y o p.1 w
  | .phase3 => need dbg y o w i fun w i p0 => need dbg y o w i fun w i p1 => need dbg y o w i fun w _ p2 =>
      Left.get w (phase3 C p0 p1 p2 o.id) fun _ => (w, .ok ())
  | .connect => Left.get w (phase0 C o.nh t.made o.id) fun p0 => Left.next (send dbg y o p0 w) fun w =>
      need dbg y o w i fun w _ p1 => Left.get w (phase2 C o.nh t.seen t.sign p0 p1 o.id o.maxDiff) fun p => send dbg y o p.1 w
  | .serve => need dbg y o w i fun w i p0 => Left.get w (phase1 C o.nh t.seen t.sign p0 o.id o.maxDiff) fun p1 =>
      Left.next (send dbg y o p1 w) fun w => need dbg y o w i fun w _ p2 => Left.get w (phase3 C p0 p1 p2 o.id) fun _ => (w, .ok ())

/-- `main`, 54-135. -/
def main (C : Crypto) (dbg : Bool) (y : Sys) (o : Opts C) (t : Clock) (m : Mode) (i : PktIn) (w : World) : Left World :=
  let o := { o with io := o.io.defaultHop }
  match input C dbg o.io i with
  | .error e => (w, .error e)
  | .ok i => modes C dbg y o t w i m

end Verif.HsCmd
