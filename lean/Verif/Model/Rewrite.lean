import Verif.Model.Collect
/-!
# Making the points of a stream anew with other fields

Models `cli/linkspace/src/rewrite.rs`.  As in `Model/PktCmd.lean` expressions are functions of the packet, and as in `Model/CliData.lean` reading data does
not fail.  The checks of the command line in 122-126 are left out.
-/
namespace Verif.Cmd
open Verif Verif.Pkt Verif.Env Verif.Pred Verif.Multi Verif.Rd

/-- `SignMode`, `cli/linkspace/src/rewrite.rs:114-120`. -/
inductive SignMode where
  | signAll | unsign | skip | resign
deriving DecidableEq

/-- `Rewrite`, 29-60.  The expressions get the number of packets read before, as they may depend on the clock, and the packet.  `key` is the key that
was opened, if it could be. -/
structure Rewrite (C : Crypto) where
  group : Option (Nat → NetParts → PRes Bytes) := none
  domain : Option (Nat → NetParts → PRes Bytes) := none
  rspace : Option (Nat → NetParts → PRes Bytes) := none
  create : Option (Nat → NetParts → PRes Nat) := none
  interpret : Bool := false
  ev : Nat → NetParts → Bytes → PRes Bytes := fun _ _ => .ok
  mode : SignMode
  key : Option C.Key := none
  write : List Dest := [{ out := .fd stdout }]
  forward : List Dest := []

/-- An option that is an expression, or the field of the point. -/
def orField {α : Type} (e : Option (Nat → NetParts → PRes α)) (n : Nat) (p : NetParts) (a : α) : PRes α :=
  match e with
  | none => .ok a
  | some f => f n p

/-- The data of the new point, 83-94. -/
def Rewrite.data {C : Crypto} (r : Rewrite C) (n : Nat) (p : NetParts) (rspace : Bytes) (t : Tail) (key : Option C.Key) (rd : Reader) : PRes (Bytes × Reader) :=
  if r.interpret then
    let free := calcFreeSpace (spaceOf rspace) t.links [] key.isSome
    if free < 0 then .error (.err ())
    else match readNext (r.ev n p) rd free.toNat [] with
      | .error e => .error e
      | .ok (false, _, _) => .error (.err ())
      | .ok (true, rd, d) => .ok (d, rd)
  else .ok (t.data, rd)

/-- `rewrite_pkt`, 61-112. -/
def rewritePkt {C : Crypto} (nh : Bytes) (r : Rewrite C) (n : Nat) (p : NetParts) (h : LinkHead) (t : Tail) (key : Option C.Key) (rd : Reader) :
    PRes (NetParts × Reader) :=
  match orField r.group n p h.group with
  | .error e => .error e
  | .ok group => match orField r.domain n p h.domain with
    | .error e => .error e
    | .ok domain => match orField r.rspace n p t.rspace with
      | .error e => .error e
      | .ok rspace => match r.data n p rspace t key rd with
        | .error e => .error e
        | .ok (data, rd) => match orField r.create n p h.stamp with
          | .error e => .error e
          | .ok stamp => match tryPoint C group domain rspace t.links data stamp key nh with
            | .error .panic => .error .panic
            | .error _ => .error (.err ())
            | .ok p => .ok (p, rd)

/-- A point that was made, as it is written. -/
def remade (dbg : Bool) (x : PRes (NetParts × Reader)) : PRes (Item × Reader) :=
  match x with
  | .error e => .error e
  | .ok (p, rd) => match Item.ofParts dbg p with
    | .error e => .error e
    | .ok x => .ok (x, rd)

/-- The cases of the loop, 149-185: what is written for a packet. -/
def rewriteItem (dbg : Bool) {C : Crypto} (nh : Bytes) (r : Rewrite C) (n : Nat) (x : Item) (rd : Reader) : PRes (Item × Reader) :=
  match x.parts.parts.fields with
  | .unknown _ => .error .panic
  | .data _ => .ok (x, rd)
  | .link h t => remade dbg (rewritePkt nh r n x.parts h t (if r.mode = .signAll then r.key else none) rd)
  | .key h t _ => match r.mode with
    | .skip => .ok (x, rd)
    | .unsign => remade dbg (rewritePkt nh r n x.parts h t none rd)
    | _ => match r.key with
      | none => .error (.err ())
      | some k => remade dbg (rewritePkt nh r n x.parts h t (some k) rd)
  | .error _ => .error .panic

/-- One round of the loop, 145-188. -/
def rewriteStep (dbg : Bool) (y : Sys) (o : IoOpts) {C : Crypto} (nh : Bytes) (r : Rewrite C) (s : World × Reader × Nat) (q : NetPkt) :
    (World × Reader × Nat) × PRes Bool :=
  match Item.ofPkt dbg q with
  | .error e => (s, .error e)
  | .ok x => match rewriteItem dbg nh r s.2.2 x s.2.1 with
    | .error e => (s, .error e)
    | .ok (z, rd) => match writeMulti y o r.write z s.1 with
      | (w, .error e) => ((w, rd, s.2.2 + 1), .error e)
      | (w, .ok ()) => match writeMulti y o r.forward x w with
        | (w, .error e) => ((w, rd, s.2.2 + 1), .error e)
        | (w, .ok ()) => ((w, rd, s.2.2 + 1), .ok true)

/-- `rewrite`, 121-190: the key is opened first if it will be needed. -/
def rewriteCmd (C : Crypto) (dbg : Bool) (y : Sys) (o : IoOpts) (nh : Bytes) (r : Rewrite C) (rd : Reader) (i : PktIn) (w : World) : Left World :=
  if (r.mode = .signAll ∨ r.mode = .resign) ∧ r.key.isNone then (w, .error (.err ()))
  else runCmd C dbg o i (rewriteStep dbg y o nh r) (rd, 0) w

end Verif.Cmd
