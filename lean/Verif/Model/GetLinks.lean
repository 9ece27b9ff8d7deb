import Verif.Model.Handlers
import Verif.Model.Collect
/-!
# Writing the packets that are linked to

Models `cli/linkspace/src/get_links.rs`.  The packets given to `--write` are those the callbacks are given, in this order.  Simplified: writing them does not fail
(a failure would break the callback, and be logged), and they are written when `get_links` returns, which is before anything else is written.  The mode `pause` is
left out.
-/
namespace Verif.Rt
open Verif Verif.Pkt Verif.Pred Verif.Env Verif.Query Verif.Opt Verif.QText

/-- `GetLinksMode`, `cli/linkspace/src/get_links.rs:31-41`, without `Pause`. -/
inductive LinkMode where
  | skip | error | watch
deriving DecidableEq

/-- The id of the watch for the `i`-th link, 52-53. -/
def linkQid (i : Nat) (l : Link) : Bytes := beBytes 8 i ++ l.ptr

/-- The query for a link, 54. -/
def linkQuery (i : Nat) (l : Link) : QText.Query :=
  { QText.Query.hashEq l.ptr with conf := addOption (QText.Query.hashEq l.ptr).conf (ascii "qid") [linkQid i l] }

/-- `get_links`, 44-89, for the links from the `i`-th on; `k` is told whether it returns without an error.  The state of a callback is its level.  `link_query_opts`
shows what `lk_watch` takes from the query. -/
def getLinks (m : LinkMode) (level : Nat) (k : Bool → Act Nat) : Nat → List Link → Act Nat
  | _, [] => k true
  | i, l :: ls =>
    .ask (.watch (linkQid i l) ⟨.hash, true⟩ (linkQuery i l).preds level) fun a =>
      match a with
      | .watched _ true => getLinks m level k (i + 1) ls
      | _ =>
        match m with
        | .skip => .ask (.stop (linkQid i l) false) fun _ => getLinks m level k (i + 1) ls
        | .watch => .ask .process fun _ => getLinks m level k (i + 1) ls
        | .error => k false

/-- The callback of `get_links`, 59-65; `try_cb` makes an error a break, `crates/linkspace/src/lib.rs:1034-1047`. -/
def linkProg (m : LinkMode) (clock : Nat → Nat) : Prog Nat where
  handle level e :=
    match level with
    | 0 => .ret 0 false
    | n + 1 => getLinks m n (fun ok => .ret (n + 1) (!ok)) 0 e.2.getLinks
  stopped level _ := .ret level false
  clock := clock

/-- The packets given to callbacks. -/
def givenIn (t : List Ev) : List (Nat × NetParts) := t.filterMap fun e =>
  match e with
  | .call _ e => some e
  | _ => none

end Verif.Rt

namespace Verif.Cmd
open Verif Verif.Pkt Verif.Env Verif.Pred Verif.Multi Verif.Rt

/-- `GetLinks`, 11-29; `level` is `rec`, 100. -/
structure GetLinks where
  mode : LinkMode
  level : Nat := 0
  write : List Dest := [{ out := .fd stdout }]
  forward : List Dest := [{ out := .fd stdout }]

/-- `recursive.unwrap_or(..)`, 100. -/
def linkLevel (recursive : Option Nat) (forever : Bool) : Nat := recursive.getD (if forever then 2 ^ 64 - 1 else 0)

/-- Writing the packets given, `out_fnc`, 110-112. -/
def writeGiven (dbg : Bool) (y : Sys) (o : IoOpts) (ds : List Dest) : World → List NetParts → Left World
  | w, [] => (w, .ok ())
  | w, p :: ps =>
    match Item.ofParts dbg p with
    | .error e => (w, .error e)
    | .ok x => Left.next (writeMulti y o ds x w) fun w => writeGiven dbg y o ds w ps

/-- One round of the loop, 113-120, with the runtime next to the world. -/
def getLinksStep (dbg : Bool) (y : Sys) (o : IoOpts) (g : GetLinks) (clock : Nat → Nat) (fuel : Nat) (s : World × RT Nat) (q : NetPkt) :
    (World × RT Nat) × PRes Bool :=
  match Item.ofPkt dbg q with
  | .error e => (s, .error e)
  | .ok x =>
    if x.parts.getLinks.isEmpty then let r := onward (writeMulti y o g.forward x s.1); ((r.1, s.2), r.2)
    else
      match run (linkProg g.mode clock) fuel s.2 (getLinks g.mode g.level (fun ok => .ret g.level (!ok)) 0 x.parts.getLinks) with
      | .error _ => (s, .error .panic)
      | .ok (rt, _, failed) =>
        match writeGiven dbg y o g.write s.1 (((givenIn rt.trace).drop (givenIn s.2.trace).length).map (·.2)) with
        | (w, .error e) => ((w, rt), .error e)
        | (w, .ok ()) =>
          if failed then ((w, rt), .error (.err ()))
          else let r := onward (writeMulti y o g.forward x w); ((r.1, rt), r.2)

/-- `exec`, 91-125, for the modes `skip` and `error`, with the files `d`. -/
def getLinksCmd (C : Crypto) (dbg : Bool) (y : Sys) (o : IoOpts) (g : GetLinks) (clock : Nat → Nat) (fuel : Nat) (d : Db) (i : PktIn) (w : World) : Left World :=
  runCmd C dbg o i (getLinksStep dbg y o g clock fuel) (start d) w

end Verif.Cmd
