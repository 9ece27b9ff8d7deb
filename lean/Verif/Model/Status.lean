import Verif.Model.Pull
import Verif.Model.Api
import Verif.Model.Local
/-!
# Status requests and replies

Models `crates/linkspace/src/conventions/status.rs`.  The watches that the functions start are those of the queries given here
(`Model/Runtime.lean`, `Model/Matcher.lean`).
-/
namespace Verif.Conv
open Verif Verif.Pkt Verif.Pred Verif.Query Verif.QText Verif.Opt Verif.Env Verif.Lns Verif.Shake

/-- `STATUS_SPACE`, `crates/linkspace/src/conventions/status.rs:38`, by `rspace1`, `crates/pkt/src/rooted_space.rs:39-58`. -/
def statusRoot : Bytes := [1, 8, 8, 8, 8, 8, 8, 8, 7, 255] ++ ascii "status"

/-- `LkStatus`, 43-54. -/
structure Status where
  domain : Bytes
  group : Bytes
  objtype : Bytes
  inst : Option Bytes
  qid : Bytes

/-- `space.try_append_component(..)?`. -/
def appendComp (sp c : Bytes) : PRes Bytes :=
  match Rooted.tryAppendComponent sp c with
  | .ok r => .ok r
  | .error (.err _) => .error (.err ())
  | .error .panic => .error .panic

/-- `lk_status_space`, 77-85. -/
def statusSpace (st : Status) : PRes Bytes :=
  match appendComp statusRoot st.group with
  | .error e => .error e
  | .ok sp =>
    match appendComp sp st.objtype with
    | .error e => .error e
    | .ok sp =>
      match st.inst with
      | none => .ok sp
      | some i => appendComp sp i

/-- `lk_status_request`, 88-97; `now` is the time read by `lk_linkpoint` and `nh` the routing header of `NetOpts::Default`.  `as_netbox` copies
the packet and is left out (C01). -/
def statusRequest (C : Crypto) (nh : Bytes) (now : Nat) (st : Status) : PRes NetParts :=
  match statusSpace st with
  | .error e => .error e
  | .ok sp => ofPkt (tryLinkpoint C privateGroup st.domain sp [] [] now nh)

/-- `lk_query_push`, one after the other with `?`. -/
def pushAll (q : QText.Query) : List (Bytes × Bytes × Bytes) → PRes QText.Query
  | [] => .ok q
  | (f, t, v) :: r =>
    match q.push true f t v with
    | .error e => .error e
    | .ok q => pushAll q r

/-- `lk_status_overwatch`, 100-110. -/
def statusOverwatch (now : Nat) (st : Status) (maxAge : Nat) : PRes QText.Query :=
  match statusSpace st with
  | .error e => .error e
  | .ok sp =>
    pushAll .empty [(ascii "group", ascii "=", privateGroup), (ascii "domain", ascii "=", st.domain),
      (ascii "create", ascii ">", beBytes 8 (now - maxAge)), (ascii "prefix", ascii "=", spaceOf sp)]

/-- The condition of `lk_status_watch`, 131. -/
def isBare (p : NetParts) : Bool := p.getLinks.isEmpty && p.data.isEmpty

/-- What `lk_status_watch` did: the packets given to the callback, the answer, the request that was made, and the query that is watched with
the callback. -/
structure Asked where
  given : List (Nat × NetParts)
  ok : Bool
  request : Option NetParts
  query : QText.Query

/-- The closure of 130-141, as it is called by `lk_get_all`: what it has seen before are the packets it was given, the callback has seen those
that are not bare. -/
def statusClosure (cb : List (Nat × NetParts) → Nat × NetParts → Bool) (seen : List (Nat × NetParts)) (e : Nat × NetParts) : Bool :=
  if isBare e.2 then false else cb (seen.filter fun e => !isBare e.2) e

/-- `last_request` after the closure has seen these packets, 132. -/
def lastRequest (seen : List (Nat × NetParts)) : Nat :=
  seen.foldl (fun t e => if isBare e.2 then e.2.getCreate else t) 0

/-- `lk_status_watch`, 114-157, on the database `db`, in the default order of queries.  `cb` tells for the packets given to the callback before and the next one
whether it breaks; `now0` and `now1` are the times read for the query and for the request; `saved` tells whether saving the request succeeded. -/
def statusWatch (C : Crypto) (nh : Bytes) (db : Db) (now0 now1 : Nat) (saved : Bool) (cb : List (Nat × NetParts) → Nat × NetParts → Bool) (st : Status)
    (timeout : Nat) : LRes Asked :=
  match tryL (statusOverwatch now0 st timeout) with
  | .error e => .error e
  | .ok q =>
    match tryL (getMode q.conf) with
    | .error e => .error e
    | .ok m =>
      match runL (getAllWith db m q.preds (statusClosure cb)) with
      | .error e => .error e
      | .ok (seen, _) =>
        let made : LRes (Nat × Option NetParts) :=
          if lastRequest seen = 0 then
            match unwrapL (statusRequest C nh now1 st) with
            | .error e => .error e
            | .ok p => if saved then .ok (p.getCreate, some p) else .error .err
          else .ok (lastRequest seen, none)
        match made with
        | .error e => .error e
        | .ok (last, request) =>
          match tryL (pushAll q [(ascii "data_size", ascii ">", [0, 0]), (ascii "links_len", ascii ">", [0, 0]),
              (ascii "recv", ascii "<", beBytes 8 (min (last + timeout) (2 ^ 64 - 1))), (ascii "i_db", ascii "<", [0, 0, 0, 0]),
              ([], ascii "qid", st.qid)]) with
          | .error e => .error e
          | .ok q => .ok ⟨seen.filter (fun e => !isBare e.2), seen.any (fun e => !isBare e.2), request, q⟩

/-- `is_status_reply`, 159-169. -/
def isStatusReply (st : Status) (sp : Bytes) (p : NetParts) : Bool :=
  p.getDomain == st.domain && p.getGroup == privateGroup && getRspace p == sp && !p.getLinks.isEmpty && !p.data.isEmpty

/-- The callback of `lk_status_set`: it is told the domain, the group, the space and the link of its reply. -/
abbrev Update := Bytes → Bytes → Bytes → Link → PRes NetParts

/-- `ab`, `crates/byte-fmt/src/lib.rs:235-240`: filled with zeros in front. -/
def tagOf (s : Bytes) : Bytes := List.replicate (16 - s.length) 0 ++ s

/-- The query of `lk_status_set`, 214-224. -/
def statusSetQuery (st : Status) : PRes QText.Query :=
  match statusSpace { st with inst := none } with
  | .error e => .error e
  | .ok pre => pushAll .empty [(ascii "data_size", ascii "=", [0, 0]), (ascii "links_len", ascii "=", [0, 0]), (ascii "prefix", ascii "=", spaceOf pre),
      (ascii "i_db", ascii "<", [0, 0, 0, 0]), ([], ascii "qid", st.qid)]

/-- `instance.or(Some(b"default"))`, 194. -/
def Status.named (st : Status) : Status := { st with inst := some (st.inst.getD (ascii "default")) }

/-- Calling the callback, checking its reply and saving it, 207-211 and 244-248: the reply. -/
def statusUpdate (st : Status) (sp : Bytes) (up : Update) (saved : Bool) (link : Link) : PRes NetParts :=
  match up st.domain privateGroup sp link with
  | .error e => .error e
  | .ok p => if isStatusReply st sp p then if saved then .ok p else .error (.err ()) else .error (.err ())

/-- `lk_status_set`, 173-224: the space of the replies, the first one and the query that is watched. -/
def statusSet (st : Status) (up : Update) (saved : Bool) : PRes (Bytes × NetParts × QText.Query) :=
  match statusSpace st.named with
  | .error e => .error e
  | .ok sp =>
    match statusUpdate st.named sp up saved ⟨tagOf (ascii "init"), privateGroup⟩ with
    | .error e => .error e
    | .ok p =>
      match statusSetQuery st.named with
      | .error e => .error e
      | .ok q => .ok (sp, p, q)

/-- The callback of the watch of `lk_status_set`, 228-250, with the hash of the last reply: `none` if it does not reply.  An error ends the watch. -/
def onRequest (st : Status) (sp : Bytes) (prev : Bytes) (up : Update) (saved : Bool) (p : NetParts) : PRes (Option NetParts) :=
  if (getRspace p).headD 0 = sp.headD 0 ∧ spaceOf (getRspace p) ≠ spaceOf sp then .ok none
  else
    match statusUpdate st sp up saved ⟨tagOf (ascii "prev"), prev⟩ with
    | .error e => .error e
    | .ok r => .ok (some r)

/-- The packets given to the watch one after the other: the replies made, and the error that ended it. -/
def answer (st : Status) (sp : Bytes) : Bytes → List (NetParts × Update × Bool) → List NetParts × Option (Fault Unit)
  | _, [] => ([], none)
  | prev, (p, up, saved) :: r =>
    match onRequest st sp prev up saved p with
    | .error e => ([], some e)
    | .ok none => answer st sp prev r
    | .ok (some p) => let a := answer st sp p.hash r; (p :: a.1, a.2)

end Verif.Conv
