import Verif.Model.Status
import Verif.Model.Matcher
import Verif.Model.CliData
/-!
# The command `status`

Models `cli/linkspace/src/status.rs`.  The arguments are taken as evaluated.
-/
namespace Verif.Conv
open Verif Verif.Pkt Verif.Pred Verif.Query Verif.QText Verif.Opt Verif.Env Verif.Lns Verif.Shake Verif.Matcher Verif.Rd

/-! ### `status watch` -/

/-- `StatusWatch`, `cli/linkspace/src/status.rs:92-110`; `writeRequest` tells whether a destination is given for it. -/
structure WatchOpts where
  timeout : Nat
  multi : Bool := false
  printQuery : Bool := false
  writeRequest : Bool := false

/-- What the command did: the query it printed, the request it wrote, or the packets given to its writer. -/
inductive WatchOut where
  | query (q : QText.Query)
  | request (p : NetParts)
  | replies (l : List (Nat × NetParts))

/-- What the command meets: the times read for the query it prints and the request it writes, and by `lk_status_watch` for its query and its request;
whether saving the request succeeds; for which packets writing fails; and the packets that come in while it waits, with their receive stamps. -/
structure WatchSys where
  nowQ : Nat
  nowR : Nat
  now0 : Nat
  now1 : Nat
  saved : Bool := true
  fails : NetParts → Bool := fun _ => false
  later : List (Nat × NetParts)

/-- The condition of the panic in the callback, 159-161. -/
def lacking (p : NetParts) : Bool := p.getLinks.isEmpty || p.data.isEmpty
/-- Whether the callback breaks, 163-168, when it does not panic. -/
def replyBreaks (fails : NetParts → Bool) (multi : Bool) (p : NetParts) : Bool := fails p || !multi

/-- Waiting for the watch, 173: the packets of `L` are given to it one after the other (`trigger`).  The list are those given to the callback. -/
def waitReplies (brk : NetParts → Bool) : Matcher Unit → List (Nat × NetParts) → PRes (List (Nat × NetParts))
  | _, [] => .ok []
  | m, e :: L =>
    match trigger (ε := Fault Unit) id (fun s c => if lacking e.2 then .error .panic else .ok (s ++ [e], c, brk e.2)) (fun s _ => .ok s) e.1 e.2 [] m with
    | .error x => .error x
    | .ok (d, m) =>
      match waitReplies brk m L with
      | .error x => .error x
      | .ok d' => .ok (d ++ d')

/-- `status_watch`, 111-175.  In `lk_status_watch` the callback of the command ends the reading also where it panics; the panic follows.  A watch
that is not registered any more because its time is over is given nothing: there is nothing in `later` then. -/
def statusWatchCmd (C : Crypto) (nh : Bytes) (db : Db) (y : WatchSys) (o : WatchOpts) (st : Status) : LRes WatchOut :=
  match unwrapL (statusOverwatch y.nowQ st o.timeout) with
  | .error e => .error e
  | .ok q =>
    if o.printQuery then .ok (.query q)
    else if o.writeRequest then
      match tryL (statusRequest C nh y.nowR st) with
      | .error e => .error e
      | .ok p => .ok (.request p)
    else
      match statusWatch C nh db y.now0 y.now1 y.saved (fun _ e => lacking e.2 || replyBreaks y.fails o.multi e.2) st o.timeout with
      | .error e => .error e
      | .ok a =>
        if a.given.any (fun e => lacking e.2) then .error (.stop .panic)
        else
          match tryL (Watch.new st.qid a.query.preds 0#32 ()) with
          | .error e => .error e
          | .ok w =>
            match tryL (waitReplies (replyBreaks y.fails o.multi) [w] y.later) with
            | .error e => .error e
            | .ok l => if (a.given ++ l).isEmpty then .error .err else .ok (.replies (a.given ++ l))

/-! ### `status set` -/

/-- The callback of `status_set`, 79-87, with the reader it keeps: the reply it makes and the reader after it. -/
def setUpdate (ev : Bytes → PRes Bytes) (C : Crypto) (nh : Bytes) (now : Nat) (r : Reader) (domain group sp : Bytes) (link : Link) : PRes (NetParts × Reader) :=
  let free := calcFreeSpace (spaceOf sp) [link] [] false
  if free < 0 then .error (.err ())
  else match readNext ev r free.toNat [] with
    | .error e => .error e
    | .ok (false, _, _) => .error (.err ())
    | .ok (true, r, buf) =>
      match ofPkt (tryLinkpoint C group domain sp [link] buf now nh) with
      | .error e => .error e
      | .ok p => .ok (p, r)

/-- The replies to the packets given to the watch of `lk_status_set`, `crates/linkspace/src/conventions/status.rs:228-250` (`onRequest`), with the reader, the
hash of the last reply and the time of each: the replies, and the error that ended the watch. -/
def setAnswers (ev : Bytes → PRes Bytes) (C : Crypto) (nh : Bytes) (st : Status) (sp : Bytes) :
    Reader → Bytes → List (NetParts × Nat × Bool) → List NetParts × Option (Fault Unit)
  | _, _, [] => ([], none)
  | r, prev, (p, now, saved) :: l =>
    match onRequest st sp prev (fun d g s k => (setUpdate ev C nh now r d g s k).map (·.1)) saved p with
    | .error e => ([], some e)
    | .ok none => setAnswers ev C nh st sp r prev l
    | .ok (some q) =>
      match setUpdate ev C nh now r st.domain privateGroup sp ⟨tagOf (ascii "prev"), prev⟩ with
      | .error e => ([], some e)
      | .ok (_, r) => let a := setAnswers ev C nh st sp r q.hash l; (q :: a.1, a.2)

/-- `status_set`, 63-91, with the time of the first reply, whether it is saved, and the packets that come in for its watch (`statusSetQuery`): the
replies, and the error that ended the command or the watch; when the watch has ended the command does. -/
def statusSetCmd (ev : Bytes → PRes Bytes) (C : Crypto) (nh : Bytes) (now : Nat) (saved : Bool) (r : Reader) (st : Status)
    (l : List (NetParts × Nat × Bool)) : List NetParts × Option (Fault Unit) :=
  match statusSet st.named (fun d g s k => (setUpdate ev C nh now r d g s k).map (·.1)) saved with
  | .error e => ([], some e)
  | .ok (sp, p, _) =>
    match setUpdate ev C nh now r st.domain privateGroup sp ⟨tagOf (ascii "init"), privateGroup⟩ with
    | .error e => ([], some e)
    | .ok (_, r) => let a := setAnswers ev C nh st.named sp r p.hash l; (p :: a.1, a.2)

end Verif.Conv
