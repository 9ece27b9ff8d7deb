import Verif.Model.QueryText
/-!
# Watches set up by packets, with constraints

Models `setup_watch` of `cli/linkspace/src/multi_watch.rs`.  The code reads the alternatives of the constraint one after the other into
the same query and keeps going after an error, so this needs what a failing `parse` leaves behind: the functions here return the state
next to the outcome.  `Lemmas/MultiWatch.lean` shows that their outcomes are those of `Model/Predicates.lean` and
`Model/QueryText.lean`.
-/
namespace Verif.Multi
open Verif Verif.Abl Verif.Pkt Verif.Pred Verif.QText Verif.Opt Verif.Eval

/-- The state left behind and the outcome.  After a panic the state is of no use: the process is gone. -/
abbrev Left (σ : Type) := σ × PRes Unit

/-- `?`. -/
def Left.next {σ : Type} (x : Left σ) (k : σ → Left σ) : Left σ :=
  match x with
  | (s, .ok ()) => k s
  | (s, .error e) => (s, .error e)
/-- `?` on a call that does not change the state. -/
def Left.get {σ α : Type} (s : σ) (x : PRes α) (k : α → Left σ) : Left σ :=
  match x with
  | .ok a => k a
  | .error e => (s, .error e)

/-- The outcome of `has_any` in `try_add`, `crates/core/src/predicate/value_test.rs:593-601`. -/
def orBail : PRes Bool → PRes Unit
  | .ok true => .ok ()
  | .ok false => .error (.err ())
  | .error e => .error e

/-- `try_add` on a set: the value is added before the set is looked at. -/
def addTo (dbg : Bool) (s : Preds) (f : VF) (op : TestOp) (v : BitVec f.width) : Left Preds :=
  let t := (s.set f).add op v
  (s.put f t, orBail (t.hasAny dbg))
/-- The same on a counter. -/
def addState (dbg : Bool) (s : Preds) (q : QScope) (op : TestOp) (v : BitVec 32) : Left Preds :=
  let t := (s.state q).add op v
  (s.putState q t, orBail (t.hasAny dbg))

/-- `check_space`, `crates/core/src/predicate/pkt_predicates.rs:134-148`. -/
def checkSpace (dbg : Bool) (s : Preds) : Left Preds :=
  Left.next (if s.preDepth = 0 then (s, .ok ()) else addTo dbg s .depth .greater (BitVec.ofNat _ (s.preDepth.toNat - 1))) fun s =>
    Left.get s ((s.set .depth).info dbg (BitVec.ofNat _ s.preDepth.toNat)) fun i =>
      if i.val.isSome then (s, .ok ()) else (s, .error (.err ()))

/-- `prefix`, `crates/core/src/predicate/builder.rs:38-53`. -/
def addPrefix (dbg : Bool) (s : Preds) (sp : Bytes) : Left Preds :=
  if Space.startsWith (spaceOf s.rspace) sp then (s, .ok ())
  else if Space.startsWith sp (spaceOf s.rspace) then
    Left.get s (root dbg sp) fun r => checkSpace dbg { s with rspace := r }
  else (s, .error (.err ()))

/-- The end of the arms of `hash` and `depth`, `crates/core/src/predicate/pkt_predicates.rs:256-261` and `276-279`. -/
def after (dbg : Bool) (s : Preds) (f : VF) (op : TestOp) : Left Preds :=
  match f with
  | .hash => if op = .equal then addState dbg s .query .equal 0#32 else (s, .ok ())
  | .depth => checkSpace dbg s
  | _ => (s, .ok ())

/-- The arm of a field with a set, 252-315. -/
def andField (dbg : Bool) (s : Preds) (f : VF) (op : TestOp) (val : ABList) : Left Preds :=
  Left.next (addTo dbg s .type .mask1 f.pkts) fun s =>
    Left.get s (f.read val) fun b =>
      Left.next (addTo dbg s f op (BitVec.ofNat _ (beNat b))) fun s => after dbg s f op

/-- The arm of `spacename`, 265-275. -/
def andSpacename (dbg : Bool) (s : Preds) (op : TestOp) (val : ABList) : Left Preds :=
  Left.next (addTo dbg s .type .mask1 2#8) fun s =>
    if op ≠ .equal then (s, .error (.err ()))
    else Left.get s (readSpace val) fun sp =>
      Left.get s (root dbg sp) fun r =>
        Left.next (addTo dbg s .depth .equal (BitVec.ofNat _ (r.headD 0).toNat)) fun s =>
          if Space.startsWith (spaceOf r) (spaceOf s.rspace) then checkSpace dbg { s with rspace := r }
          else (s, .error (.err ()))

/-- `and`, `crates/core/src/predicate/pkt_predicates.rs:238-331`. -/
def and (dbg : Bool) (s : Preds) (r : Stmt) : Left Preds :=
  match r.kind with
  | .field f => andField dbg s f r.op r.val
  | .spacename => andSpacename dbg s r.op r.val
  | .todo pkts => Left.next (addTo dbg s .type .mask1 pkts) fun s => (s, .error .panic)
  | .recv =>
    Left.get s (readExact 8 r.val) fun b =>
      let t := s.recv.add r.op (BitVec.ofNat 64 (beNat b))
      ({ s with recv := t }, if t.hasAny then .ok () else .error (.err ()))
  | .pre =>
    if r.op ≠ .equal then (s, .error (.err ()))
    else Left.get s (readSpace r.val) fun sp => addPrefix dbg s sp
  | .limit q =>
    Left.get s (readExact 4 r.val) fun b =>
      let s := s.putState q ((s.state q).add r.op (BitVec.ofNat 32 (beNat b)))
      (s, s.isValid dbg)

/-- The loop of `add_ext_predicate`, `crates/core/src/predicate/pkt_predicates.rs:224-229`. -/
def run (dbg : Bool) (s : Preds) : List Stmt → Left Preds
  | [] => (s, .ok ())
  | r :: rs => Left.next (and dbg s r) fun s => run dbg s rs

/-- `add_ext_predicate`. -/
def addExt (dbg : Bool) (s : Preds) (e : ExtStmt) : Left Preds := Left.get s e.stmts fun rs => run dbg s rs

/-- `add_stmt`, `crates/core/src/query.rs:136-144`. -/
def addStmt (dbg : Bool) (q : Query) (stmt : ABList) : Left Query :=
  match stmt with
  | [] => (q, .error .panic)
  | (some _, _) :: _ => Left.get q (addOptionAbl q.conf stmt) fun c => ({ q with conf := c }, .ok ())
  | (none, _) :: _ =>
    Left.get q (extOf stmt) fun e =>
      let r := addExt dbg q.preds e
      ({ q with preds := r.1 }, r.2)

/-- The loop of `parse`, `crates/core/src/query.rs:146-152`. -/
def addLines (dbg : Bool) (sc : Scope) (n : Nat) (q : Query) : List Bytes → Left Query
  | [] => (q, .ok ())
  | line :: r =>
    if line = [] then addLines dbg sc n q r
    else Left.get q (evalLine dbg sc n line) fun l => Left.next (addStmt dbg q l) fun q => addLines dbg sc n q r

/-- `parse`, 145-154. -/
def parse (dbg : Bool) (sc : Scope) (n : Nat) (q : Query) (s : Bytes) : Left Query := addLines dbg sc n q (splitLines s)

/-- The loop over the alternatives, `cli/linkspace/src/multi_watch.rs:84-91`; at the end of the list `ok` is still false and `ensure!`
fails. -/
def tryOr (dbg : Bool) (sc : Scope) (n : Nat) (q : Query) : List Bytes → PRes Query
  | [] => .error (.err ())
  | o :: os =>
    match parse dbg sc n q o with
    | (q, .ok ()) => .ok q
    | (_, .error .panic) => .error .panic
    | (q, .error (.err _)) => tryOr dbg sc n q os

/-- The query of `setup_watch`, `cli/linkspace/src/multi_watch.rs:68-91`: `data` is the data of the packet, `req` the scope of the
request (that of the core, or that of the command line under `--full-scope`), `cli` the scope of the command line, `or` the
alternatives.  Not modelled: printing the query instead, and the watch itself, which `watch_query` starts (C43). -/
def setupWatch (dbg : Bool) (req cli : Scope) (n : Nat) (or : List Bytes) (data : Bytes) : PRes Query :=
  match Query.empty.parse dbg req n data with
  | .error e => .error e
  | .ok q => if or = [] then .ok q else tryOr dbg cli n q or

end Verif.Multi
