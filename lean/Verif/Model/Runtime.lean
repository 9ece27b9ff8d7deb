import Verif.Model.Matcher
import Verif.Model.Query
/-!
# The runtime: watches, callbacks and `process`

Models `crates/common/src/runtime/rx.rs`. A program gives the callbacks. What a callback does is an `Act`: a tree of
requests to the runtime, each depending on the answers before, that ends with the new state of the callback and whether
it breaks. The main program is an `Act` too. Other processes only change the files, and the runtime looks at the files
only in `process`, so their saves are requests of the program, at any place.

`RefCell`s: `locked` tells that `callbacks` is mutably borrowed, `draining` that `pending` is; borrowing again panics.

Not modelled: tracing, the spawner, `read`, the `start` option (a panic), the numbers that `watch` returns (only whether
the callback broke in the database, and whether the number is not 0), `is_reading` (only warnings depend on it), a panic that is caught.
-/
namespace Verif.Rt
open Verif Verif.Pkt Verif.Pred Verif.Env Verif.Query Verif.Matcher

/-- `StopReason`, `crates/common/src/runtime/handlers.rs:28-33`. -/
inductive Reason where
  | brk | finish | replaced | closed
deriving DecidableEq, Repr

/-- Why a run has no result. `fuel` bounds the recursion of the model. -/
inductive RStop where
  | panic | query (q : QStop) | fuel
deriving DecidableEq, Repr

/-- What can be asked of the runtime. `save` stands for a save by anyone. -/
inductive Cmd (C : Type) where
  | watch (id : Bytes) (mode : Mode) (preds : Preds) (ctx : C)
  | stop (id : Bytes) (range : Bool)
  | process
  | idle
  | save (e : SaveEv)
  | reader

/-- The answers. -/
inductive Ans where
  | nothing
  | watched (broke some : Bool)
  | upto (s : Nat)
  | work (o : Option (Option Nat))
  | saved (out : Except Stop (Nat × Nat))
  | db (d : Db)

/-- What a callback or the main program does. -/
inductive Act (C : Type) where
  | ret (c : C) (brk : Bool)
  | ask (q : Cmd C) (k : Ans → Act C)

/-- `PktStreamHandler`, `crates/common/src/runtime/handlers.rs:35-40`, for callbacks with state `C`; `clock i` is the
`i`-th reading of the clock. -/
structure Prog (C : Type) where
  handle : C → Nat × NetParts → Act C
  stopped : C → Reason → Act C
  clock : Nat → Nat

/-- How a watch ends. `inDb`: the callback broke in the database; `unmade`: `WatchEntry::new` refused; `late`: `register`
refused at that time; `collected`: by `gc`, at that time; `closed`: by a request for the id or the range; `stopped`: for another reason. -/
inductive Why where
  | inDb | unmade
  | late (now : Nat) | collected (now : Nat)
  | closed (id : Bytes) (range : Bool)
  | stopped (r : Reason)
deriving DecidableEq, Repr

/-- What is recorded of a run. `born`: the database part of a watch begins, on this snapshot; `broke`: the callback broke. -/
inductive Ev where
  | born (n : Nat) (id : Bytes) (mode : Mode) (preds : Preds) (db : Db)
  | call (n : Nat) (e : Nat × NetParts)
  | broke (n : Nat)
  | gone (n : Nat) (w : Why)

/-- `Pending`, `crates/common/src/runtime/rx.rs:42-45`. A watch carries its number and the state of its callback. -/
inductive Pending (C : Type) where
  | new (w : Watch (Nat × C))
  | stop (id : Bytes) (range : Bool)

/-- `Executor`, `crates/common/src/runtime/rx.rs:47-57`, with the files, and a record of the run. `written` is never set. -/
structure RT (C : Type) where
  disk : Db
  snap : Db
  upto : Nat
  watches : Matcher (Nat × C) := []
  pending : List (Pending C) := []
  locked : Bool := false
  draining : Bool := false
  ticks : Nat := 0
  next : Nat := 0
  trace : List Ev := []

variable {C : Type}

/-- `new_opt_rt`, 78-100. -/
def start (db : Db) : RT C := { disk := db, snap := db, upto := db.logHead }

def RT.note (rt : RT C) (e : Ev) : RT C := { rt with trace := rt.trace ++ [e] }

/-- Running a callback. -/
abbrev Call (C : Type) := RT C → Act C → Except RStop (RT C × C × Bool)

/-- `drop_watch`, 494-497. -/
def dropWatch (p : Prog C) (call : Call C) (rt : RT C) (w : Watch (Nat × C)) (why : Why) (r : Reason) : Except RStop (RT C) :=
  match call (rt.note (.gone w.ctx.1 why)) (p.stopped w.ctx.2 r) with
  | .error e => .error e
  | .ok (rt, _) => .ok rt

def dropWatches (p : Prog C) (call : Call C) (why : Why) (r : Reason) : RT C → List (Watch (Nat × C)) → Except RStop (RT C)
  | rt, [] => .ok rt
  | rt, w :: ws =>
    match dropWatch p call rt w why r with
    | .error e => .error e
    | .ok rt => dropWatches p call why r rt ws

/-- `lk.register(watch_entry)` and dropping what it replaces, 105-107 and 121-123; `register` reads the clock. -/
def registerNow (p : Prog C) (call : Call C) (rt : RT C) (w : Watch (Nat × C)) : Except RStop (RT C) :=
  let now := p.clock rt.ticks
  let r := register now rt.watches w
  let rt := { rt with ticks := rt.ticks + 1, watches := r.1 }
  let rt := if w.recv.high.toNat > now then rt else rt.note (.gone w.ctx.1 (.late now))
  match r.2 with
  | none => .ok rt
  | some o => dropWatch p call rt o (.stopped .replaced) .replaced

/-- `lk.deregister(&id, range, ...)`, 126, 448-450 and 461-463. -/
def deregisterNow (p : Prog C) (call : Call C) (rt : RT C) (id : Bytes) (range : Bool) : Except RStop (RT C) :=
  let r := deregister rt.watches id range
  dropWatches p call (.closed id range) .closed { rt with watches := r.1 } r.2

/-- `pending.borrow_mut().push(..)`. -/
def RT.push (rt : RT C) (x : Pending C) : Except RStop (RT C) :=
  if rt.draining then .error .panic else .ok { rt with pending := rt.pending ++ [x] }

/-- With `callbacks` borrowed. -/
def lockFor (f : RT C → Except RStop (RT C)) (rt : RT C) : Except RStop (RT C) :=
  match f { rt with locked := true } with
  | .error e => .error e
  | .ok rt => .ok { rt with locked := false }

/-- `insert_watch`, 102-116. -/
def insertWatch (p : Prog C) (call : Call C) (rt : RT C) (w : Watch (Nat × C)) : Except RStop (RT C) :=
  if rt.locked then rt.push (.new w) else lockFor (fun rt => registerNow p call rt w) rt

/-- `close` and `close_range`, 445-470. -/
def close (p : Prog C) (call : Call C) (rt : RT C) (id : Bytes) (range : Bool) : Except RStop (RT C) :=
  if rt.locked then rt.push (.stop id range) else lockFor (fun rt => deregisterNow p call rt id range) rt

/-- `drain_pending`, 117-130; `pending` stays borrowed during the loop, so nobody can push to it. -/
def drainAll (p : Prog C) (call : Call C) : RT C → List (Pending C) → Except RStop (RT C)
  | rt, [] => .ok rt
  | rt, x :: xs =>
    match (match x with
      | .new w => registerNow p call rt w
      | .stop id range => deregisterNow p call rt id range) with
    | .error e => .error e
    | .ok rt => drainAll p call rt xs
def drain (p : Prog C) (call : Call C) (rt : RT C) : Except RStop (RT C) :=
  match drainAll p call { rt with draining := true, pending := [] } rt.pending with
  | .error e => .error e
  | .ok rt => .ok { rt with draining := false }

/-- The callback of `trigger`, 308-312. -/
def onMatch (p : Prog C) (call : Call C) (e : Nat × NetParts) (rt : RT C) (c : Nat × C) : Except RStop (RT C × (Nat × C) × Bool) :=
  match call (rt.note (.call c.1 e)) (p.handle c.2 e) with
  | .error x => .error x
  | .ok (rt, c', b) => .ok (if b then rt.note (.broke c.1) else rt, (c.1, c'), b)
/-- The drop of `trigger`, 313-320. -/
def onDrop (p : Prog C) (call : Call C) (rt : RT C) (w : Watch (Nat × C)) : Except RStop (RT C) :=
  let r := if w.lastTest.2 then Reason.brk else .finish
  dropWatch p call rt w (.stopped r) r

/-- The loop of `process`, 294-322. The list of watches is borrowed by the loop; its place in the state is empty meanwhile. -/
def pktLoop (p : Prog C) (call : Call C) : RT C → List (Nat × NetParts) → Except RStop (RT C)
  | rt, [] => .ok rt
  | rt, e :: es =>
    match trigger (fun _ => .panic) (onMatch p call e) (onDrop p call) e.1 e.2 { rt with watches := [] } rt.watches with
    | .error x => .error x
    | .ok (rt, m) => pktLoop p call { rt with watches := m } es

/-- `process`, 258-335. Refreshing a transaction or opening a new one both show the files as they are. When nothing is new,
pending requests are left. -/
def process (p : Prog C) (call : Call C) (rt : RT C) : Except RStop (RT C) :=
  let rt := { rt with snap := rt.disk }
  if rt.upto ≥ rt.snap.logHead then .ok rt
  else if rt.locked then .error .panic
  else
    match drain p call { rt with locked := true } with
    | .error e => .error e
    | .ok rt =>
      match rt.snap.pktsAfter rt.upto with
      | .error _ => .error .panic
      | .ok es =>
        match pktLoop p call rt es with
        | .error e => .error e
        | .ok rt =>
          match drain p call rt with
          | .error e => .error e
          | .ok rt => .ok { rt with locked := false, upto := ((es.getLast?).map (·.1)).getD rt.snap.logHead }

/-- The callbacks of the database part of `watch`, 409-413. -/
def dbCalls (p : Prog C) (call : Call C) (n : Nat) : RT C → C → List (Nat × NetParts) → Except RStop (RT C × C × Bool)
  | rt, c, [] => .ok (rt, c, false)
  | rt, c, e :: es =>
    match call (rt.note (.call n e)) (p.handle c e) with
    | .error x => .error x
    | .ok (rt, c, true) => .ok (rt.note (.broke n), c, true)
    | .ok (rt, c, false) => dbCalls p call n rt c es

/-- `check_db`, `crates/core/src/predicate/pkt_predicates.rs:58-60`. -/
def checkDb (s : Preds) : PRes Bool :=
  match (s.state .branch).hasAny true with
  | .error e => .error e
  | .ok false => .ok false
  | .ok true => (s.state .index).hasAny true

/-- The results of the database part, 402-408, and the counter after them. Simplified: the iterator is run to its end
even if the callback breaks, so a panic in it counts although the code might not get there. -/
def dbPart (s : Preds) (mode : Mode) (check : Bool) (db : Db) : QRes (List (Nat × NetParts) × BitVec 32) :=
  if check then query db mode s 0#32 else .ok ([], 0#32)

/-- `watch`, 385-443. The last values tell whether the callback broke in the database, and whether the number returned is not 0: the counter is at least 1
once the callback was called. -/
def watch (p : Prog C) (call : Call C) (rt : RT C) (id : Bytes) (mode : Mode) (s : Preds) (c : C) : Except RStop (RT C × Bool × Bool) :=
  match checkDb s with
  | .error _ => .error .panic
  | .ok check =>
    match close p call rt id false with
    | .error e => .error e
    | .ok rt =>
      let n := rt.next
      let db := rt.snap
      match dbPart s mode check db with
      | .error q => .error (.query q)
      | .ok (l, nth) =>
        match dbCalls p call n ({ rt with next := n + 1 }.note (.born n id mode s db)) c l with
        | .error e => .error e
        | .ok (rt, _, true) => .ok (rt.note (.gone n .inDb), true, true)
        | .ok (rt, c, false) =>
          match Watch.new id s nth (n, c) with
          | .error .panic => .error .panic
          | .error (.err ()) => .ok (rt.note (.gone n .unmade), false, nth ≠ 0#32)
          | .ok w =>
            match insertWatch p call rt w with
            | .error e => .error e
            | .ok rt => .ok (rt, false, nth ≠ 0#32)

/-- `next_work`, 481-491. Simplified: asked while `callbacks` is borrowed it is a panic, also if requests are pending
(then the code panics only in the loop of `process`). -/
def idle (p : Prog C) (rt : RT C) : Except RStop (RT C × Option (Option Nat)) :=
  if rt.locked then .error .panic
  else if !rt.pending.isEmpty then .ok (rt, some none)
  else
    let now := p.clock rt.ticks
    let r := gc rt.watches now
    let out := rt.watches.filter (fun w => !decide (w.recv.high.toNat > now))
    .ok ({ rt with ticks := rt.ticks + 1, watches := r.1, trace := rt.trace ++ out.map (fun w => .gone w.ctx.1 (.collected now)) }, r.2.map some)

/-- One request. -/
def step (p : Prog C) (call : Call C) (rt : RT C) : Cmd C → Except RStop (RT C × Ans)
  | .watch id mode s c =>
    match watch p call rt id mode s c with
    | .error e => .error e
    | .ok (rt, b, x) => .ok (rt, .watched b x)
  | .stop id range =>
    match close p call rt id range with
    | .error e => .error e
    | .ok rt => .ok (rt, .nothing)
  | .process =>
    match process p call rt with
    | .error e => .error e
    | .ok rt => .ok (rt, .upto rt.upto)
  | .idle =>
    match idle p rt with
    | .error e => .error e
    | .ok (rt, o) => .ok (rt, .work o)
  | .save e => .ok ({ rt with disk := (save e.io e.now rt.disk e.pkts).disk }, .saved (save e.io e.now rt.disk e.pkts).out)
  | .reader => .ok (rt, .db rt.snap)

/-- Running a callback or the main program. The first argument bounds the nesting and the number of requests. -/
def run (p : Prog C) : Nat → Call C
  | 0, _, _ => .error .fuel
  | _ + 1, rt, .ret c b => .ok (rt, c, b)
  | n + 1, rt, .ask q k =>
    match step p (run p n) rt q with
    | .error e => .error e
    | .ok (rt, a) => run p n rt (k a)

/-! ### `run_while` -/

/-- `watch_status`, 142-145: the number of the watch and how many packets it has counted. -/
def status (rt : RT C) (id : Bytes) : Option (Nat × BitVec 32) := (get rt.watches id).map (fun w => (w.ctx.1, w.nthQuery))

/-- The break conditions on the watch, 188-204. -/
def decided (rt : RT C) : Option (Bytes × Nat × BitVec 32) → Option Int
  | none => none
  | some (id, n, nth) =>
    match status rt id with
    | none => some 1
    | some (n', nth') => if n' ≠ n then some 1 else if nth' ≠ nth then some (-1) else none

/-- The loop of `run_while`, 180-253. In round `i`, `late i` tells whether the last step is reached, and `others i` are the
saves by anyone before the next round. Simplified: waiting is left out. -/
def rounds (p : Prog C) (call : Call C) (q : Option (Bytes × Nat × BitVec 32)) (late : Nat → Bool) (others : Nat → List SaveEv) :
    Nat → Nat → RT C → Except RStop (RT C × Int)
  | 0, _, _ => .error .fuel
  | fuel + 1, i, rt =>
    match process p call rt with
    | .error e => .error e
    | .ok rt =>
      match decided rt q with
      | some r => .ok (rt, r)
      | none =>
        if late i then .ok (rt, 0)
        else
          match idle p rt with
          | .error e => .error e
          | .ok (rt, none) => .ok (rt, 1)
          | .ok (rt, some _) => rounds p call q late others fuel (i + 1) { rt with disk := runSaves rt.disk (others i) }

/-- `run_while`, 154-254, called from outside callbacks; `none`: no watch has the id. -/
def runWhile (p : Prog C) (call : Call C) (id : Option Bytes) (late : Nat → Bool) (others : Nat → List SaveEv) (fuel : Nat)
    (rt : RT C) : Option (Except RStop (RT C × Int)) :=
  match id with
  | none => some (rounds p call none late others fuel 0 rt)
  | some id =>
    match status rt id with
    | none => none
    | some (n, nth) => some (rounds p call (some (id, n, nth)) late others fuel 0 rt)

end Verif.Rt
