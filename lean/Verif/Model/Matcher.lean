import Verif.Model.Predicates
/-!
# Watches

Models `crates/core/src/matcher/mod.rs`. Not modelled: the tracing span and `watch_id`, which only serve logs and
`run_while` (the runtime model has its own number), `map`, `status`, and `test_dyn`, which copies the packet and calls `test`.
-/
namespace Verif.Matcher
open Verif Verif.Pkt Verif.Pred

/-- `WatchEntry`, `crates/core/src/matcher/mod.rs:35-50`. `tests` are the tests compiled from `preds`. The counters are
`u32`. In `lastTest` the second value tells whether testing is over (`ControlFlow::Break`). -/
structure Watch (C : Type) where
  queryId : Bytes
  preds : Preds
  nthQuery : BitVec 32
  iQuery : TestSet 32
  nthNew : BitVec 32
  iNew : TestSet 32
  recv : Bound 64
  lastTest : Bool × Bool
  ctx : C

/-- `has_any() && info(nth).val.is_some()`, as used in `update_tests`. -/
def pending (t : TestSet 32) (nth : BitVec 32) : PRes Bool :=
  match t.hasAny true with
  | .error e => .error e
  | .ok false => .ok false
  | .ok true =>
    match t.info true nth with
    | .error e => .error e
    | .ok i => .ok i.val.isSome

/-- `update_tests`, `crates/core/src/matcher/mod.rs:60-73`. An error is `Fault.err`. -/
def Watch.updateTests {C : Type} (w : Watch C) : PRes (Watch C) :=
  let w := { w with iNew := w.preds.state .new, iQuery := w.preds.state .query, recv := w.preds.recv }
  match pending w.iNew w.nthNew with
  | .error e => .error e
  | .ok false => .error (.err ())
  | .ok true =>
    match pending w.iQuery w.nthQuery with
    | .error e => .error e
    | .ok false => .error (.err ())
    | .ok true => .ok w

/-- `new`, 75-99. -/
def Watch.new {C : Type} (id : Bytes) (s : Preds) (nth : BitVec 32) (ctx : C) : PRes (Watch C) :=
  Watch.updateTests ⟨id, s, nth, .default 32, 0#32, .default 32, .default 64, (false, false), ctx⟩

/-- `_test`, 145-171: whether the packet is a match and whether testing is over. The counters overflow at their end. -/
def Watch.test' {C : Type} (w : Watch C) (recv : Nat) (p : NetParts) : PRes (Watch C × Bool × Bool) :=
  if w.recv.high.toNat < recv then .ok (w, false, true)
  else if recv < w.recv.low.toNat then .ok (w, false, false)
  else if !w.preds.test p then .ok (w, false, false)
  else
    match w.iNew.test true w.nthNew with
    | .error e => .error e
    | .ok a =>
      match (if a then w.iQuery.test true w.nthQuery else .ok false) with
      | .error e => .error e
      | .ok b =>
        match inc w.nthNew, inc w.nthQuery with
        | some n, some m => .ok ({ w with nthNew := n, nthQuery := m }, b, decide (n > w.iNew.bound.high) || decide (m > w.iQuery.bound.high))
        | _, _ => .error .panic
/-- `test`, 141-144. -/
def Watch.test {C : Type} (w : Watch C) (recv : Nat) (p : NetParts) : PRes (Watch C × Bool × Bool) :=
  match w.test' recv p with
  | .error e => .error e
  | .ok (w, r) => .ok ({ w with lastTest := r }, r)

/-- `Matcher`, 174-183: the watches in the order of their ids. -/
abbrev Matcher (C : Type) := List (Watch C)

variable {C : Type}

/-- Where `binary_search_by_key` finds the id, or where it would be. This is what the library promises for a sorted list
without repetitions, which `sorted_run` shows it is. -/
def before (m : Matcher C) (id : Bytes) : Matcher C := m.takeWhile (fun e => bytesLt e.queryId id)
def fromId (m : Matcher C) (id : Bytes) : Matcher C := m.dropWhile (fun e => bytesLt e.queryId id)

/-- `get`, `crates/core/src/matcher/mod.rs:185-190`. -/
def get (m : Matcher C) (id : Bytes) : Option (Watch C) :=
  match fromId m id with
  | [] => none
  | e :: _ => if e.queryId = id then some e else none

/-- `register`, 191-207; `now` is the clock. -/
def register (now : Nat) (m : Matcher C) (w : Watch C) : Matcher C × Option (Watch C) :=
  let ok := decide (w.recv.high.toNat > now)
  match fromId m w.queryId with
  | [] => if ok then (before m w.queryId ++ [w], none) else (m, none)
  | e :: r =>
    if e.queryId = w.queryId then
      if ok then (before m w.queryId ++ w :: r, some e) else (before m w.queryId ++ r, some e)
    else if ok then (before m w.queryId ++ w :: e :: r, none) else (m, none)

/-- `deregister`, 208-236; the second list goes to `on_drop`, in order, and its length is the answer. -/
def deregister (m : Matcher C) (id : Bytes) (range : Bool) : Matcher C × List (Watch C) :=
  match fromId m id with
  | [] => (m, [])
  | e :: r =>
    if e.queryId = id then
      if !range then (before m id ++ r, [e])
      else (before m id ++ (e :: r).dropWhile (fun v => id.isPrefixOf v.queryId), (e :: r).takeWhile (fun v => id.isPrefixOf v.queryId))
    else (m, [])

/-- `trigger`, 237-253. `onMatch` and `onDrop` work on the state `σ` of the program; `extract_if` is lazy, so a removed
watch is dropped before the next one is tested. -/
def trigger {σ ε : Type} (fault : Fault Unit → ε) (onMatch : σ → C → Except ε (σ × C × Bool)) (onDrop : σ → Watch C → Except ε σ)
    (recv : Nat) (p : NetParts) : σ → Matcher C → Except ε (σ × Matcher C)
  | s, [] => .ok (s, [])
  | s, w :: m =>
    match w.test recv p with
    | .error e => .error (fault e)
    | .ok (w, ok, over) =>
      match (if ok then onMatch s w.ctx else .ok (s, w.ctx, false)) with
      | .error e => .error e
      | .ok (s, ctx, brk) =>
        let w := { w with ctx := ctx }
        if brk || over then
          match onDrop s w with
          | .error e => .error e
          | .ok s => trigger fault onMatch onDrop recv p s m
        else
          match trigger fault onMatch onDrop recv p s m with
          | .error e => .error e
          | .ok (s, m) => .ok (s, w :: m)

/-- `gc`, 256-273: the watches left, and the first upper bound among them. The removed watches are not given to anyone. -/
def gc (m : Matcher C) (logptr : Nat) : Matcher C × Option Nat :=
  let m' := m.filter (fun e => decide (e.recv.high.toNat > logptr))
  (m', if m'.isEmpty then none else some (m'.foldl (fun a e => min e.recv.high.toNat a) (2 ^ 64 - 1)))

end Verif.Matcher
