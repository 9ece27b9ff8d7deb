import Verif.Model.FfiArgs
import Verif.Model.Api
/-!
# Callbacks from Python

`ffi/linkspace-py/src/lib.rs:57-117` and 433-514. A callback is a function of what it was given before and what it is given. Simplified: it does not use the
library itself, and what `Pkt::from_dyn` makes of a packet is `Model/PyPkt`.
-/
namespace Verif.Ffi
open Verif Verif.Pkt Verif.Pred Verif.Env Verif.Query
open Verif.Abe (b64Fit)

/-- What a call of a Python function comes to, as far as the code tells it apart. -/
inductive PyRet
  | raise
  | bool (b : Bool)
  | other
deriving DecidableEq, Repr

/-- `call_cont_py`, 433-440: the error of the call, or the result, `false` if it is no `bool`. -/
def callCont : PyRet → Except Unit Bool
  | .raise => .error ()
  | .bool b => .ok b
  | .other => .ok false

/-- The closure of `lk_get_all` and `lk_get_hashes`, 449-453 and 461-465: the new value of `cb_err` (whether it is an error) and what is returned. -/
def callStep (r : PyRet) : Bool × Bool :=
  match callCont r with
  | .ok c => (false, c)
  | .error () => (true, false)

/-- The value of `cb_err` after the calls for a list, `e` before. -/
def errAfter {α : Type} (cb : List α → α → PyRet) : List α → Bool → List α → Bool
  | _, e, [] => e
  | seen, _, x :: xs => errAfter cb (seen ++ [x]) (callStep (cb seen x)).1 xs

/-- What the functions return: an exception or the number. -/
inductive PyCount
  | raised
  | count (k : Int)
deriving DecidableEq, Repr

/-- `lk_get_all`, 446-457: the packets the callback was given and the result. -/
def pyGetAll (db : Db) (m : Mode) (s : Preds) (cb : List (Nat × NetParts) → Nat × NetParts → PyRet) : QRes (List (Nat × NetParts) × PyCount) :=
  match getAllWith db m s (fun seen x => (callStep (cb seen x)).2) with
  | .error e => .error e
  | .ok (given, k) => .ok (given, if errAfter cb [] false given then .raised else .count k)

/-- The hashes of `lk_get_hashes`, 466-480: the bytes or base64 text of one, or any iterable of these. `none`: an exception. -/
def pyHashes (v : PyVal) : Option (List Bytes) :=
  match v.bytelike with
  | some b => (b64Fit 32 b).map ([·])
  | none =>
    match v.iter with
    | none => none
    | some l => l.mapM fun o => o.bytelike.bind (b64Fit 32)

/-- `lk_get_hashes`, 458-484. -/
def pyGetHashes (db : Db) (v : PyVal) (cb : List (Nat × NetParts) → Nat × NetParts → PyRet) : QRes (List (Nat × NetParts) × PyCount) :=
  match pyHashes v with
  | none => .ok ([], .raised)
  | some hs =>
    match getHashes db hs (fun seen x => (callStep (cb seen x)).2) with
    | .error e => .error e
    | .ok (given, k) => .ok (given, if errAfter cb [] false given then .raised else .count k)

/-- `lk_list_watches`, 504-514: the entries the callback was called for and the last result, `none` for an exception. -/
def pyListWatches {α β : Type} (cb : List α → α → Option β) : List α → Option β → List α → List α × Option β
  | calls, r, [] => (calls, r)
  | calls, r, x :: xs =>
    match r with
    | none => pyListWatches cb calls none xs
    | some _ => pyListWatches cb (calls ++ [x]) (cb calls x) xs

/-- `PyPktStreamHandler::handle_pkt`, 64-103: whether the watch is to end. -/
def pyHandle {α : Type} (onMatch onErr : Option (α → PyRet)) (x : α) : Bool :=
  match onMatch with
  | none => false
  | some f =>
    match callCont (f x) with
    | .ok true => true
    | .ok false => false
    | .error () =>
      match onErr with
      | some g =>
        match callCont (g x) with
        | .ok true => false
        | .ok false => true
        | .error () => true
      | none => true
/-- `PyPktStreamHandler::stopped`, 104-116: `todo!` if there is a function to call. -/
def pyStopped {α : Type} (onClose : Option α) : PRes Unit :=
  match onClose with
  | some _ => .error .panic
  | none => .ok ()

end Verif.Ffi
