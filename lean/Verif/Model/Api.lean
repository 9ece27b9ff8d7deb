import Verif.Model.Query
/-!
# Reading functions of the library

`crates/linkspace/src/lib.rs:811-872` and the casts of `crates/common/src/lib.rs:60-69`. The mode of the query is an
argument here; `Verif.Model.Options` models where it comes from.
-/
namespace Verif.Query
open Verif Verif.Pkt Verif.Tree Verif.Pred Verif.Env

/-- `saturating_cast`, `crates/common/src/lib.rs:60-62`. -/
def satCast (c : BitVec 32) : Int := min (c.toNat : Int) (2 ^ 31 - 1)
/-- `saturating_neg_cast`, 63-69: the cast of `2 ^ 31` is the smallest number, whose negation overflows. -/
def satNegCast (c : BitVec 32) : QRes Int :=
  if c.toNat > 2 ^ 31 then .ok (-2 ^ 31) else if c.toNat = 2 ^ 31 then .error .panic else .ok (-(c.toNat : Int))

/-- The loop of `lk_get_all`, `crates/linkspace/src/lib.rs:828-833`, over the iterator of `ReadTxn::query`: what the
callback was given, whether it broke, and the counter at that time. `cb` sees what it was given before. -/
def getLoop {α} (t : TestSet 32) (cb : List α → α → Bool) : List α → BitVec 32 → List α → QRes (List α × Bool × BitVec 32)
  | seen, n, [] => .ok (seen, false, n)
  | seen, n, x :: xs =>
    match t.memberNext true n with
    | .error _ => .error .panic
    | .ok none => .ok (seen, false, n)
    | .ok (some (false, n')) => getLoop t cb seen n' xs
    | .ok (some (true, n')) => if cb seen x then .ok (seen ++ [x], true, n') else getLoop t cb (seen ++ [x]) n' xs

/-- `lk_get_all`, 819-838: the packets the callback was given and the number returned. -/
def getAllWith (db : Db) (m : Mode) (s : Preds) (cb : List (Nat × NetParts) → Nat × NetParts → Bool) :
    QRes (List (Nat × NetParts) × Int) :=
  match candidates db m s with
  | .error e => .error e
  | .ok l =>
    match getLoop (s.state .query) cb [] 0#32 l with
    | .error e => .error e
    | .ok (seen, true, c) =>
      match satNegCast c with
      | .error e => .error e
      | .ok r => .ok (seen, r)
    | .ok (seen, false, c) => .ok (seen, satCast c)

/-- `lk_get_hashes`, 859-872, over `get_pkts_by_hash`, `crates/core/src/env/lmdb/get.rs:96-105`: `c` counts the packets
given. The counter is 32 bits wide and overflows with a panic. -/
def hashLoop (db : Db) (cb : List (Nat × NetParts) → Nat × NetParts → Bool) :
    List (Nat × NetParts) → BitVec 32 → List Bytes → QRes (List (Nat × NetParts) × Int)
  | seen, c, [] => .ok (seen, satCast c)
  | seen, c, h :: hs =>
    match db.read h with
    | none => hashLoop db cb seen c hs
    | some x =>
      if c.toNat + 1 < 2 ^ 32 then
        if cb seen x then
          match satNegCast (c + 1) with
          | .error e => .error e
          | .ok r => .ok (seen ++ [x], r)
        else hashLoop db cb (seen ++ [x]) (c + 1) hs
      else .error .panic
def getHashes (db : Db) (hs : List Bytes) (cb : List (Nat × NetParts) → Nat × NetParts → Bool) :
    QRes (List (Nat × NetParts) × Int) := hashLoop db cb [] 0#32 hs

end Verif.Query
