import Verif.Model.Matcher
import Verif.Spec.Query
/-!
# What the list of watches is for
-/
namespace Verif.Spec
open Verif Verif.Pkt Verif.Pred Verif.Matcher

/-- What happens to the watches of a program whose callback on the state `c` of a watch is `cb c p`: the new state, and
whether it breaks. -/
inductive MEvent (C : Type) where
  | register (now : Nat) (w : Watch C)
  | stop (id : Bytes) (range : Bool)
  | packet (recv : Nat) (p : NetParts)
  | gc (logptr : Nat)

/-- What becomes of one watch, alone, when it sees a packet: `none` when it is over. -/
def alone {C : Type} (cb : C → NetParts → C × Bool) (recv : Nat) (p : NetParts) (w : Watch C) : Option (Watch C) :=
  match w.test recv p with
  | .error _ => none
  | .ok (w, ok, over) =>
    let r := if ok then cb w.ctx p else (w.ctx, false)
    if r.2 || over then none else some { w with ctx := r.1 }

/-- The watches by id, after an event. -/
def follow {C : Type} (cb : C → NetParts → C × Bool) (f : Bytes → Option (Watch C)) : MEvent C → Bytes → Option (Watch C)
  | .register now w, id => if id = w.queryId then (if now < w.recv.high.toNat then some w else none) else f id
  | .stop i false, id => if id = i then none else f id
  | .stop i true, id => if (f i).isSome ∧ i <+: id then none else f id
  | .packet recv p, id => (f id).bind (alone cb recv p)
  | .gc t, id => (f id).filter (fun w => decide (t < w.recv.high.toNat))

/-- The position `i` among the packets a watch has seen match is one it accepts; `nth` packets were found before. -/
def Accepts (rs : List Stmt) (nth i : Nat) : Prop := (∀ r ∈ rs, CountOk .new r i) ∧ ∀ r ∈ rs, CountOk .query r (nth + i)

/-- Of the packets coming in, with their receive stamps, `out` are those that satisfy the statements at an accepted
position; `k` have matched before. -/
inductive Taken (rs : List Stmt) (nth : Nat) : Nat → List (Nat × NetParts) → List (Nat × NetParts) → Prop
  | nil (k : Nat) : Taken rs nth k [] []
  | pass {k : Nat} (e : Nat × NetParts) {L out : List (Nat × NetParts)} :
      ¬ Meets rs e.1 e.2 → Taken rs nth k L out → Taken rs nth k (e :: L) out
  | take {k : Nat} (e : Nat × NetParts) {L out : List (Nat × NetParts)} :
      Meets rs e.1 e.2 → Accepts rs nth k → Taken rs nth (k + 1) L out → Taken rs nth k (e :: L) (e :: out)
  | skip {k : Nat} (e : Nat × NetParts) {L out : List (Nat × NetParts)} :
      Meets rs e.1 e.2 → ¬ Accepts rs nth k → Taken rs nth (k + 1) L out → Taken rs nth k (e :: L) out

/-- Giving packets to a callback until it breaks: those given, the state of the callback, and whether it broke. -/
def deliver {C : Type} (cb : C → NetParts → C × Bool) : C → List (Nat × NetParts) → List (Nat × NetParts) × C × Bool
  | c, [] => ([], c, false)
  | c, e :: L =>
    if (cb c e.2).2 then ([e], (cb c e.2).1, true)
    else (e :: (deliver cb (cb c e.2).1 L).1, (deliver cb (cb c e.2).1 L).2)

/-- Packets as they come: receive stamps ascend and fit 64 bits. -/
def Incoming (L : List (Nat × NetParts)) : Prop := L.Pairwise (fun a b => a.1 < b.1) ∧ ∀ e ∈ L, e.1 < 2 ^ 64

end Verif.Spec
