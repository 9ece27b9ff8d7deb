import Verif.Spec.Runtime
import Verif.Model.Handlers
/-!
# What a handler gives to the callback inside of it
-/
namespace Verif.Spec
open Verif Verif.Pkt Verif.Env Verif.Rt

variable {C : Type}

/-- The packets are given to the callback one after the other, until it breaks. -/
inductive Gives (p : Prog C) (h : C → Nat × NetParts → Act C) : RT C → C → List (Nat × NetParts) → RT C → C → Bool → Prop
  | done {rt : RT C} {c : C} : Gives p h rt c [] rt c false
  | brk {rt rt' : RT C} {c c' : C} {e : Nat × NetParts} {es : List (Nat × NetParts)} {n : Nat} :
    run p n rt (h c e) = .ok (rt', c', true) → Gives p h rt c (e :: es) rt' c' true
  | next {rt rt1 rt' : RT C} {c c1 c' : C} {e : Nat × NetParts} {es : List (Nat × NetParts)} {n : Nat} {b : Bool} :
    run p n rt (h c e) = .ok (rt1, c1, false) → Gives p h rt1 c1 es rt' c' b → Gives p h rt c (e :: es) rt' c' b

/-- The same packet, and the flags say whether it was given because of a link: bit 1 is set if so, bit 2 is not set, the other bits and the
rest of the routing header are the same. -/
structure Marked (linked : Bool) (p q : NetParts) : Prop where
  hash : q.hash = p.hash
  parts : q.parts = p.parts
  header : q.netHeader.length = p.netHeader.length ∧ ∀ i, i ≠ 3 → q.netHeader[i]? = p.netHeader[i]?
  future : ((q.netHeader.getD 3 0).toNat).testBit 1 = linked
  previous : ((q.netHeader.getD 3 0).toNat).testBit 2 = false
  others : ∀ i, i ≠ 1 → i ≠ 2 → ((q.netHeader.getD 3 0).toNat).testBit i = ((p.netHeader.getD 3 0).toNat).testBit i

/-- The linked packets that the log has, in the order of the links. -/
inductive Targets (log : List (Nat × NetParts)) : List Link → List (Nat × NetParts) → Prop
  | nil : Targets log [] []
  | found {l : Link} {ls : List Link} {e : Nat × NetParts} {q : NetParts} {ts : List (Nat × NetParts)} : e ∈ log → e.2.hash = l.ptr → Marked true e.2 q →
    Targets log ls ts → Targets log (l :: ls) ((e.1, q) :: ts)
  | missing {l : Link} {ls : List Link} {ts : List (Nat × NetParts)} : (∀ e ∈ log, e.2.hash ≠ l.ptr) → Targets log ls ts → Targets log (l :: ls) ts

end Verif.Spec
