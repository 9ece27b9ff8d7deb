import Verif.Model.Query
import Verif.Spec.Env
import Verif.Spec.Predicates
/-!
# What a query answers
-/
namespace Verif.Spec
open Verif Verif.Pkt Verif.Pred Verif.Env Verif.Tree

/-- `out` are the items of `xs` whose position satisfies `P`, in order; `n` is the position of the first item. -/
inductive Picks {α : Type} (P : Nat → Prop) : Nat → List α → List α → Prop
  | nil (n : Nat) : Picks P n [] []
  | take {n : Nat} (x : α) {xs out : List α} : P n → Picks P (n + 1) xs out → Picks P n (x :: xs) (x :: out)
  | skip {n : Nat} (x : α) {xs out : List α} : ¬ P n → Picks P (n + 1) xs out → Picks P n (x :: xs) out

/-- The statement allows this receive stamp. -/
def RecvOk (r : Stmt) (t : Nat) : Prop :=
  r.kind = .recv → ∃ b, b.length = 8 ∧ r.val = [(none, b)] ∧ Allows r.op t (beNat b)

/-- The statement allows this position in the given count. A statement that fixes the hash asks for the first result
only. -/
def CountOk (q : QScope) (r : Stmt) (n : Nat) : Prop :=
  (r.kind = .limit q → ∃ b, b.length = 4 ∧ r.val = [(none, b)] ∧ Allows r.op n (beNat b)) ∧
    (q = .query → r.kind = .field .hash → r.op = .equal → n = 0)

/-- The statement allows this value of the field. Statements about the space also bound the depth. -/
def FieldOk (f : VF) (r : Stmt) (n : Nat) : Prop :=
  (r.kind = .field f → ∃ m, ValueIs f r.val m ∧ Allows r.op n m) ∧
    (f = .depth → r.kind = .spacename → ∃ cs, SpaceIs r.val cs ∧ n = cs.length) ∧
    (f = .depth → r.kind = .pre → ∃ cs, SpaceIs r.val cs ∧ cs.length ≤ n)

/-- All statements allow this value of the field. -/
def Allowed (rs : List Stmt) (f : VF) (n : Nat) : Prop := ∀ r ∈ rs, FieldOk f r n

/-- The statements leave at most one value of the field. -/
def One (rs : List Stmt) (f : VF) : Prop :=
  ∀ m n, m < 2 ^ f.width → n < 2 ^ f.width → Allowed rs f m → Allowed rs f n → m = n

/-- No statement is about the space. -/
def NoSpace (rs : List Stmt) : Prop := ∀ r ∈ rs, r.kind ≠ .pre ∧ r.kind ≠ .spacename

/-- The packet received at `i` satisfies all statements about packets and about the receive stamp. -/
def Meets (rs : List Stmt) (i : Nat) (p : NetParts) : Prop :=
  ∃ x, Shows p x ∧ (∀ r ∈ rs, Sat r x) ∧ ∀ r ∈ rs, RecvOk r i

/-- Every stored packet is one that building or reading produces, with a right depth byte. -/
def AllShow (db : Db) : Prop := ∀ i p, (i, p) ∈ db.log → ∃ x, Shows p x

/-- The order of tree queries: by key, and inside a key by stamp and then hash, oldest or newest first. -/
def TreeBefore (asc : Bool) (p q : NetParts) : Prop :=
  ∃ a b, HasTuple p a ∧ HasTuple q b ∧ (a.KeyLt b ∨ (a.KeyEq b ∧ if asc then a.ValLt b else b.ValLt a))

/-- The count of a position: counters are 32 bits wide and stay at the last value. -/
def position (i : Nat) : Nat := min i (2 ^ 32 - 1)

/-- Of the packets `sel` that satisfy the statements, in the order of the query, `out` are those selected by the `i_db`
and `i` statements. Counting of `i` starts at `nth`. -/
def Counted (rs : List Stmt) (nth : Nat) (sel out : List (Nat × NetParts)) : Prop :=
  ∃ mid, Picks (fun i => ∀ r ∈ rs, CountOk .index r (position i)) 0 sel mid ∧
    Picks (fun i => ∀ r ∈ rs, CountOk .query r (position i)) nth mid out

/-- The statements leave some position for this count. -/
def SomePosition (q : QScope) (rs : List Stmt) : Prop := ∃ n, n < 2 ^ 32 ∧ ∀ r ∈ rs, CountOk q r n

/-- Before another receive stamp, or after it when the order is descending. -/
def RecvBefore (asc : Bool) (a b : Nat × NetParts) : Prop := if asc then a.1 < b.1 else b.1 < a.1

end Verif.Spec
