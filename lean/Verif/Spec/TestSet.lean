import Verif.Model.TestSet
/-!
# Specification of predicates

A predicate `field:op:rhs` on the value of a field, both read as numbers.
-/
namespace Verif.Spec
open Verif.Pred

/-- What the operators say, bit by bit for the masks: `0` allows only bits that are set in the mask, `1` demands all
bits of the mask. -/
def Allows : TestOp → Nat → Nat → Prop
  | .nop, _, _ => True
  | .equal, v, r => v = r
  | .less, v, r => v < r
  | .greater, v, r => v > r
  | .mask0, v, r => ∀ i, v.testBit i = true → r.testBit i = true
  | .mask1, v, r => ∀ i, r.testBit i = true → v.testBit i = true

/-- `v` satisfies all of them. -/
def AllowsAll {w : Nat} (ps : List (TestOp × BitVec w)) (v : BitVec w) : Prop :=
  ∀ p ∈ ps, Allows p.1 v.toNat p.2.toNat

/-- `r` is the least value at or after `v` with the property, or nothing when there is none. -/
def IsNext {w : Nat} (P : BitVec w → Prop) (v : BitVec w) (r : Option (BitVec w)) : Prop :=
  match r with
  | some x => P x ∧ v.toNat ≤ x.toNat ∧ ∀ y, P y → v.toNat ≤ y.toNat → x.toNat ≤ y.toNat
  | none => ∀ y, P y → ¬ v.toNat ≤ y.toNat

theorem IsNext.unique {w : Nat} {P : BitVec w → Prop} {v : BitVec w} {a b : Option (BitVec w)} (ha : IsNext P v a)
    (hb : IsNext P v b) : a = b := by
  cases a <;> cases b
  · rfl
  · exact absurd hb.2.1 (ha _ hb.1)
  · exact absurd ha.2.1 (hb _ ha.1)
  · congr 1
    exact BitVec.eq_of_toNat_eq (Nat.le_antisymm (ha.2.2 _ hb.1 hb.2.1) (hb.2.2 _ ha.1 ha.2.1))

end Verif.Spec
