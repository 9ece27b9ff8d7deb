import Verif.Spec.Stamp
/-!
# Specification of stamps printed as a distance
-/
namespace Verif.Spec
open Verif

/-- A space, a count in decimal and the unit, for every unit of the list in order; what the units behind add up to is less than each. -/
inductive SpacedText : List (Char × Nat) → Bytes → Nat → Prop
  | done : SpacedText [] [] 0
  | use {k v us n ds s d} : (∀ x ∈ ds, x < 10) → ds ≠ [] → ofDigits 10 ds = n → d < v → SpacedText us s d →
      SpacedText ((k, v) :: us) (UInt8.ofNat ' '.toNat :: ds.map (fun x => UInt8.ofNat (0x30 + x)) ++ UInt8.ofNat k.toNat :: s) (n * v + d)

/-- The distance of a stamp from another one in at most `n` units, beginning with the largest that fits; what is left is less than all of them. -/
def DeltaText (n now other : Nat) (out : Bytes) : Prop :=
  ∃ x t, ((now < other ∧ now + x = other ∧ out = UInt8.ofNat '+'.toNat :: t) ∨ (other ≤ now ∧ other + x = now ∧ out = UInt8.ofNat '-'.toNat :: t)) ∧
    ((x = 0 ∧ t = [UInt8.ofNat '0'.toNat, UInt8.ofNat 'u'.toNat]) ∨
      ∃ larger u us d r, unitMicros = larger ++ u :: us ∧ (∀ v ∈ larger, x < v.2) ∧ u.2 ≤ x ∧ SpacedText ((u :: us).take n) t d ∧ x = d + r ∧
        ∀ v ∈ (u :: us).take n, r < v.2)

end Verif.Spec
