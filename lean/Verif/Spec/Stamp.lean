import Verif.Spec.Base64
/-!
# Specification of durations and stamps as text
-/
namespace Verif.Spec
open Verif

/-- A count below `2 ^ 32` in decimal, with or without a plus in front. -/
def CountText (w : Bytes) (n : Nat) : Prop :=
  ∃ ds : List Nat, ds ≠ [] ∧ (∀ d ∈ ds, d < 10) ∧ ofDigits 10 ds = n ∧ n < 2 ^ 32 ∧
    (w = ds.map (fun d => UInt8.ofNat (0x30 + d)) ∨ w = UInt8.ofNat '+'.toNat :: ds.map (fun d => UInt8.ofNat (0x30 + d)))

/-- The units and their microseconds. A year has 365 days and six hours, a month has 30 days. -/
def unitMicros : List (Char × Nat) :=
  [('Y', 31557600000000), ('M', 2592000000000), ('W', 604800000000), ('D', 86400000000), ('h', 3600000000),
    ('m', 60000000), ('s', 1000000), ('l', 1000), ('u', 1)]

/-- Counts with units, each unit at most once and from large to small, and the microseconds they add up to. -/
inductive DurText : List (Char × Nat) → Bytes → Nat → Prop
  | done {us} : DurText us [] 0
  | skip {u us s d} : DurText us s d → DurText (u :: us) s d
  | use {k v us w n s d} : CountText w n → DurText us s d → DurText ((k, v) :: us) (w ++ UInt8.ofNat k.toNat :: s) (n * v + d)

/-- What the arguments of `us` make of a stamp, as eight bytes: `+`, `-` fail out of range, `++`, `--` saturate, empty
arguments do nothing. -/
inductive UsArgs : Nat → List Bytes → Nat → Prop
  | done {s} : UsArgs s [] s
  | nothing {s args r} : UsArgs s args r → UsArgs s ([] :: args) r
  | plus {s t d args r} : DurText unitMicros t d → s + d < 2 ^ 64 → UsArgs (s + d) args r →
      UsArgs s ((UInt8.ofNat '+'.toNat :: t) :: args) r
  | plusSat {s t d args r} : DurText unitMicros t d → UsArgs (min (s + d) (2 ^ 64 - 1)) args r →
      UsArgs s ((UInt8.ofNat '+'.toNat :: UInt8.ofNat '+'.toNat :: t) :: args) r
  | minus {s t d args r} : DurText unitMicros t d → d ≤ s → UsArgs (s - d) args r →
      UsArgs s ((UInt8.ofNat '-'.toNat :: t) :: args) r
  | minusSat {s t d args r} : DurText unitMicros t d → UsArgs (s - d) args r →
      UsArgs s ((UInt8.ofNat '-'.toNat :: UInt8.ofNat '-'.toNat :: t) :: args) r

end Verif.Spec
