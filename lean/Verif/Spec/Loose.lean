import Verif.Spec.Abe
/-!
# Specification of loose expression texts

Which strict text a loose text stands for: what the strict reader would refuse is escaped, everything
else is copied.
-/
namespace Verif.Spec
open Verif

/-- The letters that mean something after a backslash. -/
def letters : Bytes := "x][nr:t\\/0f".toList.map (fun c => UInt8.ofNat c.toNat)

/-- A hexadecimal digit of a number below 16. -/
def digit (n : Nat) : UInt8 :=
  (("0123456789abcdef".toList.map (fun c => UInt8.ofNat c.toNat))[n]?).getD 0

/-- A byte written in full: a backslash, an `x` and two digits. -/
def inFull (b : UInt8) : Bytes :=
  [UInt8.ofNat '\\'.toNat, UInt8.ofNat 'x'.toNat, digit (b.toNat / 16), digit (b.toNat % 16)]

/-- The strict text of a loose text.  A backslash keeps the letter after it if that letter means
something there and is doubled otherwise; a byte that is not printable is written in full. -/
def plainly : Bytes → Bytes
  | [] => []
  | [b] =>
    if b = UInt8.ofNat '\\'.toNat then [b, b]
    else if 32 ≤ b.toNat ∧ b.toNat ≤ 126 then [b] else inFull b
  | b :: c :: s =>
    if b = UInt8.ofNat '\\'.toNat then
      if c ∈ letters then b :: c :: plainly s else b :: b :: plainly (c :: s)
    else if 32 ≤ b.toNat ∧ b.toNat ≤ 126 then b :: plainly (c :: s) else inFull b ++ plainly (c :: s)

/-- The hexadecimal digits. -/
def digits : Bytes := "0123456789abcdefABCDEF".toList.map (fun c => UInt8.ofNat c.toNat)

/-- The text has a hexadecimal escape that lacks one of its two digits. -/
def lacksDigits : Bytes → Bool
  | [] => false
  | [_] => false
  | b :: c :: s =>
    if b = UInt8.ofNat '\\'.toNat then
      if c = UInt8.ofNat 'x'.toNat then
        match s with
        | h :: l :: _ => if h ∈ digits ∧ l ∈ digits then lacksDigits s else true
        | _ => true
      else if c ∈ letters then lacksDigits s else lacksDigits (c :: s)
    else lacksDigits (c :: s)

end Verif.Spec
