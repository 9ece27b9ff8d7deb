import Verif.Model.Bytes
/-!
# Numbers as text

The standard library's integer parser and printer, as used through `parse_b` (`crates/abe/src/scope/uint.rs:10-15`),
`u128::from_str_radix` (`crates/abe/src/scope/base.rs:12-21`) and `to_string`.  These are library functions: the model
follows their documentation (an optional `+`, then one or more digits of the radix; overflow is an error; a `-` is
refused for unsigned types).  `std::str::from_utf8` in front of the parser only turns one error into another.
-/
namespace Verif.Num
open Verif

/-- The value of a digit in a radix up to 36, upper or lower case. -/
def digit (radix : Nat) (c : UInt8) : Option Nat :=
  let v := if 0x30 ≤ c ∧ c ≤ 0x39 then some (c.toNat - 0x30)
    else if 0x61 ≤ c ∧ c ≤ 0x7a then some (c.toNat - 0x61 + 10)
    else if 0x41 ≤ c ∧ c ≤ 0x5a then some (c.toNat - 0x41 + 10)
    else none
  match v with
  | some d => if d < radix then some d else none
  | none => none

/-- The digits, most significant first. -/
def digits (radix acc : Nat) : Bytes → Option Nat
  | [] => some acc
  | c :: s =>
    match digit radix c with
    | some d => digits radix (acc * radix + d) s
    | none => none

/-- The optional sign. -/
def stripPlus : Bytes → Bytes
  | 0x2b :: r => r
  | s => s

/-- `from_str_radix` of an unsigned type with values below `bound`.  The library tests for overflow at each digit; as
the value never decreases this is the same as testing the final value. -/
def parseU (radix bound : Nat) (s : Bytes) : Option Nat :=
  if stripPlus s = [] then none
  else match digits radix 0 (stripPlus s) with
    | some v => if v < bound then some v else none
    | none => none

/-- `isize::from_str` (64 bit). -/
def parseI (s : Bytes) : Option Int :=
  match s with
  | 0x2d :: r =>
    if r = [] then none
    else match digits 10 0 r with
      | some v => if v ≤ 2 ^ 63 then some (-(v : Int)) else none
      | none => none
  | s => (parseU 10 (2 ^ 63) s).map Int.ofNat

/-- `to_string` of an unsigned integer. -/
def dec (n : Nat) : Bytes :=
  if n < 10 then [UInt8.ofNat (0x30 + n)] else dec (n / 10) ++ [UInt8.ofNat (0x30 + n % 10)]
termination_by n

/-- `parse_b::<usize>`, 64 bit. -/
def parseUsize (s : Bytes) : Option Nat := parseU 10 (2 ^ 64) s

end Verif.Num
