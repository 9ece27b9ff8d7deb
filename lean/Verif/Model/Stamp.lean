import Verif.Model.Predicates
import Verif.Model.Num
/-!
# Stamps and durations

Models `crates/pkt/src/stamp.rs` and `crates/core/src/stamp_fmt.rs`. A stamp is a number of microseconds below `2 ^ 64`; a
`Duration` is a number of nanoseconds. Outside of the model: `now` (an argument), the date format of `str` (an argument),
`as_systime`, `as_instance` and the checks of UTF-8 (an argument).
-/
namespace Verif.Stamp
open Verif Verif.Num Verif.Pred Verif.Pkt

/-- `u64::MAX`. -/
def maxStamp : Nat := 2 ^ 64 - 1

/-- `dur.as_micros().min(u64::MAX)`, `crates/pkt/src/stamp.rs:57-58` and again in the three below. -/
def micros (dur : Nat) : Nat := min (dur / 1000) maxStamp
/-- `stamp_add`, 56-60. -/
def stampAdd (s dur : Nat) : Nat := min (s + micros dur) maxStamp
/-- `checked_stamp_add`, 61-65. -/
def checkedAdd (s dur : Nat) : Option Nat := if s + micros dur < 2 ^ 64 then some (s + micros dur) else none
/-- `stamp_sub`, 67-71. -/
def stampSub (s dur : Nat) : Nat := s - micros dur
/-- `checked_stamp_sub`, 72-76. -/
def checkedSub (s dur : Nat) : Option Nat := if micros dur ≤ s then some (s - micros dur) else none
/-- `as_duration`, 34-36: `Duration::from_micros`. -/
def asDuration (s : Nat) : Nat := s * 1000
/-- `stamp_sub_stamp`, 38-44. -/
def subStamp (a b : Nat) : Except Nat Nat := if a > b then .ok (a - b) else .error (b - a)
/-- `stamp_age`, 46-53. -/
def stampAge (now s : Nat) : Except Nat Nat := if now < s then .error (asDuration (s - now)) else .ok (asDuration (now - s))

/-! ### durations as text -/

/-- `DELTA_FORMATS`, `crates/core/src/stamp_fmt.rs:53-71`: the letter of a unit and its nanoseconds. -/
def units : List (UInt8 × Nat) :=
  [(0x59, (60 * 60 * 24 * 365 + 6 * 60 * 60) * 1000000000),
   (0x4d, 60 * 60 * 24 * 30 * 1000000000),
   (0x57, 60 * 60 * 24 * 7 * 1000000000),
   (0x44, 60 * 60 * 24 * 1000000000),
   (0x68, 60 * 60 * 1000000000),
   (0x6d, 60 * 1000000000),
   (0x73, 1000000000),
   (0x6c, 1000000),
   (0x75, 1000)]

/-- `is_ascii_alphabetic`. -/
def isAlpha (c : UInt8) : Bool := (decide (0x41 ≤ c) && decide (c ≤ 0x5a)) || (decide (0x61 ≤ c) && decide (c ≤ 0x7a))

/-- `split_inclusive`. -/
def splitIncl (p : UInt8 → Bool) : Bytes → List Bytes
  | [] => []
  | c :: s =>
    if p c then [c] :: splitIncl p s
    else match splitIncl p s with
      | [] => [[c]]
      | h :: t => (c :: h) :: t

/-- The inner loop of `parse_duration_str`, 82-91: the value of the unit and the units left. -/
def findUnit (c : UInt8) : List (UInt8 × Nat) → Option (Nat × List (UInt8 × Nat))
  | [] => none
  | (k, v) :: r => if k = c then some (v, r) else findUnit c r

/-- The loop of `parse_duration_str`, 79-92. `utf8` tells what `from_utf8` accepts; its refusal is a panic. A duration does
not overflow: the largest is below `2 ^ 64` seconds (`duration_in_range`). -/
def durLoop (utf8 : Bytes → Bool) : Nat → List (UInt8 × Nat) → List Bytes → PRes Nat
  | dur, _, [] => .ok dur
  | dur, fmts, seg :: segs =>
    match seg.getLast? with
    | none => .error .panic
    | some unit =>
      if !utf8 seg.dropLast then .error .panic
      else match parseU 10 (2 ^ 32) seg.dropLast with
        | none => .error (.err ())
        | some count =>
          match findUnit unit fmts with
          | none => .error (.err ())
          | some (v, r) => durLoop utf8 (dur + v * count) r segs
/-- `parse_duration_str`, 76-94. -/
def parseDuration (utf8 : Bytes → Bool) (s : Bytes) : PRes Nat := durLoop utf8 0 units (splitIncl isAlpha s)

/-! ### floating point -/

/-- The nearest whole number to `a / b`, the even one if there are two. -/
def nearest (a b : Nat) : Nat :=
  if 2 * (a % b) < b then a / b
  else if b < 2 * (a % b) then a / b + 1
  else if a / b % 2 = 0 then a / b else a / b + 1
/-- The double nearest to a whole number: 53 bits are kept. -/
def toF64 (n : Nat) : Nat :=
  if n < 2 ^ 53 then n else nearest n (2 ^ (n.log2 - 52)) * 2 ^ (n.log2 - 52)
/-- The nanoseconds of a duration as a double, as the standard library computes it:
`(secs as f64) * (NANOS_PER_SEC as f64) + (nanos as f64)`. -/
def nanosF64 (d : Nat) : Nat := toF64 (toF64 (toF64 (d / 1000000000) * 1000000000) + d % 1000000000)
/-- The whole part of the double nearest to `x / y`: `2 ^ k` scales the quotient to 53 bits. A quotient of `2 ^ 53` or more
is only used after `as u32`. -/
def shiftOf (x y : Nat) : Nat :=
  if 2 ^ 53 * y ≤ x * 2 ^ (53 + y.log2 - x.log2) then 53 + y.log2 - x.log2 - 1 else 53 + y.log2 - x.log2
def quotF64 (x y : Nat) : Nat := if x = 0 then 0 else nearest (x * 2 ^ shiftOf x y) y / 2 ^ shiftOf x y
/-- `delta.div_duration_f64(dur).floor() as u32`; the cast saturates. -/
def durDiv (a b : Nat) : Nat := min (quotF64 (nanosF64 a) (nanosF64 b)) (2 ^ 32 - 1)

/-! ### printing durations -/

/-- `duration_to_string`, 121-149. A `precision` above the number of units is a panic of the slice. -/
def partsLoop (zeros : Bool) (delim : Bytes) : Nat → List (UInt8 × Nat) → Bytes
  | _, [] => []
  | delta, (k, v) :: r =>
    let c := durDiv delta v
    (if zeros || c ≠ 0 then delim ++ dec c ++ [k] else []) ++ partsLoop zeros delim (delta - v * c) r
def durationToString (delta precision n : Nat) (zeros : Bool) (delim : Bytes) : PRes Bytes :=
  if precision > units.length then .error .panic
  else
    let formats := units.take precision
    match (formats.filter (fun f => decide (f.2 ≤ delta))).take n with
    | [] => match formats.getLast? with
      | none => .error .panic
      | some f => .ok (0x30 :: [f.1])
    | parts => .ok (partsLoop zeros delim delta parts)
/-- `duration_as_stamp_dfmt`, 150-152. -/
def durationText (d : Nat) : PRes Bytes := durationToString d units.length 10 false []
/-- `delta_stamp_p`, 109-120, and `delta_stamp`, 106-108. -/
def deltaStampP (now other precision n : Nat) : PRes Bytes :=
  match durationToString (asDuration (if other > now then other - now else now - other)) precision n true [0x20] with
  | .error e => .error e
  | .ok t => .ok ((if other > now then 0x2b else 0x2d) :: t)
def deltaStamp (now other : Nat) : PRes Bytes := deltaStampP now other 9 2

/-! ### stamps as text -/

/-- `stamp_from_digits`, 154-163. -/
def fromDigits (s : Bytes) : Option Nat :=
  if s = ascii "++" then some maxStamp
  else if s = ascii "0" ∨ s = ascii "--" then some 0
  else if s.all (fun c => decide (0x30 ≤ c) && decide (c ≤ 0x39)) then parseU 10 (2 ^ 64) s
  else none
/-- `stamp_from_now`, 164-176. -/
def fromNow (utf8 : Bytes → Bool) (s : Bytes) (now : Nat) : PRes Nat :=
  if s = ascii "now" then .ok now
  else match s with
    | 0x2b :: r => (match parseDuration utf8 r with | .ok d => .ok (stampAdd now d) | .error e => .error e)
    | 0x2d :: r => (match parseDuration utf8 r with | .ok d => .ok (stampSub now d) | .error e => .error e)
    | _ => .error (.err ())
/-- `stamp_from_str`, 178-184. -/
def fromStr (utf8 : Bytes → Bool) (s : Bytes) (now : Option Nat) : PRes Nat :=
  match fromDigits s with
  | some v => .ok v
  | none =>
    match now with
    | none => .error (.err ())
    | some n => fromNow utf8 s n

/-- `StampEF::apply`, 243-300. `date` is the text of the `time` library, if it has one. -/
structure Ef where
  utf8 : Bytes → Bool
  now : Nat
  date : Nat → Option Bytes

/-- The words ending the arguments. -/
def Ef.word (e : Ef) (w : Bytes) (s : Nat) : Option (PRes Bytes) :=
  if w = ascii "ticks" then some (deltaStamp 0 s)
  else if w = ascii "val" then some (deltaStampP 0 s 9 9)
  else if w = ascii "delta" then some (deltaStamp e.now s)
  else if w = ascii "str" then some (match e.date s with | some t => .ok t | none => deltaStampP 0 s 9 9)
  else none

/-- What one argument makes of the stamp; `none`: it is not an operation. -/
def Ef.op (e : Ef) (s : Nat) : Bytes → Option (PRes Nat)
  | [] => some (.ok s)
  | 0x2b :: 0x2b :: r => some (match parseDuration e.utf8 r with
    | .ok d => .ok ((checkedAdd s d).getD maxStamp)
    | .error x => .error x)
  | 0x2b :: r => some (match parseDuration e.utf8 r with
    | .ok d => (match checkedAdd s d with | some v => .ok v | none => .error (.err ()))
    | .error x => .error x)
  | 0x2d :: 0x2d :: r => some (match parseDuration e.utf8 r with
    | .ok d => .ok ((checkedSub s d).getD 0)
    | .error x => .error x)
  | 0x2d :: r => some (match parseDuration e.utf8 r with
    | .ok d => (match checkedSub s d with | some v => .ok v | none => .error (.err ()))
    | .error x => .error x)
  | _ => none

def Ef.apply (e : Ef) : Nat → List Bytes → PRes Bytes
  | s, [] => .ok (beBytes 8 s)
  | s, a :: args =>
    match e.op s a with
    | some (.ok s) => e.apply s args
    | some (.error x) => .error x
    | none =>
      match e.word a s with
      | none => .error (.err ())
      | some (.error x) => .error x
      | some (.ok t) => if args = [] then .ok t else .error (.err ())

end Verif.Stamp
