import Verif.Model.Fit
/-!
# Byte arithmetic and slicing functions of the evaluator

Models `crates/abe/src/scope/uint.rs` and `slice` of `crates/abe/src/scope/bytes.rs`.
-/
namespace Verif.Abe
open Verif Verif.Num Verif.Fit

/-- `ApplyResult`, `crates/abe/src/eval.rs:301-305`.  The error value is not kept; `abort` stands for a panic and for
a loop that never ends. -/
inductive AR (α : Type)
  | noValue
  | value (v : α)
  | err
  | abort
  deriving DecidableEq, Repr

/-- `From<Result<..>>`, 408-415. -/
def AR.ofOption {α : Type} : Option α → AR α
  | some v => .value v
  | none => .err
/-- `or_else`, 332-338. -/
def AR.orElse {α : Type} : AR α → (Unit → AR α) → AR α
  | .noValue, f => f ()
  | r, _ => r

/-- The loop of `carry_add_be`, `crates/abe/src/scope/uint.rs:16-30`, from the last byte to the first: the sum and the
final carry.  On empty input the Rust code underflows; see `plus`. -/
def addBe : Bytes → Bytes → Bytes × Bool
  | a :: as, b :: bs =>
    let (r, c) := addBe as bs
    let s := a.toNat + b.toNat + (if c then 1 else 0)
    (UInt8.ofNat (s % 256) :: r, decide (s ≥ 256))
  | _, _ => ([], false)

/-- The loop of `carry_sub_be`, 31-45. -/
def subBe : Bytes → Bytes → Bytes × Bool
  | a :: as, b :: bs =>
    let (r, c) := subBe as bs
    let t := b.toNat + (if c then 1 else 0)
    (UInt8.ofNat ((a.toNat + 256 - t) % 256) :: r, decide (a.toNat < t))
  | _, _ => ([], false)

/-- The `for` loop of `+`, 59-64. -/
def plusLoop (r : Bytes) : List Bytes → AR Bytes
  | [] => .value r
  | i :: is =>
    if r = [] then .abort
    else
      let (s, c) := addBe r i
      if c then .value (List.replicate s.length 255) else plusLoop s is
/-- `+`, 55-67. -/
def plus (inp : List Bytes) : AR Bytes :=
  match inp with
  | [] => .err
  | x :: xs => if inp.all (fun v => v.length == x.length) then plusLoop x xs else .err

/-- The `for` loop of `-`, 72-77. -/
def minusLoop (r : Bytes) : List Bytes → AR Bytes
  | [] => .value r
  | i :: is =>
    if r = [] then .abort
    else
      let (s, c) := subBe r i
      if c then .value (List.replicate s.length 0) else minusLoop s is
/-- `-`, 68-80. -/
def minus (inp : List Bytes) : AR Bytes :=
  match inp with
  | [] => .err
  | x :: xs => if inp.all (fun v => v.length == x.length) then minusLoop x xs else .err

/-- `parse_b::<uN>(..).to_be_bytes()`, 81-95. -/
def parseUint (n : Nat) (s : Bytes) : Option Bytes := (parseU 10 (256 ^ n) s).map (beBytes n)
/-- `parse_b::<uN>(..).to_le_bytes()`, 108-112. -/
def parseUintLe (n : Nat) (s : Bytes) : Option Bytes := (parseU 10 (256 ^ n) s).map (leBytes n)
/-- The encoder of `u8` .. `u128`, 82-94. -/
def encUint (n : Nat) (b : Bytes) : Option Bytes := if b.length = n then some (dec (beNat b)) else none
/-- `?u`, 96-104. -/
def printUint (b : Bytes) : Option Bytes := if b.length > 16 then none else some (dec (beNat b))
/-- `?lu`, 113-120. -/
def printUintLe (b : Bytes) : Option Bytes := if b.length > 16 then none else some (dec (leNat b))
/-- `lu`, 105-107. -/
def parseLu (s : Bytes) : Option Bytes := (parseU 10 (2 ^ 128) s).map (fun v => cutEndingNulls (leBytes 16 v))

/-- `val as isize`. -/
def asIsize (v : Nat) : Int := if v < 2 ^ 63 then v else (v : Int) - 2 ^ 64
/-- Overflow test of `isize` arithmetic. -/
def isizeOk (v : Int) : Bool := decide (-(2 ^ 63) ≤ v ∧ v < 2 ^ 63)

/-- `parse_b_signed`, `crates/abe/src/scope/bytes.rs:154-167`: outer `none` is an error, inner `none` "not given". -/
def parseSigned (s : Option Bytes) : Option (Option (Bool × Nat)) :=
  match s.getD [] with
  | [] => some none
  | 0x2d :: r => (parseUsize r).map (fun v => some (true, v))
  | s => (parseUsize s).map (fun v => some (false, v))

/-- `clamp`. -/
def clamp (v lo hi : Int) : Int := if v < lo then lo else if v > hi then hi else v

/-- `to_bound`, 179-189; outer `none` is the overflow panic. -/
def toBound (len sb eb : Int) : Option (Bool × Nat) → Option (Option Int)
  | none => some none
  | some (false, v) => some (some (clamp (asIsize v) (min sb eb) (max sb eb)))
  | some (true, v) =>
    let d := len - asIsize v
    if isizeOk d then some (some (clamp d (min sb eb) (max sb eb))) else none

/-- The iterator of 193-201; `none` is the overflow panic at `i += step`.  Each item moves `i` by at least one inside
the bytes, so `bytes.length` rounds are enough; `slice_py` shows none is missing. -/
def sliceLoop {α : Type} (bytes : List α) (step stop : Int) : Nat → Int → Option (List α)
  | 0, _ => some []
  | n + 1, i =>
    if ¬ (if step ≥ 0 then i < stop else i > stop) ∨ step = 0 then some []
    else
      match bytes[i.toNat]? with
      | none => some []
      | some b => if isizeOk (i + step) then (sliceLoop bytes step stop n (i + step)).map (b :: ·) else none

/-- The step argument, 163-168. -/
def stepArg : Option Bytes → Option Int
  | some s => parseI s
  | none => some 1

/-- `slice`, 145-202; of any slice `&[T]`: bytes, links of a packet, arguments. -/
def slice {α : Type} (bytes : List α) (args : List Bytes) : AR (List α) :=
  let len : Int := bytes.length
  match parseSigned args[0]?, parseSigned args[1]?, stepArg args[2]? with
  | some start, some stop, some step =>
    let (sb, eb) := if step ≥ 0 then ((0 : Int), len) else (len - 1, -1)
    match toBound len sb eb start, toBound len sb eb stop with
    | some s, some e =>
      match sliceLoop bytes step (e.getD eb) bytes.length (s.getD sb) with
      | some r => .value r
      | none => .abort
    | _, _ => .abort
  | _, _, _ => .err

end Verif.Abe
