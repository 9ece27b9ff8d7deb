import Verif.Model.Bytes
import Verif.Model.Space
/-!
# Predicate sets of one field

Models `crates/core/src/predicate/value_test.rs` and the part of `crates/core/src/predicate/uint.rs` it needs.
Every unsigned integer type of the crate (`u8`..`u128`, `U256`, and the byte arrays compared as big-endian
numbers) is `BitVec w`, `w` its number of bits; `UInt::BITS` is `w`.
-/
namespace Verif.Pred
open Verif

/-- `TestOp`, `crates/core/src/predicate/value_test.rs:155-176`. -/
inductive TestOp where
  | nop | equal | less | greater | mask0 | mask1
deriving DecidableEq, Repr

/-- The tests of the operators, `crates/core/src/predicate/value_test.rs:155-176` (`uint_func`, 113-117): left is the
value of the packet, right the value of the predicate. -/
def TestOp.holds {w : Nat} (op : TestOp) (val rhs : BitVec w) : Bool :=
  match op with
  | .nop => true
  | .equal => val == rhs
  | .less => decide (val < rhs)
  | .greater => decide (val > rhs)
  | .mask0 => val ||| rhs == rhs
  | .mask1 => val &&& rhs == rhs

/-! ### integer operations, `crates/core/src/predicate/uint.rs:48-114` and `345-407` -/

/-- `UInt::MIN`, `UInt::MAX`, `UInt::ONE`. -/
def minV (w : Nat) : BitVec w := 0#w
def maxV (w : Nat) : BitVec w := BitVec.allOnes w
/-- `inc`: `checked_add(1)`. -/
def inc {w : Nat} (v : BitVec w) : Option (BitVec w) := if v = maxV w then none else some (v + 1#w)
/-- `decr`: `checked_sub(1)`. -/
def decr {w : Nat} (v : BitVec w) : Option (BitVec w) := if v = minV w then none else some (v - 1#w)
/-- `overflowing_shl`: shifts by the amount modulo the width and tells whether the amount was too large. -/
def oshl {w : Nat} (v : BitVec w) (n : Nat) : BitVec w × Bool := (v <<< (n % w), decide (w ≤ n))
/-- `overflowing_shr`. -/
def oshr {w : Nat} (v : BitVec w) (n : Nat) : BitVec w × Bool := (v >>> (n % w), decide (w ≤ n))
/-- Number of ones from bit `i` upwards, looking at `n` bits. -/
def onesFrom {w : Nat} (v : BitVec w) (i : Nat) : Nat → Nat
  | 0 => 0
  | n + 1 => if v.getLsbD i then onesFrom v (i + 1) n + 1 else 0
/-- `trailing_ones`. -/
def trailingOnes {w : Nat} (v : BitVec w) : Nat := onesFrom v 0 w
/-- Number of zeros from bit `n-1` downwards. -/
def zerosFrom {w : Nat} (v : BitVec w) : Nat → Nat
  | 0 => 0
  | n + 1 => if v.getLsbD n then 0 else zerosFrom v n + 1
/-- `leading_zeros`. -/
def leadingZeros {w : Nat} (v : BitVec w) : Nat := zerosFrom v w
/-- `u32::wrapping_sub`. -/
def wrapSub32 (a b : Nat) : Nat := (a + 2 ^ 32 - b) % 2 ^ 32

/-! ### bounds -/

/-- `Bound`, `crates/core/src/predicate/value_test.rs:205-209`: the numbers from `low` to `high`, both included. -/
structure Bound (w : Nat) where
  low : BitVec w
  high : BitVec w
deriving DecidableEq, Repr

/-- `Bound::DEFAULT`, `Bound::EMPTY`, `crates/core/src/predicate/value_test.rs:216-223`. -/
def Bound.default (w : Nat) : Bound w := ⟨minV w, maxV w⟩
def Bound.empty (w : Nat) : Bound w := ⟨maxV w, minV w⟩

/-- `less`, `greater`, `as_eq`, `crates/core/src/predicate/value_test.rs:235-252`. -/
def Bound.less {w} (b : Bound w) : Option (BitVec w) := inc b.high
def Bound.greater {w} (b : Bound w) : Option (BitVec w) := decr b.low
def Bound.asEq {w} (b : Bound w) : Option (BitVec w) := if b.high = b.low then some b.high else none

/-- `Bound::iter`, `crates/core/src/predicate/value_test.rs:253-266`. -/
def Bound.iter {w} (b : Bound w) : List (TestOp × BitVec w) :=
  match b.asEq with
  | some v => [(.equal, v)]
  | none => (b.less.map (fun v => (TestOp.less, v))).toList ++ (b.greater.map (fun v => (TestOp.greater, v))).toList

/-- `Bound::test`, `crates/core/src/predicate/value_test.rs:267-270`. -/
def Bound.test {w} (b : Bound w) (v : BitVec w) : Bool := decide (v ≤ b.high) && decide (v ≥ b.low)

/-- `Bound::bound_cmp`, `crates/core/src/predicate/value_test.rs:271-280`; `none` is the `unreachable!`. -/
def Bound.cmp {w} (b : Bound w) (i : BitVec w) : Option Ordering :=
  if i < b.low then (if i < b.high then some .lt else if i = b.high then some .eq else none)
  else if i = b.low then some .eq
  else if i > b.high then some .gt else some .eq

/-- `Bound::has_any`, `crates/core/src/predicate/value_test.rs:476-478`. -/
def Bound.hasAny {w} (b : Bound w) : Bool := decide (b.high ≥ b.low)

/-- `Bound::add`, `crates/core/src/predicate/value_test.rs:486-502`.  `max`/`min` of two values. -/
def bmax {w} (a b : BitVec w) : BitVec w := if a ≤ b then b else a
def bmin {w} (a b : BitVec w) : BitVec w := if a ≤ b then a else b
def Bound.add {w} (b : Bound w) (op : TestOp) (rh : BitVec w) : Bound w :=
  match op with
  | .equal => ⟨bmax b.low rh, bmin b.high rh⟩
  | .less => match decr rh with
    | some v => ⟨b.low, bmin b.high v⟩
    | none => .empty w
  | .greater => match inc rh with
    | some v => ⟨bmax b.low v, b.high⟩
    | none => .empty w
  | _ => b

/-- `Bound::try_add`, `crates/core/src/predicate/value_test.rs:479-485`: `none` is the error. -/
def Bound.tryAdd {w} (b : Bound w) (op : TestOp) (rh : BitVec w) : Option (Bound w) :=
  let b' := b.add op rh
  if b'.hasAny then some b' else none

/-- `Bound::try_combine`, `crates/core/src/predicate/value_test.rs:655-663`. -/
def Bound.tryCombine {w} (a b : Bound w) : Option (Bound w) :=
  if ¬ (a.high ≥ b.low) then none
  else if ¬ (b.low ≤ a.high) then none
  else some ⟨bmax a.low b.low, bmin a.high b.high⟩

/-! ### masks -/

/-- `Mask`, `crates/core/src/predicate/value_test.rs:405-411`. -/
structure Mask (w : Nat) where
  ones : BitVec w
  zeros : BitVec w
deriving DecidableEq, Repr

/-- `Mask::DEFAULT`, `crates/core/src/predicate/value_test.rs:290-295`. -/
def Mask.default (w : Nat) : Mask w := ⟨minV w, maxV w⟩
/-- `ones`, `zeros`, 302-315. -/
def Mask.ones? {w} (m : Mask w) : Option (BitVec w) := if m.ones = minV w then none else some m.ones
def Mask.zeros? {w} (m : Mask w) : Option (BitVec w) := if m.zeros = maxV w then none else some m.zeros
/-- `has_any`, 316-318. -/
def Mask.hasAny {w} (m : Mask w) : Bool := m.zeros &&& m.ones == m.ones
/-- `add`, 328-334. -/
def Mask.add {w} (m : Mask w) (op : TestOp) (v : BitVec w) : Mask w :=
  match op with
  | .mask0 => ⟨m.ones, m.zeros &&& v⟩
  | .mask1 => ⟨m.ones ||| v, m.zeros⟩
  | _ => m
/-- `test`, 337-340. -/
def Mask.test {w} (m : Mask w) (v : BitVec w) : Bool := TestOp.mask0.holds v m.zeros && TestOp.mask1.holds v m.ones
/-- `min_val`, 341-343. -/
def Mask.minVal {w} (m : Mask w) : BitVec w := m.zeros &&& m.ones
/-- `wrong_bits`, 347-352. -/
def Mask.wrongBits {w} (m : Mask w) (v : BitVec w) : BitVec w := (~~~ m.zeros &&& v) ||| (m.ones &&& ~~~ v)

/-- `overflowing_in_set`, `crates/core/src/predicate/value_test.rs:363-385`, without its `debug_assert!(has_any)`,
which the callers below account for. -/
def Mask.overflowingInSet {w} (m : Mask w) (val : BitVec w) : Bool × BitVec w :=
  let wrong := m.wrongBits val
  if wrong = minV w then (false, val)
  else
    let min := m.minVal
    let wrongmask := ~~~ (oshl (maxV w) (w - 1 - leadingZeros wrong)).1
    let vnz := val ||| ~~~ m.zeros ||| wrongmask
    let pivot := trailingOnes vnz
    let (freemask, over) := oshr (maxV w) (wrapSub32 (w - 1) pivot)
    let incval := (val ||| (oshr freemask 1).1) + 1#w
    let fixMask := ~~~ (oshl (maxV w) pivot).1
    (over, (incval &&& ~~~ fixMask) ||| (min &&& fixMask))

/-- `in_set`, `crates/core/src/predicate/value_test.rs:354-361`. -/
def Mask.inSet {w} (m : Mask w) (val : BitVec w) : Option (BitVec w) :=
  let (over, v) := m.overflowingInSet val
  if over then none else some v

/-! ### test sets -/

/-- `TestSet`, `crates/core/src/predicate/value_test.rs:413-417`. -/
structure TestSet (w : Nat) where
  bound : Bound w
  mask : Mask w
deriving DecidableEq, Repr

/-- `TestSet::DEFAULT`, 505-511. -/
def TestSet.default (w : Nat) : TestSet w := ⟨.default w, .default w⟩

/-- A panic is the only failure of these functions. -/
abbrev PRes (α : Type) := Except (Fault Unit) α

/-- `in_set` with its assertion, which is active in builds with debug assertions (the shipped profile). -/
def Mask.inSetD {w} (dbg : Bool) (m : Mask w) (val : BitVec w) : PRes (Option (BitVec w)) :=
  if dbg && !m.hasAny then .error .panic else .ok (m.inSet val)

/-- `min_value`, `crates/core/src/predicate/value_test.rs:551-558`. -/
def TestSet.minValue {w} (dbg : Bool) (t : TestSet w) : PRes (Option (BitVec w)) :=
  match t.mask.inSetD dbg t.bound.low with
  | .error e => .error e
  | .ok none => .ok none
  | .ok (some v) => .ok (if t.bound.high < v then none else some v)

/-- `has_any`, 559-561. -/
def TestSet.hasAny {w} (dbg : Bool) (t : TestSet w) : PRes Bool :=
  match t.minValue dbg with
  | .error e => .error e
  | .ok v => .ok v.isSome

/-- `SetValueInfo`, 183-187. -/
structure Info (w : Nat) where
  inSet : Bool
  val : Option (BitVec w)
deriving DecidableEq, Repr

/-- `info`, `crates/core/src/predicate/value_test.rs:514-547`. -/
def TestSet.info {w} (dbg : Bool) (t : TestSet w) (val : BitVec w) : PRes (Info w) :=
  match (if dbg then t.hasAny dbg else .ok true) with
  | .error e => .error e
  | .ok false => .error .panic
  | .ok true =>
    match t.bound.cmp val with
    | none => .error .panic
    | some .lt =>
      match t.mask.inSetD dbg t.bound.low with
      | .error e => .error e
      | .ok v => .ok ⟨false, v⟩
    | some .eq =>
      match t.mask.inSetD dbg val with
      | .error e => .error e
      | .ok none => .ok ⟨false, none⟩
      | .ok (some v) => .ok (if v > t.bound.high then ⟨false, none⟩ else ⟨v == val, some v⟩)
    | some .gt => .ok ⟨false, none⟩

/-- `rules`, `crates/core/src/predicate/value_test.rs:563-591`. -/
def TestSet.rules {w} (dbg : Bool) (t : TestSet w) : PRes (List (TestOp × BitVec w)) :=
  match t.hasAny dbg with
  | .error e => .error e
  | .ok false => .ok [(.less, minV w)]
  | .ok true =>
    .ok (t.bound.iter ++ (if t.mask.ones = minV w then [] else [(.mask1, t.mask.ones)])
      ++ (if t.mask.zeros = maxV w then [] else [(.mask0, t.mask.zeros)]))

/-- `add`, 602-605. -/
def TestSet.add {w} (t : TestSet w) (op : TestOp) (v : BitVec w) : TestSet w := ⟨t.bound.add op v, t.mask.add op v⟩

/-- `try_add`, 593-601; an incompatible set is the error. -/
def TestSet.tryAdd {w} (dbg : Bool) (t : TestSet w) (op : TestOp) (v : BitVec w) : PRes (TestSet w) :=
  let t' := t.add op v
  match t'.hasAny dbg with
  | .error e => .error e
  | .ok true => .ok t'
  | .ok false => .error (.err ())

/-- `test`, 647-652. -/
def TestSet.test {w} (dbg : Bool) (t : TestSet w) (v : BitVec w) : PRes Bool :=
  match t.rules dbg with
  | .error e => .error e
  | .ok rs => .ok (rs.all (fun r => r.1.holds v r.2))

/-- `TestSet::as_eq`, 456-459. -/
def TestSet.asEq {w} (t : TestSet w) : Option (BitVec w) := t.bound.asEq

/-- `compile_stest`, `crates/core/src/predicate/test_pkt.rs:190-217`, with `unpack`,
`crates/core/src/predicate/value_test.rs:607-624`: the test run on the value of the field, `none` when there is
nothing to test. -/
def compileTest {w} (t : TestSet w) : Option (BitVec w → Bool) :=
  if t = .default w then none
  else match t.bound.asEq with
    | some e => some (fun v => TestOp.equal.holds v e)
    | none => some (fun v =>
        (t.bound.less.map (TestOp.less.holds v)).getD true && (t.bound.greater.map (TestOp.greater.holds v)).getD true
          && (t.mask.zeros?.map (TestOp.mask0.holds v)).getD true && (t.mask.ones?.map (TestOp.mask1.holds v)).getD true)

/-- `MembershipIter::next` and the closure of `iter_contains`, `crates/core/src/predicate/value_test.rs:678-691` and
`719-735`: the answer for the current position and the next state. -/
def TestSet.memberNext {w} (dbg : Bool) (t : TestSet w) (at' : BitVec w) : PRes (Option (Bool × BitVec w)) :=
  if t.bound.high < at' then .ok none
  else match t.test dbg at' with
    | .error e => .error e
    | .ok r =>
      match inc at' with
      | some n => .ok (some (r, n))
      | none => .ok (if r then some (r, at') else none)

end Verif.Pred
