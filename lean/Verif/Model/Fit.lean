import Verif.Model.Num
/-!
# Fitting bytes into a length

Models `crates/abe/src/lib.rs:34-91` and the functions of `crates/abe/src/scope/bytes.rs` and
`crates/abe/src/scope/uint.rs`.  Error values are not kept: `none` is an error.
-/
namespace Verif.Fit
open Verif Verif.Num

/-- `cut_ending_nulls2`, `crates/abe/src/lib.rs:34-39`. -/
def cutEndingNulls (b : Bytes) : Bytes := (b.reverse.dropWhile (· == 0)).reverse
/-- `cut_prefixeq`, 43-48. -/
def cutPrefixEq (x : UInt8) (b : Bytes) : Bytes := b.dropWhile (· == x)
/-- `cut_prefix_nulls`, 40-42. -/
def cutPrefixNulls (b : Bytes) : Bytes := cutPrefixEq 0 b
/-- `fit_front`, 77-91. -/
def fitFront (n : Nat) (b : Bytes) : Option Bytes :=
  if b.length > n then none else some (b ++ List.replicate (n - b.length) 0)
/-- `fit_back`, 59-76. -/
def fitBack (fill : UInt8) (n : Nat) (b : Bytes) : Option Bytes :=
  if b.length > n then none else some (List.replicate (n - b.length) fill ++ b)
/-- `fit`, 50-58. -/
def fit (n : Nat) (b : Bytes) : Option Bytes := if b.length ≠ n then none else fitFront n b

/-- The length argument of `pad`, `crates/abe/src/scope/bytes.rs:28-33`. -/
def padLen (args : List Bytes) : Option Nat :=
  match args[1]? with
  | some l => if l.isEmpty then some 16 else parseUsize l
  | none => some 16

/-- `pad`, 19-65. -/
def pad (args : List Bytes) (left : Bool) (dflt : UInt8) (check fixed : Bool) : Option Bytes :=
  let bytes := args.headD []
  match padLen args with
  | none => none
  | some len =>
    let bytes := if !fixed then bytes
      else
        let nlen := min len bytes.length
        if left then bytes.take nlen else bytes.drop (bytes.length - nlen)
    if len < bytes.length then (if check then none else some bytes)
    else
      match (args[2]?).getD [dflt] with
      | [p] =>
        let fill := List.replicate (len - bytes.length) p
        some (if !left then bytes ++ fill else fill ++ bytes)
      | _ => none

/-- `cut`, 67-88. -/
def cut (args : List Bytes) (left check : Bool) : Option Bytes :=
  let bytes := args.headD []
  match (match args[1]? with | some l => parseUsize l | none => some 16) with
  | none => none
  | some len =>
    if len > bytes.length then (if check then none else some bytes)
    else some (if left then bytes.take len else bytes.drop (bytes.length - len))

/-- `replace`, 127-142: `none` when the loop never ends (an empty pattern on a non-empty text). -/
def replaceLoop (src dst : Bytes) : Nat → Bytes → Option Bytes
  | _, [] => some []
  | 0, _ => none
  | n + 1, b@(h :: rest) =>
    if src <+: b then (replaceLoop src dst n (b.drop src.length)).map (dst ++ ·)
    else (replaceLoop src dst n rest).map (h :: ·)
/-- As many rounds as there are bytes are enough unless the pattern is empty. -/
def replace (b src dst : Bytes) : Option Bytes := replaceLoop src dst b.length b

end Verif.Fit
