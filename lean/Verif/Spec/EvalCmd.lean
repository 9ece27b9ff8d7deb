import Verif.Model.EvalCmd
import Verif.Spec.CliData
/-!
# Specification of the output of `eval`

A reader of JSON texts (no spaces, only `\u` escapes of ASCII characters), what list a JSON value stands
for, and which arguments records give.
-/
namespace Verif.Spec
open Verif Verif.Ast Verif.Abl Verif.Pred Verif.EvalCmd

/-- A hexadecimal digit. -/
def hexOf (c : UInt8) : Option Nat :=
  if 0x30 ≤ c ∧ c ≤ 0x39 then some (c.toNat - 0x30)
  else if 0x61 ≤ c ∧ c ≤ 0x66 then some (c.toNat - 0x61 + 10)
  else if 0x41 ≤ c ∧ c ≤ 0x46 then some (c.toNat - 0x41 + 10)
  else none

/-- What follows a backslash in a JSON string. -/
def readEscape : Bytes → Option (UInt8 × Bytes)
  | [] => none
  | c :: r =>
    if c = 0x22 ∨ c = 0x5c ∨ c = 0x2f then some (c, r)
    else if c = UInt8.ofNat 'b'.toNat then some (8, r)
    else if c = UInt8.ofNat 't'.toNat then some (9, r)
    else if c = UInt8.ofNat 'n'.toNat then some (10, r)
    else if c = UInt8.ofNat 'f'.toNat then some (12, r)
    else if c = UInt8.ofNat 'r'.toNat then some (13, r)
    else if c = UInt8.ofNat 'u'.toNat then
      match r with
      | a :: b :: h :: l :: r =>
        match hexOf a, hexOf b, hexOf h, hexOf l with
        | some a, some b, some h, some l =>
          let v := ((a * 16 + b) * 16 + h) * 16 + l
          if v < 128 then some (UInt8.ofNat v, r) else none
        | _, _, _, _ => none
      | _ => none
    else none

/-- The rest of a JSON string after its first quote, and what follows it. -/
def readStr : Nat → Bytes → Option (Bytes × Bytes)
  | 0, _ => none
  | _ + 1, [] => none
  | n + 1, c :: r =>
    if c = 0x22 then some ([], r)
    else if c = 0x5c then
      match readEscape r with
      | some (b, r) => (readStr n r).map fun x => (b :: x.1, x.2)
      | none => none
    else if c < 0x20 then none
    else (readStr n r).map fun x => (c :: x.1, x.2)

/-- The digits of a number and what follows them. -/
def readNum (acc : Nat) : Bytes → Nat × Bytes
  | [] => (acc, [])
  | c :: r => if 0x30 ≤ c ∧ c ≤ 0x39 then readNum (acc * 10 + (c.toNat - 0x30)) r else (acc, c :: r)

mutual
/-- A JSON value and what follows it. -/
def readVal : Nat → Bytes → Option (JVal × Bytes)
  | 0, _ => none
  | _ + 1, [] => none
  | n + 1, c :: r =>
    if c = 0x22 then (readStr n r).map fun x => (.str x.1, x.2)
    else if c = UInt8.ofNat '['.toNat then
      match r with
      | [] => none
      | d :: r' =>
        if d = UInt8.ofNat ']'.toNat then some (.arr [], r')
        else (readItems n (d :: r')).map fun x => (.arr x.1, x.2)
    else if 0x30 ≤ c ∧ c ≤ 0x39 then let x := readNum 0 (c :: r); some (.num x.1, x.2)
    else if (c :: r).take 4 = ascii "null" then some (.null, r.drop 3)
    else none
/-- The items of an array up to its end. -/
def readItems : Nat → Bytes → Option (List JVal × Bytes)
  | 0, _ => none
  | n + 1, s =>
    match readVal n s with
    | some (v, c :: r) =>
      if c = UInt8.ofNat ','.toNat then (readItems n r).map fun x => (v :: x.1, x.2)
      else if c = UInt8.ofNat ']'.toNat then some ([v], r)
      else none
    | _ => none
end

/-- Bytes as a string or as an array of numbers. -/
def bytesOf : JVal → Option Bytes
  | .str b => some b
  | .arr l => l.mapM fun v => match v with
    | .num n => if n < 256 then some (UInt8.ofNat n) else none
    | _ => none
  | _ => none

/-- A separator or none. -/
def sepOf : JVal → Option (Option Ctr)
  | .null => some none
  | .str b => if b = ascii ":" then some (some .colon) else if b = ascii "/" then some (some .fslash) else none
  | _ => none

/-- A list of separators and bytes. -/
def listOf : JVal → Option ABList
  | .arr l => l.mapM fun v => match v with
    | .arr [s, b] => match sepOf s, bytesOf b with
      | some s, some b => some (s, b)
      | _, _ => none
    | _ => none
  | _ => none

/-- The list that one line of JSON stands for. -/
def readLine (s : Bytes) : Option ABList :=
  match readVal (2 * s.length) s with
  | some (v, [0x0a]) => listOf v
  | _ => none

/-- The text of a separator. -/
def sepText : Option Ctr → Bytes
  | none => []
  | some .colon => ascii ":"
  | some .fslash => ascii "/"

/-- The bytes of a list: every item behind its separator. -/
def inOne (l : ABList) : Bytes := l.flatMap fun e => sepText e.1 ++ e.2

/-- The arguments that records give, each evaluated where the ones before it are known. -/
inductive ArgsFrom (ev : List Bytes → Bytes → PRes Bytes) : List Bytes → List Bytes → List Bytes → Prop
  | nil {a} : ArgsFrom ev a [] a
  | cons {a r v rs out} : r.length < 2 ^ 64 → v.length < 2 ^ 64 → ev a r = .ok v →
      ArgsFrom ev (a ++ [v]) rs out → ArgsFrom ev a (r :: rs) out

end Verif.Spec
