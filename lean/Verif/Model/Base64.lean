import Verif.Model.Arith
/-!
# Base64 and radix text

`crates/abe/src/scope/base.rs`.  The base64 engines are a library (`base64` 0.21): the model follows its documented
behaviour for `BASE64_URL_SAFE_NO_PAD` (`-` and `_`, no padding accepted, unused trailing bits must be zero) and
`BASE64_STANDARD` (`+` and `/`, canonical padding required, unused trailing bits must be zero).
-/
namespace Verif.Abe
open Verif Verif.Num Verif.Fit

/-- The two last characters of the alphabet. -/
structure Alphabet where
  c62 : UInt8
  c63 : UInt8
def urlSafe : Alphabet := ⟨0x2d, 0x5f⟩
def standard : Alphabet := ⟨0x2b, 0x2f⟩

/-- The character of a 6-bit value. -/
def Alphabet.char (a : Alphabet) (v : Nat) : UInt8 :=
  if v < 26 then UInt8.ofNat (0x41 + v)
  else if v < 52 then UInt8.ofNat (0x61 + (v - 26))
  else if v < 62 then UInt8.ofNat (0x30 + (v - 52))
  else if v = 62 then a.c62 else a.c63

/-- The 6-bit value of a character. -/
def Alphabet.val (a : Alphabet) (c : UInt8) : Option Nat :=
  if 0x41 ≤ c ∧ c ≤ 0x5a then some (c.toNat - 0x41)
  else if 0x61 ≤ c ∧ c ≤ 0x7a then some (c.toNat - 0x61 + 26)
  else if 0x30 ≤ c ∧ c ≤ 0x39 then some (c.toNat - 0x30 + 52)
  else if c = a.c62 then some 62
  else if c = a.c63 then some 63
  else none

/-- Encoding without padding. -/
def b64Enc (al : Alphabet) : Bytes → Bytes
  | a :: b :: c :: r =>
    let n := a.toNat * 65536 + b.toNat * 256 + c.toNat
    al.char (n / 262144) :: al.char (n / 4096 % 64) :: al.char (n / 64 % 64) :: al.char (n % 64) :: b64Enc al r
  | [a, b] =>
    let n := a.toNat * 1024 + b.toNat * 4
    [al.char (n / 4096), al.char (n / 64 % 64), al.char (n % 64)]
  | [a] =>
    let n := a.toNat * 16
    [al.char (n / 64), al.char (n % 64)]
  | [] => []

/-- Decoding the 6-bit values. -/
def b64Dec : List Nat → Option Bytes
  | w :: x :: y :: z :: r =>
    let n := w * 262144 + x * 4096 + y * 64 + z
    (b64Dec r).map (fun t => UInt8.ofNat (n / 65536) :: UInt8.ofNat (n / 256 % 256) :: UInt8.ofNat (n % 256) :: t)
  | [w, x, y] =>
    let n := w * 4096 + x * 64 + y
    if n % 4 = 0 then some [UInt8.ofNat (n / 1024), UInt8.ofNat (n / 4 % 256)] else none
  | [w, x] =>
    let n := w * 64 + x
    if n % 16 = 0 then some [UInt8.ofNat (n / 16)] else none
  | [_] => none
  | [] => some []

/-- `base64`, `crates/abe/src/scope/base.rs:98-100`. -/
def base64 (b : Bytes) : Bytes := b64Enc urlSafe b
/-- `base64_decode`, 101-103. -/
def base64Decode (s : Bytes) : Option Bytes := (s.mapM urlSafe.val).bind b64Dec

/-- `BASE64_STANDARD.encode`: padded to a multiple of four. -/
def base64Std (b : Bytes) : Bytes :=
  b64Enc standard b ++ List.replicate ((3 - b.length % 3) % 3) 0x3d
/-- `BASE64_STANDARD.decode`: the length is a multiple of four, at most two `=` at the end, the rest as above. -/
def base64StdDecode (s : Bytes) : Option Bytes :=
  if s.length % 4 ≠ 0 then none
  else
    let body := (s.reverse.dropWhile (· == 0x3d)).reverse
    if s.length - body.length > 2 then none
    else (body.mapM standard.val).bind b64Dec

/-- `B64::parse_str` for `n` bytes, `crates/byte-fmt/src/lib.rs:511-520`.  That `n` bytes come out, which the code only
asserts in debug builds, is theorem `b64_fixed_length`. -/
def b64ParseStr (n : Nat) (s : Bytes) : Option Bytes :=
  if s.length ≠ (n * 4 + 2) / 3 then none else base64Decode s
/-- `B64::try_fit_bytes_or_b64`, `crates/byte-fmt/src/lib.rs:501-510`. -/
def b64Fit (n : Nat) (s : Bytes) : Option Bytes :=
  match b64ParseStr n s with
  | some b => some b
  | none => fit n s

/-- `bin`, `crates/abe/src/scope/base.rs:12-21`. -/
def bin (radix : Nat) (s : Bytes) : Option Bytes :=
  (parseU radix (2 ^ 128) s).map fun i => if i = 0 then [0] else cutPrefixNulls (beBytes 16 i)

/-- `{b:02X}`. -/
def hexUpper (v : Nat) : UInt8 := if v < 10 then UInt8.ofNat (0x30 + v) else UInt8.ofNat (0x41 + (v - 10))
/-- The digits printed by `enc_bin`, 35-51. -/
def encDigits (radix : Nat) (b : Bytes) : Bytes :=
  if radix = 2 then b.flatMap fun x => (List.range 8).map fun i => if x.toNat.testBit (7 - i) then 0x31 else 0x30
  else b.flatMap fun x => [hexUpper (x.toNat / 16), hexUpper (x.toNat % 16)]

end Verif.Abe
