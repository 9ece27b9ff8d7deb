/-!
# Bytes

Basic vocabulary shared by all models: byte strings and big/little-endian numbers.
-/
deriving instance DecidableEq for Except

namespace Verif

/-- Rust `&[u8]` / `Vec<u8>` / `[u8;N]`. -/
abbrev Bytes := List UInt8

/-- The number a big-endian byte string denotes
(`u16::from_be_bytes` ... used throughout `crates/byte-fmt/src/endian_types.rs:20-120`). -/
def beNat (bs : Bytes) : Nat := bs.foldl (fun acc b => acc * 256 + b.toNat) 0

/-- `to_be_bytes` of an integer stored in `k` bytes (`crates/byte-fmt/src/endian_types.rs:20-120`).
Total on all naturals: the value is reduced mod `256^k` as a Rust `as` cast would. -/
def beBytes : Nat → Nat → Bytes
  | 0, _ => []
  | k + 1, n => beBytes k (n / 256) ++ [UInt8.ofNat (n % 256)]

/-- The number a little-endian byte string denotes. -/
def leNat : Bytes → Nat
  | [] => 0
  | b :: bs => b.toNat + 256 * leNat bs

/-- `to_le_bytes`. -/
def leBytes : Nat → Nat → Bytes
  | 0, _ => []
  | k + 1, n => UInt8.ofNat (n % 256) :: leBytes k (n / 256)

/-- Lexicographic comparison of byte strings, the order Rust uses for `[u8]` and LMDB for keys
(shorter prefix first). -/
def bytesLt : Bytes → Bytes → Bool
  | [], [] => false
  | [], _ :: _ => true
  | _ :: _, [] => false
  | a :: as, b :: bs => if a.toNat < b.toNat then true else if b.toNat < a.toNat then false else bytesLt as bs

def bytesLe (a b : Bytes) : Bool := !bytesLt b a

/-- ASCII literal as bytes, Rust `b"..."`. -/
def ascii (s : String) : Bytes := s.toList.map (fun c => UInt8.ofNat c.toNat)

end Verif
