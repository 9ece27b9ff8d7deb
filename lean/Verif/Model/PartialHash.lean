import Verif.Model.Base64
import Verif.Model.Packet
/-!
# Hashes given by the first characters of their text

Models `crates/core/src/partial_hash.rs`.
-/
namespace Verif.PHash
open Verif Verif.Abe Verif.Pkt

/-- `try_from_strlike`, `crates/core/src/partial_hash.rs:76-89`.  Only the characters up to a multiple of four are
checked.  `utf8` tells whether bytes are a valid string (`ArrayString::from_byte_string`, a library function), whose
error is unwrapped. -/
def tryFrom (utf8 : Bytes → Bool) (s : Bytes) : Except (Fault Unit) Bytes :=
  if s.length < 4 ∨ s.length > 43 then .error (.err ())
  else match base64Decode (s.take (s.length / 4 * 4)) with
    | none => .error (.err ())
    | some _ => if utf8 (s ++ List.replicate (43 - s.length) 0x41) then .ok s else .error .panic

/-- `aprox_btree_idx`, 65-75; a decoding error is unwrapped. -/
def btreeIdx (s : Bytes) : Except (Fault Unit) Bytes :=
  match base64Decode (s ++ List.replicate (43 - s.length) 0x41) with
  | some b => .ok b
  | none => .error .panic

/-- `str_matches`, 51-54. -/
def matchesHash (s h : Bytes) : Bool := s.isPrefixOf (base64 h)

/-- `str_greater_then`, 55-60: byte strings compared. -/
def greaterThan (s h : Bytes) : Bool := decide ((base64 h).take s.length < s)

/-- `complete_try_into`, 38-47. -/
def complete (s : Bytes) : Option Bytes := if s.length ≠ 43 then none else base64Decode s

end Verif.PHash
