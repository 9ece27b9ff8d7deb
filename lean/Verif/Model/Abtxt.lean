import Verif.Model.Bytes
/-!
# abtxt: the escaped text form of bytes

Models `crates/abe/src/abtxt.rs`.  Error positions (`idx`) are not modelled; the error kind and the
offending byte are.
-/
namespace Verif.Abtxt
open Verif

/-- `CtrChar`, crates/abe/src/abtxt.rs:32-38. -/
inductive CtrChar | fslash | colon | newline | obr | cbr
  deriving DecidableEq, Repr

/-- The discriminants of `CtrChar`, crates/abe/src/abtxt.rs:32-38. -/
def CtrChar.bit : CtrChar → UInt32
  | .fslash => 0b01
  | .colon => 0b10
  | .newline => 0b100
  | .obr => 0b10000
  | .cbr => 0b100000

/-- `CtrChar::try_from_char`, crates/abe/src/abtxt.rs:40-49. -/
def CtrChar.tryFromChar (b : UInt8) : Option CtrChar :=
  if b = 0x2f then some .fslash
  else if b = 0x5b then some .obr
  else if b = 0x5d then some .cbr
  else if b = 0x3a then some .colon
  else if b = 0x0a then some .newline
  else none

/-- `CtrChar::as_char`, crates/abe/src/abtxt.rs:50-58. -/
def CtrChar.asChar : CtrChar → UInt8
  | .fslash => 0x2f
  | .colon => 0x3a
  | .newline => 0x0a
  | .obr => 0x5b
  | .cbr => 0x5d

/-- `CtrChar::is_bracket`, crates/abe/src/abtxt.rs:60-62. -/
def CtrChar.isBracket : CtrChar → Bool
  | .obr => true
  | .cbr => true
  | _ => false

/-- `ABTxtError`, crates/abe/src/abtxt.rs:19-28 (`idx` dropped). -/
inductive TxtErr
  | fitSlice
  | parse (byte : UInt8)
  | invalidHex
  deriving DecidableEq, Repr

/-- `Byte`, crates/abe/src/abtxt.rs:70-74. -/
inductive Tok
  | finished
  | ctr (kind : CtrChar) (rest : Bytes)
  | byte (b : UInt8) (rest : Bytes)
  deriving DecidableEq, Repr

/-- One hex digit, crates/abe/src/abtxt.rs:196-201. -/
def hexDigit (b : UInt8) : Option UInt8 :=
  if 0x30 ≤ b ∧ b ≤ 0x39 then some (b - 0x30)
  else if 0x61 ≤ b ∧ b ≤ 0x66 then some (10 + (b - 0x61))
  else if 0x41 ≤ b ∧ b ≤ 0x46 then some (10 + (b - 0x41))
  else none

/-- `hex_byte`, crates/abe/src/abtxt.rs:188-209; also returns the rest `&rest[2..]` (line 102). -/
def hexByte : Bytes → Except TxtErr (UInt8 × Bytes)
  | b0 :: b1 :: rest =>
    match hexDigit b0, hexDigit b1 with
    | some h, some l => .ok (0x10 * h + l, rest)
    | _, _ => .error .invalidHex
  | _ => .error .invalidHex

/-- The escape after a backslash, crates/abe/src/abtxt.rs:96-117. -/
def nextEscape : Bytes → Except TxtErr Tok
  | [] => .error (.parse 0x5c)
  | s :: rest =>
    if s = 0x78 then
      match hexByte rest with
      | .ok (b, rest) => .ok (.byte b rest)
      | .error e => .error e
    else if s = 0x5d then .ok (.byte 0x5d rest)
    else if s = 0x5b then .ok (.byte 0x5b rest)
    else if s = 0x6e then .ok (.byte 0x0a rest)
    else if s = 0x72 then .ok (.byte 0x0d rest)
    else if s = 0x3a then .ok (.byte 0x3a rest)
    else if s = 0x74 then .ok (.byte 0x09 rest)
    else if s = 0x5c then .ok (.byte 0x5c rest)
    else if s = 0x2f then .ok (.byte 0x2f rest)
    else if s = 0x30 then .ok (.byte 0 rest)
    else if s = 0x66 then .ok (.byte 255 rest)
    else .error (.parse 0x5c)

/-- `next_byte`, crates/abe/src/abtxt.rs:78-130. -/
def nextByte (plain err : UInt32) : Bytes → Except TxtErr Tok
  | [] => .ok .finished
  | b :: rest =>
    match CtrChar.tryFromChar b with
    | some c =>
      if err &&& c.bit ≠ 0 then .error (.parse b)
      else if plain &&& c.bit ≠ 0 then .ok (.byte b rest)
      else .ok (.ctr c rest)
    | none =>
      if b = 0x5c then nextEscape rest
      else if b = 0x09 ∨ b = 0x0d then .error (.parse b)
      else if 0x20 ≤ b ∧ b ≤ 0x7e then .ok (.byte b rest)
      else .error (.parse b)

/-- `STD_PLAIN_CSET`, crates/abe/src/abtxt.rs:76. -/
def stdPlain : UInt32 := 0
/-- `STD_ERR_CSET`, crates/abe/src/abtxt.rs:77. -/
def stdErr : UInt32 := CtrChar.newline.bit

theorem hexByte_lt {s b rest} (h : hexByte s = .ok (b, rest)) : rest.length < s.length := by
  unfold hexByte at h
  split at h
  · split at h
    · injection h with h; injection h with _ h; subst h; simp; omega
    · cases h
  · cases h

theorem nextEscape_byte {s t} (h : nextEscape s = .ok t) :
    ∃ b rest, t = .byte b rest ∧ rest.length < s.length := by
  unfold nextEscape at h
  split at h
  · cases h
  · rename_i c r
    repeat' split at h
    all_goals first
      | (rename_i hx; have := hexByte_lt hx; injection h with h; exact ⟨_, _, h.symm, by simp; omega⟩)
      | (injection h with h; exact ⟨_, _, h.symm, by simp⟩)
      | cases h

theorem nextByte_byte_lt {p e s b rest} (h : nextByte p e s = .ok (.byte b rest)) :
    rest.length < s.length := by
  unfold nextByte at h
  repeat' split at h
  all_goals try cases h
  all_goals try (simp; done)
  obtain ⟨b', r', h1, h2⟩ := nextEscape_byte h
  injection h1 with _ h1; subst h1; simp; omega

theorem nextByte_ctr_lt {p e s k rest} (h : nextByte p e s = .ok (.ctr k rest)) :
    rest.length < s.length := by
  unfold nextByte at h
  repeat' split at h
  all_goals try cases h
  all_goals try (simp; done)
  obtain ⟨b', r', h1, h2⟩ := nextEscape_byte h
  cases h1

/-- The loop of `parse_abtxt`, crates/abe/src/abtxt.rs:132-173, with the sink a growing vector.
`room` is how many more bytes fit (`max - total`, line 145-152; `None` = unlimited). -/
def parseLoop (room : Option Nat) (s : Bytes) : Except TxtErr Bytes :=
  match h : nextByte stdPlain stdErr s with
  | .error e => .error e
  | .ok .finished => .ok []
  | .ok (.ctr k _) => .error (.parse k.asChar)
  | .ok (.byte b rest) =>
    have : rest.length < s.length := nextByte_byte_lt h
    match room with
    | some 0 => .error .fitSlice
    | some (r + 1) => (parseLoop (some r) rest).map (b :: ·)
    | none => (parseLoop none rest).map (b :: ·)
termination_by s.length

/-- `parse_abtxt_upto_max`, crates/abe/src/abtxt.rs:178-186. -/
def parseUptoMax (s : Bytes) (max : Nat) : Except TxtErr Bytes := parseLoop (some max) s

/-- `HEX_CHARS_LOWER[i]`, crates/abe/src/abtxt.rs:210. -/
def hexChar (i : UInt8) : UInt8 := if i < 10 then 0x30 + i else 0x61 + (i - 10)

/-- `hex_lookup`, crates/abe/src/abtxt.rs:212-217. -/
def hexLookup (b : UInt8) : Bytes := [0x5c, 0x78, hexChar (b >>> 4), hexChar (b &&& 0xf)]

/-- `ESCAPE_LOOKUP` / `escape_default`, crates/abe/src/abtxt.rs:241-285. -/
def escapeDefault (b : UInt8) : Bytes :=
  if b = 0 then [0x5c, 0x30]
  else if b = 255 then [0x5c, 0x66]
  else if b = 0x0a then [0x5c, 0x6e]
  else if b = 0x09 then [0x5c, 0x74]
  else if b = 0x0d then [0x5c, 0x72]
  else if b = 0x3a then [0x5c, 0x3a]
  else if b = 0x5c then [0x5c, 0x5c]
  else if b = 0x2f then [0x5c, 0x2f]
  else if b = 0x5b then [0x5c, 0x5b]
  else if b = 0x5d then [0x5c, 0x5d]
  else if 0x20 ≤ b ∧ b ≤ 0x7e then [b]
  else hexLookup b

/-- `escaped_byte`, crates/abe/src/abtxt.rs:219-221. -/
def escapedByte (b : UInt8) : Bool := (escapeDefault b).length > 1

/-- `as_abtxt`, crates/abe/src/abtxt.rs:287-296. -/
def asAbtxt (bs : Bytes) : Bytes :=
  if bs.all (fun v => !escapedByte v) then bs else bs.flatMap escapeDefault

end Verif.Abtxt
