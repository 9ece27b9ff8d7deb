import Verif.Model.Base64
import Verif.Model.Handshake
import Verif.Model.Eval
/-!
# Encrypted keys (`crates/argon2-identity/src/lib.rs`)

Text is its bytes; all delimiters are ASCII.  The elliptic curve and argon2 are parameters.
-/
namespace Verif.Ident
open Verif Verif.Abe Verif.Num Verif.Shake

/-- `Costs`, 11-16. -/
structure Costs where
  mem : Nat
  times : Nat
  parallelism : Nat
deriving DecidableEq, Repr
/-- 18-32. -/
def defaultCost : Costs := ⟨2 ^ 17, 4, 4⟩
def insecureCost : Costs := ⟨8, 1, 1⟩

/-- What comes from other crates: `SigningKey::try_from`, `to_bytes` and `pubkey_bytes` (`crates/cryptography/src/lib.rs:15-23`), and
`argon2::hash_raw` with variant Argon2d, version 0x13, no secret, no associated data and 32 bytes of output; it fails on costs or a salt
out of range. -/
structure Lib where
  Key : Type
  ofBytes : Bytes → Option Key
  toBytes : Key → Bytes
  pubkey : Key → Bytes
  argon : Costs → Bytes → Bytes → Option Bytes

/-- `argon2::hash_encoded`: the text of the parameters, the salt and the digest.  A library function, written down from its
documentation (`$argon2d$v=19$m=8,t=1,p=1$salt$hash`, unpadded standard base64); the test key at 191 of `lib.rs` has this form. -/
def hashEncoded (A : Lib) (c : Costs) (password salt : Bytes) : Option Bytes :=
  (A.argon c password salt).map fun d =>
    ascii "$argon2d$v=19$m=" ++ dec c.mem ++ ascii ",t=" ++ dec c.times ++ ascii ",p=" ++ dec c.parallelism ++ ascii "$" ++ b64Enc standard salt ++
      ascii "$" ++ b64Enc standard d

/-- `BASE64_STANDARD_NO_PAD.decode`. -/
def stdDecode (s : Bytes) : Option Bytes := (s.mapM standard.val).bind b64Dec

/-- `str::split_once`. -/
def splitOnce (c : UInt8) : Bytes → Option (Bytes × Bytes)
  | [] => none
  | x :: s => if x = c then some ([], s) else (splitOnce c s).map (fun (a, b) => (x :: a, b))
/-- `str::rsplit_once`. -/
def rsplitOnce (c : UInt8) (s : Bytes) : Option (Bytes × Bytes) :=
  (splitOnce c s.reverse).map (fun (b, a) => (a.reverse, b.reverse))

structure Decoded where
  costs : Costs
  salt : Bytes
  hash : Bytes

/-- The options of `decode_string`, 56-66. -/
def readOpts (options : Bytes) : List Nat :=
  ((((Eval.splitBy (· == 0x2c) options).filterMap (splitOnce 0x3d)).zip [ascii "m", ascii "t", ascii "p"]).filter (fun ((kind, _), want) => kind == want)).filterMap
    (fun ((_, v), _) => parseU 10 (2 ^ 32) v)

/-- `params::decode_string`, 46-76.  Items after the third are not looked at. -/
def decodeString (s : Bytes) : Option Decoded :=
  let pre := ascii "$argon2d$v=19$"
  if ¬ pre.isPrefixOf s then none
  else match Eval.splitBy (· == 0x24) (s.drop pre.length) with
    | options :: saltTxt :: hashTxt :: _ =>
      match stdDecode saltTxt with
      | none => none
      | some salt =>
        match stdDecode hashTxt with
        | none => none
        | some hash =>
          if hash.length ≠ 32 then none
          else match readOpts options with
            | [m, t, p] => some ⟨⟨m, t, p⟩, salt, hash⟩
            | _ => none
    | _ => none

/-- `KeyError`, 85-91. -/
inductive KeyError where
  | badData | wrongPassword
deriving DecidableEq, Repr

/-- `decrypt`, 142-171. -/
def decrypt (A : Lib) (s password : Bytes) : Except KeyError A.Key :=
  match decodeString s with
  | none => .error .badData
  | some d =>
    match A.argon d.costs password d.salt with
    | none => .error .badData
    | some digest =>
      if digest.length ≠ 32 then .error .badData
      else match A.ofBytes (xor32 digest d.hash) with
        | none => .error .wrongPassword
        | some k => if A.pubkey k ≠ d.salt then .error .wrongPassword else .ok k

/-- `_encrypt`, 96-127, for a build with debug assertions: the result is decrypted and compared.  A `none` or a failed check panics
(`encrypt`, 93-95). -/
def encryptWith (A : Lib) (key : A.Key) (password : Bytes) (cost : Costs) : Except (Fault Unit) Bytes :=
  match hashEncoded A cost password (A.pubkey key) with
  | none => .error .panic
  | some encoded =>
    match rsplitOnce 0x24 encoded with
    | none => .error .panic
    | some (conf, digestTxt) =>
      match stdDecode digestTxt with
      | none => .error .panic
      | some digest =>
        let result := conf ++ ascii "$" ++ b64Enc standard (xor32 digest (A.toBytes key))
        match decrypt A result password with
        | .error _ => .error .panic
        | .ok _ => .ok result
/-- `encrypt`, 93-95. -/
def encrypt (A : Lib) (key : A.Key) (password : Bytes) (cost : Option Costs) : Except (Fault Unit) Bytes :=
  encryptWith A key password (cost.getD defaultCost)
/-- `pubkey`, 128-140. -/
def pubkeyOf (s : Bytes) : Except KeyError Bytes :=
  match decodeString s with
  | none => .error .badData
  | some d => if d.salt.length ≠ 32 then .error .badData else if d.hash.length ≠ 32 then .error .badData else .ok d.salt

/-- `lk_key_encrypt`, `crates/linkspace/src/lib.rs:692-702`. -/
def lkKeyEncrypt (A : Lib) (key : A.Key) (password : Bytes) : Except (Fault Unit) Bytes :=
  encrypt A key password (if password.isEmpty then some insecureCost else none)

end Verif.Ident
