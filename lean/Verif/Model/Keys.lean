import Verif.Model.Local
import Verif.Model.Identity
/-!
# Named keys (`varscope::lk_key` of `crates/linkspace/src/lib.rs`, `crates/common/src/cli/keys.rs`)

The name is given as evaluated, and passwords as bytes: reading them from the environment, the arguments or the terminal is not modelled.
A generated key is a parameter.  `utf8` tells whether bytes are a valid string.
-/
namespace Verif.Lns
open Verif Verif.Pkt Verif.Env Verif.Shake Verif.Ident

/-- `ENCKEY_TAG`, `crates/common/src/protocols/lns/mod.rs:53`. -/
def enckeyTag : Bytes := ascii "enckey"

/-- `read_enckey`, `crates/common/src/protocols/lns/claim.rs:80-88`.  `split` gives at least one part. -/
def readEnckey (utf8 : Bytes → Bool) (data : Bytes) : Option (Bytes × Bytes) :=
  let line := (Eval.splitBy (· == 0x0a) (data.take 130)).headD []
  if ¬ utf8 line then none
  else match pubkeyOf line with
    | .error _ => none
    | .ok pk => some (pk, line)

/-- `Claim::enckey`, `claim.rs:112-114`. -/
def Claim.enckey (utf8 : Bytes → Bool) (c : Claim) : Except (Option Link) (Bytes × Bytes) :=
  match readEnckey utf8 c.pkt.data with
  | some k => .ok k
  | none => .error (firstTail c.pkt.getLinks enckeyTag)

/-- `lookup_enckey`, `mod.rs:150-164`. -/
def lookupEnckey (C : Crypto) (nh : Bytes) (utf8 : Bytes → Bool) (db : Db) (iter : List Tally → List Tally) (now : Nat) (name : Name) :
    LRes (Option (Bytes × Bytes)) :=
  match lookupClaim C nh db iter now name with
  | .error e => .error e
  | .ok none => .ok none
  | .ok (some c) =>
    match c.enckey utf8 with
    | .ok k => .ok (some k)
    | .error none => .ok none
    | .error (some link) =>
      match db.read link.ptr with
      | none => .ok none
      | some e =>
        match readEnckey utf8 e.2.data with
        | none => .error .err
        | some k => .ok (some k)

/-- `decrypt(..)?`. -/
def tryDecrypt (A : Lib) (s pw : Bytes) : LRes A.Key :=
  match decrypt A s pw with
  | .ok k => .ok k
  | .error _ => .error .err

/-- `setup_special_keyclaim(..)` with the key that the text shows, `mod.rs:217`. -/
def setupNamed (C : Crypto) (nh : Bytes) (db : Db) (iter : List Tally → List Tally) (io : Nat → Call) (now : Nat) (name : Name)
    (enckey : Bytes) (overwrite : Bool) : Db × LRes Bytes :=
  setupKeyclaim C nh db iter io now name enckey (match pubkeyOf enckey with | .ok k => some k | .error _ => none) overwrite

/-- `lk_key`, `crates/linkspace/src/lib.rs:1165-1206`, from the lookup on; `gen` is the key `lk_keygen` gives. -/
def lkKey (A : Lib) (C : Crypto) (nh : Bytes) (utf8 : Bytes → Bool) (db : Db) (iter : List Tally → List Tally) (io : Nat → Call) (now : Nat)
    (name : Name) (pw : Bytes) (create : Bool) (gen : A.Key) : Db × LRes A.Key :=
  match lookupEnckey C nh utf8 db iter now name with
  | .error e => (db, .error e)
  | .ok (some (_, s)) => (db, tryDecrypt A s pw)
  | .ok none =>
    if create then
      match lkKeyEncrypt A gen pw with
      | .error _ => (db, .error (.stop .panic))
      | .ok s =>
        match setupNamed C nh db iter io now name s false with
        | (db', .error e) => (db', .error e)
        | (db', .ok _) => (db', .ok gen)
    else (db, .error .err)

/-- `KeyOpts::identity`, `crates/common/src/cli/keys.rs:61-80`, the first call. -/
def identity (A : Lib) (C : Crypto) (nh : Bytes) (utf8 : Bytes → Bool) (db : Db) (iter : List Tally → List Tally) (now : Nat)
    (name : Name) (enckey : Option Bytes) (pw : Bytes) : LRes A.Key :=
  match enckey with
  | some s => tryDecrypt A s pw
  | none =>
    match lookupEnckey C nh utf8 db iter now name with
    | .error e => .error e
    | .ok none => .error .err
    | .ok (some (_, s)) => tryDecrypt A s pw

/-- `EXPENSIVE_COST`, `crates/argon2-identity/src/lib.rs:23-27`. -/
def expensiveCost : Costs := ⟨2 ^ 21, 1, 4⟩

/-- `KeyGenOpts`, `keys.rs:108-146`, without what is only about printing; `cost` is `decrypt_cost`, `newPass` is `new_pass` or a given
`new_pass_str`, `enckey` is the one of the key options. -/
structure KeyGen where
  overwrite : Bool := false
  noCheck : Bool := false
  errorSome : Bool := false
  errorNone : Bool := false
  noLk : Bool := false
  enckey : Option Bytes := none
  cost : Nat := 1
  newPass : Bool := false

/-- The costs, 166-170. -/
def KeyGen.costs (o : KeyGen) : Costs :=
  match o.cost with
  | 0 => insecureCost
  | 1 => defaultCost
  | _ => expensiveCost

/-- The key that is there, 190-199. -/
def KeyGen.found (C : Crypto) (nh : Bytes) (utf8 : Bytes → Bool) (db : Db) (iter : List Tally → List Tally) (now : Nat) (name : Name)
    (o : KeyGen) : LRes (Option Bytes) :=
  match o.enckey with
  | some k => .ok (some k)
  | none =>
    if o.noLk then .ok none
    else match lookupEnckey C nh utf8 db iter now name with
      | .error e => .error e
      | .ok none => if o.errorNone then .error .err else .ok none
      | .ok (some (_, s)) => if o.errorSome then .error .err else .ok (some s)

/-- Changing the password, 201-210. -/
def KeyGen.repass (A : Lib) (o : KeyGen) (enckey : Option Bytes) (pw newPw : Bytes) : LRes (Option Bytes) :=
  if o.newPass then
    match enckey with
    | none => .error .err
    | some s =>
      match tryDecrypt A s pw with
      | .error e => .error e
      | .ok k =>
        match encrypt A k newPw (some o.costs) with
        | .error _ => .error (.stop .panic)
        | .ok s' => .ok (some s')
  else .ok enckey

/-- The password of all prompts after it, 205-208. -/
def KeyGen.password (o : KeyGen) (pw newPw : Bytes) : Bytes := if o.newPass then newPw else pw

/-- `decrypt(..)?` unless `no_check`. -/
def KeyGen.checked (A : Lib) (o : KeyGen) (s pw : Bytes) : LRes Unit :=
  if o.noCheck then .ok ()
  else match tryDecrypt A s pw with
    | .error e => .error e
    | .ok _ => .ok ()

/-- The public key that is printed: set up in the database if there is one, 230-233 and 254-257. -/
def KeyGen.setup (C : Crypto) (nh : Bytes) (db : Db) (iter : List Tally → List Tally) (io : Nat → Call) (now : Nat) (name : Name)
    (o : KeyGen) (s : Bytes) (overwrite : Bool) : Db × LRes (Bytes × Bytes) :=
  if o.noLk then
    match pubkeyOf s with
    | .error _ => (db, .error .err)
    | .ok pk => (db, .ok (s, pk))
  else match setupNamed C nh db iter io now name s overwrite with
    | (db', .error e) => (db', .error e)
    | (db', .ok pk) => (db', .ok (s, pk))

/-- A new key, 172-176. -/
def KeyGen.generate (A : Lib) (o : KeyGen) (gen : A.Key) (pw : Bytes) : LRes Bytes :=
  match encrypt A gen pw (some o.costs) with
  | .error _ => .error (.stop .panic)
  | .ok s => .ok s

/-- `keygen`, `keys.rs:148-262`: the database after it, and the encrypted key and public key that are printed. -/
def keygen (A : Lib) (C : Crypto) (nh : Bytes) (utf8 : Bytes → Bool) (db : Db) (iter : List Tally → List Tally) (io : Nat → Call) (now : Nat)
    (name : Name) (o : KeyGen) (pw newPw : Bytes) (gen : A.Key) : Db × LRes (Bytes × Bytes) :=
  match o.found C nh utf8 db iter now name with
  | .error e => (db, .error e)
  | .ok found =>
    match o.repass A found pw newPw with
    | .error e => (db, .error e)
    | .ok enckey =>
      if o.overwrite then
        match o.enckey with
        | some _ =>
          match enckey with
          | none => (db, .error (.stop .panic))
          | some s =>
            match o.checked A s (o.password pw newPw) with
            | .error e => (db, .error e)
            | .ok () => o.setup C nh db iter io now name s true
        | none =>
          match o.generate A gen (o.password pw newPw) with
          | .error e => (db, .error e)
          | .ok s => o.setup C nh db iter io now name s true
      else if o.enckey.isSome && !o.noLk then (db, .error .err)
      else match enckey with
        | some s =>
          match o.checked A s (o.password pw newPw) with
          | .error e => (db, .error e)
          | .ok () =>
            match pubkeyOf s with
            | .error _ => (db, .error .err)
            | .ok pk => (db, .ok (s, pk))
        | none =>
          match o.generate A gen (o.password pw newPw) with
          | .error e => (db, .error e)
          | .ok s => o.setup C nh db iter io now name s false

end Verif.Lns
