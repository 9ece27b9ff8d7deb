import Verif.Model.ReadHash
import Verif.Model.Files
/-!
# Names in expressions

Models `crates/common/src/protocols/lns/eval.rs` and the scope `FileEnv` of `crates/common/src/eval/file.rs`.  Opening the instance (`lk()`) is
taken to succeed, and all of an evaluation sees one state of the store and one time.
-/
namespace Verif.Tpl
open Verif Verif.Ast Verif.Abl Verif.Abe Verif.Abtxt Verif.Num Verif.Fit Verif.Pkt Verif.Eval Verif.Env Verif.Repr Verif.Lns

/-- What looking up names needs: the hash and keys and the header of new points (for the stand-in claims), and the order in which the iterator of
the map of votes gives its entries.  Every map has its own order, so a second lookup may have another one. -/
structure NameEnv where
  C : Crypto
  nh : Bytes
  iter : List Tally → List Tally
  again : List Tally → List Tally

/-- `?` on the results of lookups and of names. -/
def ofLookup {α : Type} : LRes α → ER α
  | .ok a => .ok a
  | .error .err => .err
  | .error (.stop _) => .abort
def ofName {α : Type} : NRes α → ER α
  | .ok a => .ok a
  | .error (.err _) => .err
  | .error .panic => .abort

/-- `PrivateLNS::get_claim`, `crates/common/src/protocols/lns/eval.rs:38-40`. -/
def privClaim (w : NameEnv) (o : Outside) (n : Name) : ER (Option Claim) := ofLookup (lookupClaim w.C w.nh o.db w.iter o.now n)
/-- The same where a claim is needed, 248. -/
def privClaim! (w : NameEnv) (o : Outside) (n : Name) : ER Claim :=
  (privClaim w o n).bind fun
    | some c => .ok c
    | none => .err
/-- `NetLNS::get_claim`, 79-93. -/
def netClaim (w : NameEnv) (o : Outside) (n : Name) : ER Claim :=
  (privClaim w o n).bind fun
    | some c => .ok c
    | none => (ofLookup (lookupClaim w.C w.nh o.db w.again o.now n)).bind fun
      | some c => .ok c
      | none => .err

/-- `get_claim_link_ptr`, 34-37 with `require` of 201 and 220, and 70-77: without the link it is an error. -/
def linkPtr (find : Name → ER Claim) (tag : Bytes) (args : List Bytes) : AR Bytes :=
  ((ofName (Name.ofComps args)).bind fun n => (find n).bind fun c =>
    match firstTail c.pkt.getLinks tag with
    | some l => .ok l.ptr
    | none => .err).toAR

/-- `get_by_tag`, 41-45 and 94-99, and the text of the name. -/
def tagName (w : NameEnv) (o : Outside) (tag ptr : Bytes) : ER (Option Bytes) :=
  (ofLookup (reverseLookup w.C w.nh o.db w.iter o.now tag ptr)).bind fun
    | none => .ok none
    | some c => (ofName c.name.text).map some

/-- `name_str`, 59-64. -/
def nameStr (w : NameEnv) (o : Outside) (tag : Bytes) (args : List Bytes) : AR Bytes :=
  match b64Fit 32 (args.headD []) with
  | none => .err
  | some h => ((tagName w o tag h).bind fun
    | some t => .ok t
    | none => .err).toAR

/-- `get_by_tag_abe`, 47-56 and 100-109. -/
def tagAbe (w : NameEnv) (o : Outside) (tag mark b : Bytes) : AR Bytes :=
  match b64Fit 32 b with
  | none => .err
  | some h =>
    match tagName w o tag h with
    | .ok (some t) => .value (bracket mark t)
    | .ok none => .noValue
    | .err => .err
    | .abort => .abort

/-- The functions of `NetLNS`, 116-158. -/
def netFns (w : NameEnv) (o : Outside) : List Fn := [
  { id := ascii "#", lo := 1, hi := 7, init := some true, apply := fun _ i _ => linkPtr (netClaim w o) groupTag i,
    toAbe := some fun b _ => tagAbe w o groupTag (ascii "#") b },
  { id := ascii "?#", lo := 1, hi := 1, apply := fun _ i _ => nameStr w o groupTag i },
  { id := ascii "@", lo := 1, hi := 7, init := some true, apply := fun _ i _ => linkPtr (netClaim w o) pubkeyTag i,
    toAbe := some fun b _ => tagAbe w o pubkeyTag (ascii "@") b },
  { id := ascii "?@", lo := 1, hi := 1, apply := fun _ i _ => nameStr w o pubkeyTag i }]

/-- The functions of `PrivateLNS`, 192-233. -/
def privFns (w : NameEnv) (o : Outside) : List Fn := [
  { id := ascii "private#", lo := 1, hi := 7, init := some true, apply := fun _ i _ => linkPtr (privClaim! w o) groupTag i,
    toAbe := some fun b _ => tagAbe w o groupTag (ascii "#") b },
  { id := ascii "?private#", lo := 1, hi := 1, apply := fun _ i _ => nameStr w o groupTag i },
  { id := ascii "private@", lo := 1, hi := 7, init := some true, apply := fun _ i _ => linkPtr (privClaim! w o) pubkeyTag i,
    toAbe := some fun b _ => tagAbe w o pubkeyTag (ascii "@") b },
  { id := ascii "?private@", lo := 1, hi := 1, apply := fun _ i _ => nameStr w o pubkeyTag i }]

/-- `pkt_scope(&claim.pkt)`.  A claim that was found is stored, once (`Consistent`), so its stamp of arrival is that of the point with its hash. -/
def claimCtx (o : Outside) (c : Claim) : Ctx := ⟨c.pkt, (o.db.read c.pkt.hash).map (·.1), o.now⟩

/-- The last part of the two macros, 169-175 and 247-253: the claim goes behind the scope. -/
def withClaim (ev : Ev) (d : Dyn) (o : Outside) (find : Name → ER Claim) (name expr : List ABE) : AR Bytes :=
  ((ev d name).bind fun l => (ofName (Name.ofList l)).bind fun n => (find n).bind fun c =>
    (ev { d with post := d.post ++ [.pkt (claimCtx o c)] } expr).map concat).toAR

/-- The name and the expression of a macro, 163-168 and 238-246: up to the first `/` and after it. -/
def macParts (abe : List ABE) : Option (List ABE × List ABE) :=
  let name := abe.takeWhile fun e => !isFslash e
  let expr := (abe.dropWhile fun e => !isFslash e).drop 1
  if (name.takeWhile fun e => !isColon e).isEmpty then some (name.drop 1, expr) else none

/-- The macro `lns`, 160-182. -/
def lnsMac (w : NameEnv) (o : Outside) (ev : Ev) (d : Dyn) (abe : List ABE) : AR Bytes :=
  match macParts abe with
  | none => .err
  | some (name, expr) => withClaim ev d o (netClaim w o) name expr
/-- The macro `private-lns`, 235-260: without an expression it is `DEFAULT_POINT_FMT`, `crates/pkt/src/repr.rs:37-38`. -/
def privMac (w : NameEnv) (o : Outside) (ev : Ev) (d : Dyn) (abe : List ABE) : AR Bytes :=
  match macParts abe with
  | none => .err
  | some (name, expr) =>
    if expr.isEmpty then
      match parseStrict defaultPkt with
      | .error _ => .abort
      | .ok expr => withClaim ev d o (privClaim! w o) name expr
    else withClaim ev d o (privClaim! w o) name expr

/-- `NetLNS` and `PrivateLNS` of `lk_scope`, `crates/common/src/eval/mod.rs:35-67`. -/
def nameScopes (w : NameEnv) (o : Outside) (ev : Ev) (d : Dyn) : Scope :=
  (table (netFns w o) [(ascii "lns", fun _ abe => lnsMac w o ev d abe)]).pair
    (table (privFns w o) [(ascii "private-lns", fun _ abe => privMac w o ev d abe)])

/-- `FileEnv`, `crates/common/src/eval/file.rs:15-42`, over any reader of files (`Files.filesFunc`). -/
def fileScope (read : Bytes → Except (Fault Files.FsErr) Bytes) : Scope :=
  table [{ id := ascii "files", lo := 1, hi := 1,
           apply := fun _ i _ => match read (i.headD []) with
             | .ok b => .value b
             | .error (.err _) => .err
             | .error .panic => .abort }] []

/-- `lk_scope`, `crates/common/src/eval/mod.rs:49-67`. -/
def lkScope (k : PktParams) (p : Params) (w : NameEnv) (read : Bytes → Except (Fault Files.FsErr) Bytes) (enableEnv : Bool) (o : Outside) : Ev → Dyn → Scope :=
  lkBase k p (nameScopes w o) (fileScope read) enableEnv o

/-- `lk_encode` (`Eval.lkEncode`) where other scopes were added. -/
def encText (dbg : Bool) (k : PktParams) (base : Ev → Dyn → Scope) (n : Nat) (d : Dyn) (bytes opts : Bytes) : ER Bytes :=
  match encode ⟨evalD dbg k base n d, (denote k base (evalD dbg k base n) d).enc, dbg⟩ bytes opts true with
  | .ok st => .ok st
  | .err => .ok (asAbtxt bytes)
  | .abort => .abort

end Verif.Tpl
