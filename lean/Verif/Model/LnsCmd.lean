import Verif.Model.Keys
import Verif.Model.Fit
import Verif.Model.PktCmd
/-!
# The program for names (`cli/lns/src/main.rs`)

Expressions are taken as evaluated, the destinations are open and the key is decrypted.  As in `Model/Local.lean` a command sees one state of
the database; `t` is its time.  What is printed on standard error is left out.  `ls`, `ls-group` and `ls-pubkey` are not modelled; the last two
run into `todo!()` (`crates/common/src/protocols/lns/utils.rs:39-45`).
-/
namespace Verif.LnsCmd
open Verif Verif.Pkt Verif.Env Verif.Pred Verif.Multi Verif.Cmd Verif.Lns Verif.Shake Verif.Ident

/-- Line 100: private packets are written unless the options say otherwise. -/
def setWrite (o : IoOpts) : IoOpts := { o with privateWrite := some (o.privateWrite.getD true) }

/-- The result of a command. -/
abbrev Done := World × LRes Unit
/-- `?` on a call that does not change anything. -/
def Done.get {α : Type} (w : World) (x : LRes α) (k : α → Done) : Done :=
  match x with
  | .ok a => k a
  | .error e => (w, .error e)
/-- `?` on a call that does. -/
def Done.next (x : Done) (k : World → Done) : Done :=
  match x with
  | (w, .ok ()) => k w
  | (w, .error e) => (w, .error e)

/-- `common.write_multi_dest(..)?`. -/
def put (dbg : Bool) (y : Sys) (o : IoOpts) (ds : List Dest) (p : NetParts) (w : World) : Done :=
  Done.get w (tryL (Item.ofParts dbg p)) fun x => let r := writeMulti y o ds x w; (r.1, tryL r.2)

/-! ### create-claim -/

/-- `Cmd::CreateClaim`, 55-88. -/
structure Create where
  name : Name
  group : Option Bytes := none
  pubkey : Option Bytes := none
  noAuth : Bool := false
  enckey : Option Bytes := none
  copyFrom : Option Name := none
  auth : List Link := []
  until_ : Nat
  allowEmpty : Bool := false
  write : List Dest

/-- The key and the data, 191-200. -/
def Create.own (c : Create) : LRes (Option Bytes × Bytes) :=
  match c.enckey with
  | none => .ok (c.pubkey, [])
  | some k =>
    match pubkeyOf k with
    | .error _ => .error .err
    | .ok pk => if c.pubkey = none ∨ c.pubkey = some pk then .ok (some pk, k ++ [0x0a]) else .error .err

/-- With the key of another name, 201-204. -/
def Create.key (look : Name → LRes (Option Bytes)) (c : Create) : LRes (Option Bytes × Bytes) :=
  match c.own with
  | .error e => .error e
  | .ok (k, d) =>
    match c.copyFrom with
    | none => .ok (k, d)
    | some n =>
      match look n with
      | .error e => .error e
      | .ok k => .ok (k, d)

/-- `PUBKEY_AUTH_TAG`, `crates/common/src/protocols/lns/mod.rs:51`. -/
def pubkeyAuthTag : Bytes := ascii "pubkey^"
/-- `ab(..)` of a tag of at most 16 bytes, `crates/byte-fmt/src/lib.rs:235-240`: with zeros in front. -/
def tagOf (b : Bytes) : Bytes := List.replicate (16 - b.length) 0 ++ b

/-- The links of `--auth`, 215-220. -/
def authLinks : List Link → LRes (List Link)
  | [] => .ok []
  | l :: ls =>
    match lnsTag 0 (Fit.cutPrefixNulls l.tag) 0x5e with
    | none => .error .err
    | some t =>
      match authLinks ls with
      | .error e => .error e
      | .ok ls => .ok (⟨t, l.ptr⟩ :: ls)

/-- All links, 208-224; `Link::DEFAULT` is `crates/pkt/src/link.rs:18-21`. -/
def Create.links (c : Create) (key : Option Bytes) : LRes (List Link) :=
  match authLinks c.auth with
  | .error e => .error e
  | .ok as =>
    let ls := (c.group.map fun g => (⟨tagOf groupTag, g⟩ : Link)).toList ++ (key.map fun k => (⟨tagOf pubkeyTag, k⟩ : Link)).toList ++
      ((key.filter fun _ => !c.noAuth).map fun k => (⟨tagOf pubkeyAuthTag, k⟩ : Link)).toList ++ as
    if ls.isEmpty then (if c.allowEmpty then .ok [⟨List.replicate 16 0, List.replicate 32 0⟩] else .error .err) else .ok ls

/-- `Cmd::CreateClaim`, 171-227. -/
def create (C : Crypto) (dbg : Bool) (y : Sys) (o : IoOpts) (nh : Bytes) (iter : List Tally → List Tally) (t : Nat) (c : Create) (w : World) : Done :=
  Done.get w (c.key fun n => lookupPubkey C nh w.db iter t n) fun kd =>
    Done.get w (c.links kd.1) fun ls =>
      Done.get w (tryL (Claim.new C nh c.name c.until_ ls kd.2)) fun cl => put dbg y (setWrite o) c.write cl.pkt w

/-! ### vote -/

/-- `lookup_live_chain`, `crates/common/src/protocols/lns/mod.rs:124-147`: whether the claim is that of the name, the claim, and those before
it. -/
def liveChain (C : Crypto) (nh : Bytes) (db : Db) (iter : List Tally → List Tally) (t : Nat) (name : Name) : LRes (Bool × Step × List Step) :=
  if name.isLocal then
    match privateClaim db t name none with
    | .error e => .error e
    | .ok (some p) =>
      match tryL (Claim.ofPkt p.2) with
      | .error e => .error e
      | .ok c => .ok (true, ⟨c, []⟩, [])
    | .ok none =>
      match dummyRoot C nh name with
      | .error e => .error e
      | .ok c => .ok (false, ⟨c, []⟩, [])
  else
    match runL (lookupPublic db iter name) with
    | .error e => .error e
    | .ok (r, _) => .ok r

/-- `lookup_authority_claim`, `mod.rs:88-104`; `todo!()` for local names. -/
def authorityClaim (C : Crypto) (nh : Bytes) (db : Db) (iter : List Tally → List Tally) (t : Nat) (name : Name) : LRes (Bool × Claim) :=
  if name.isLocal then .error (.stop .panic)
  else
    match unwrapL (Space.pop name.space) with
    | .error e => .error e
    | .ok (parent, _) =>
      let up : LRes Name := match Name.fromSpace parent with
        | .ok n => .ok n
        | .error (.err _) => .ok Name.root
        | .error .panic => .error (.stop .panic)
      match up with
      | .error e => .error e
      | .ok n =>
        match liveChain C nh db iter t n with
        | .error e => .error e
        | .ok (b, s, _) => .ok (b, s.claim)

/-- `Cmd::Vote`, `cli/lns/src/main.rs:102-127`; the vote is made at `sign`. -/
def vote (C : Crypto) (dbg : Bool) (y : Sys) (o : IoOpts) (nh : Bytes) (iter : List Tally → List Tally) (t sign : Nat) (name : Name) (hash : Bytes)
    (id : C.Key) (write : List Dest) (w : World) : Done :=
  match w.db.read hash with
  | none => (w, .error .err)
  | some e =>
    Done.get w (tryL (Claim.ofPkt e.2)) fun cl =>
      if cl.name ≠ name then (w, .error .err)
      else Done.get w (authorityClaim C nh w.db iter t name) fun r =>
        if r.1 = false then (w, .error .err)
        else if ¬ r.2.authorities.contains (C.pubkey id) then (w, .error .err)
        else Done.get w (tryL (voteFor C nh cl id [] sign)) fun p => put dbg y (setWrite o) write p w

/-! ### get -/

/-- `LiveClaim::list` in reverse, `crates/common/src/protocols/lns/claim.rs:17-25` and `cli/lns/src/main.rs:154-159`. -/
def shown (chain : Bool) (s : Step) (up : List Step) : List Step := if chain then (s :: up).reverse else [s]

/-- The votes for a claim, 162-164. -/
def putVotes (dbg : Bool) (y : Sys) (o : IoOpts) (sigs : List Dest) : List (Nat × NetParts) → World → Done
  | [], w => (w, .ok ())
  | v :: vs, w => Done.next (put dbg y o sigs v.2 w) fun w => putVotes dbg y o sigs vs w

/-- The loop, 159-166. -/
def putChain (dbg : Bool) (y : Sys) (o : IoOpts) (write sigs : List Dest) : List Step → World → Done
  | [], w => (w, .ok ())
  | s :: ss, w => Done.next (put dbg y o write s.claim.pkt w) fun w =>
      Done.next (if sigs.isEmpty then (w, .ok ()) else putVotes dbg y o sigs s.votes w) fun w => putChain dbg y o write sigs ss w

/-- `Cmd::Get`, 128-170. -/
def get (C : Crypto) (dbg : Bool) (y : Sys) (o : IoOpts) (nh : Bytes) (iter : List Tally → List Tally) (t : Nat) (name : Option Name)
    (write sigs : List Dest) (chain : Bool) (w : World) : Done :=
  Done.get w (match name with
    | none => .ok (true, rootStep, [])
    | some n => liveChain C nh w.db iter t n) fun r =>
    Done.next (putChain dbg y (setWrite o) write sigs (shown chain r.2.1 r.2.2) w) fun w => if r.1 then (w, .ok ()) else (w, .error .err)

end Verif.LnsCmd
