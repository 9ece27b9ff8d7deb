import Verif.Model.RootedSpace
import Verif.Model.AbList
import Verif.Model.Handshake
/-!
# Names and claims (`crates/common/src/protocols/lns/{name,mod,claim}.rs`)

As in the handshake a packet on the wire is represented by its fields (`NetParts`).
-/
namespace Verif.Lns
open Verif Verif.Pkt Verif.Ast Verif.Abl Verif.Shake

/-- `MAX_LNS_NAME_LEN`, `name.rs:12`. -/
def maxLen : Nat := Space.maxDepth - 1
/-- `MAX_LNS_NAME_SIZE`, 13. -/
def maxNameSize : Nat := Space.maxSize - 8

/-- `NameError`, 19-31. -/
inductive NameErr
  | slash | minLen | maxLen | maxSize
  | space (e : Space.SpaceError)
  deriving DecidableEq, Repr

abbrev NRes (α : Type) := Except (Fault NameErr) α

/-- `Name`, 35-45; `name_type` is `Local` or `Public`. -/
structure Name where
  space : Bytes
  isLocal : Bool
  deriving DecidableEq, Repr

/-- `NameType::from_tail`, 46-53. -/
def fromTail (b : Bytes) : Bool := b == ascii "local"

/-- `Name::root`, 56-61. -/
def Name.root : Name := ⟨[], false⟩

/-- `CLAIM_PREFIX`, `mod.rs:47`: the rooted space of the one component `claims`. -/
def claimPrefix : Bytes := [1, 7, 7, 7, 7, 7, 7, 7, 6] ++ ascii "claims"

/-- An unwrapped result of the space functions. -/
def unwrapSp {ε α : Type} : Space.Res α → Except (Fault ε) α
  | .ok a => .ok a
  | .error _ => .error .panic

/-- `Name::claim_space`, `name.rs:69-71`.  `rooted` is a method of `Space`, so the prefix is first turned into its plain space; `join`
appends the components (`rooted_space.rs:143-158`). -/
def Name.claimSpace (n : Name) : NRes Bytes :=
  match unwrapSp (Rooted.space claimPrefix) with
  | .error e => .error e
  | .ok sp =>
    match unwrapSp (Rooted.tryIntoRooted true sp) with
    | .error e => .error e
    | .ok r =>
      match unwrapSp (Space.iter n.space) with
      | .error e => .error e
      | .ok cs =>
        match unwrapSp (Rooted.extendFromIter r cs) with
        | .error e => .error e
        | .ok r =>
          match unwrapSp (Rooted.space r) with
          | .error e => .error e
          | .ok sp => unwrapSp (Rooted.tryIntoRooted true sp)

/-- `PUBLIC`, `crates/pkt/src/consts.rs:51-54`. -/
def publicGroup : Bytes := [
  98, 187, 59, 139, 61, 213, 206, 117, 225, 250, 136, 47, 225, 163, 58, 217, 89, 140, 55, 21,
  197, 137, 62, 15, 219, 139, 72, 125, 92, 253, 177, 57]
/-- `Name::claim_group`, `name.rs:72-77`. -/
def Name.claimGroup (n : Name) : Bytes := if n.isLocal then privateGroup else publicGroup

/-- `Name::from_space`, `name.rs:78-95`. -/
def Name.fromSpace (sp : Bytes) : NRes Name :=
  match unwrapSp (Space.toArray sp) with
  | .error e => .error e
  | .ok rcomps =>
    if rcomps.length > maxLen then .error (.err .maxLen)
    else match rcomps with
      | [] => .error (.err .minLen)
      | c :: _ => if sp.length > maxNameSize then .error (.err .maxSize) else .ok ⟨sp, fromTail c⟩

/-- `Name::from`, 96-113. -/
def Name.ofComps (comps : List Bytes) : NRes Name :=
  match comps.getLast? with
  | none => .error (.err .minLen)
  | some c =>
    if comps.length > maxLen then .error (.err .maxLen)
    else match Space.tryFromIter comps.reverse with
      | .error (.err e) => .error (.err (.space e))
      | .error .panic => .error .panic
      | .ok sp => if sp.length > maxNameSize then .error (.err .maxSize) else .ok ⟨sp, fromTail c⟩

/-- `TryFrom<ABList> for Name`, 122-131. -/
def Name.ofList (l : ABList) : NRes Name :=
  if l.any (fun e => e.1 == some .fslash) then .error (.err .slash) else Name.ofComps (iterBytes l)

/-- `ToABE for Name`, 132-145. -/
def Name.toAbe (n : Name) : NRes (List ABE) :=
  if n.space.isEmpty then .ok [.lst [.lst [.bytes (ascii "LNS-ROOT")]]]
  else match unwrapSp (Space.toArray n.space) with
    | .error e => .error e
    | .ok arr =>
      match arr.reverse with
      | [] => .error .panic
      | c :: cs => .ok (.bytes c :: cs.flatMap fun c => [.ctr .colon, .bytes c])
/-- `Display for Name`, 146-150. -/
def Name.text (n : Name) : NRes Bytes :=
  match n.toAbe with
  | .error e => .error e
  | .ok l => .ok (printAbe l)

/-- The loop of `ABEValidator for Name`, 157-178: the number of colons, unless there is a slash. -/
def countColons : Nat → List ABE → Option Nat
  | k, [] => some k
  | k, .ctr .colon :: l => countColons (k + 1) l
  | _, .ctr .fslash :: _ => none
  | k, .bytes _ :: l => countColons k l
  | k, .lst _ :: l => countColons k l
def Name.check (l : List ABE) : Bool :=
  match countColons 0 l with
  | none => false
  | some k => !decide (k > maxLen)

/-! ### tags -/

/-- `as_stamp_tag`, `mod.rs:64-69`. -/
def asStampTag (tag : Bytes) : Nat × Bytes := (beNat (tag.take 8), tag.drop 8)
/-- `stamp_tag`, 72-77. -/
def stampTag (stamp : Nat) (rest : Bytes) : Bytes := beBytes 8 stamp ++ rest
/-- `lnstag`, 79-86.  `rest` goes in front of the last byte, the bytes between it and the stamp stay zero. -/
def lnsTag (stamp : Nat) (rest : Bytes) (kind : UInt8) : Option Bytes :=
  if rest.length < 8 then some (beBytes 8 stamp ++ List.replicate (7 - rest.length) 0 ++ rest ++ [kind]) else none

/-- `SelectLink::first_tailmask`, `crates/pkt/src/eval.rs:136-141`. -/
def firstTail (ls : List Link) (tail : Bytes) : Option Link :=
  if tail.length > 16 then none else ls.find? fun l => decide (tail <:+ l.tag)
/-- `PUBKEY_TAG` and `GROUP_TAG`, `mod.rs:50-52`. -/
def pubkeyTag : Bytes := ascii "pubkey@"
def groupTag : Bytes := ascii "group#"
/-- `VOTE_TAG`, 56. -/
def voteTag : Bytes := List.replicate 12 0 ++ ascii "vote"
/-- `LNS`, 46. -/
def lnsDomain : Bytes := List.replicate 13 0 ++ ascii "lns"

/-! ### claims -/

/-- `Claim`, `claim.rs:59-62`. -/
structure Claim where
  pkt : NetParts
  name : Name

/-- `is_linkpoint`, `crates/pkt/src/lib.rs:169-171`: not a key point. -/
def isLinkpoint (p : NetParts) : Bool :=
  match p.parts.fields with
  | .link _ _ => true
  | _ => false

/-- `Claim::from`, `claim.rs:116-137`.  The error kinds are not kept. -/
def Claim.ofPkt (p : NetParts) : Except (Fault Unit) Claim :=
  if ¬ isLinkpoint p then .error (.err ())
  else
    let sp := p.space?.getD []
    if ¬ Space.startsWith sp (spaceOf claimPrefix) then .error (.err ())
    else if p.getDomain ≠ lnsDomain then .error (.err ())
    else match Space.splitFirst sp with
      | .error _ => .error .panic
      | .ok none => .error .panic
      | .ok (some (_, rest)) =>
        match Name.fromSpace rest with
        | .error .panic => .error .panic
        | .error (.err _) => .error (.err ())
        | .ok name =>
          if p.getGroup ≠ name.claimGroup then .error (.err ())
          else if p.getLinks.isEmpty then .error (.err ())
          else .ok ⟨p, name⟩

/-- `Claim::until`, 138-140. -/
def Claim.until (c : Claim) : Except (Fault Unit) Nat :=
  match c.pkt.getLinks with
  | [] => .error .panic
  | l :: _ => .ok (asStampTag l.tag).1
/-- `Claim::pubkey` and `Claim::group`, 141-146. -/
def Claim.pubkey (c : Claim) : Option Bytes := (firstTail c.pkt.getLinks pubkeyTag).map (·.ptr)
def Claim.group (c : Claim) : Option Bytes := (firstTail c.pkt.getLinks groupTag).map (·.ptr)
/-- `Claim::authorities`, 147-153. -/
def Claim.authorities (c : Claim) : List Bytes := (c.pkt.getLinks.filter fun l => l.tag[15]? == some 0x5e).map (·.ptr)

/-- `Claim::new`, 92-107. -/
def Claim.new (C : Crypto) (nh : Bytes) (name : Name) (until_ : Nat) (links : List Link) (data : Bytes) :
    Except (Fault Unit) Claim :=
  match links with
  | [] => .error (.err ())
  | l :: ls =>
    let s := (asStampTag l.tag).1
    if ¬ (s = 0 ∨ s = until_) then .error (.err ())
    else match name.claimSpace with
      | .error _ => .error .panic
      | .ok path =>
        match tryLinkpoint C (name.claimGroup) lnsDomain path (⟨beBytes 8 until_ ++ l.tag.drop 8, l.ptr⟩ :: ls) data 0 nh with
        | .error _ => .error .panic
        | .ok p => if ¬ p.getCreate < until_ then .error (.err ()) else Claim.ofPkt p

/-- `vote`, 182-195. -/
def voteFor (C : Crypto) (nh : Bytes) (claim : Claim) (key : C.Key) (data : Bytes) (now : Nat) : Except (Fault Unit) NetParts :=
  keypoint C nh (claim.name.claimGroup) lnsDomain (getRspace claim.pkt) [⟨voteTag, claim.pkt.hash⟩] data now key

end Verif.Lns
