import Verif.Model.View
import Verif.Model.Stamp
import Verif.Model.Abtxt
/-!
# Pairwise groups and the handshake (`crates/common/src/protocols/mod.rs`, `crates/common/src/protocols/handshake.rs`)

A packet on the wire (`NetPktBox`) is represented by its fields (`NetParts`); that building, copying into the byte form and reading
give the same fields back is C01 and C02.  The clock is an argument, one for every reading of it.  The default routing header is an
argument.
-/
namespace Verif.Shake
open Verif Verif.Pkt

/-- `BitXor for B64<[u8; 32]>`, `crates/byte-fmt/src/lib.rs:342-351`.  The code views the bytes as two 128 bit numbers; exclusive or
of these is exclusive or of every byte whatever the byte order. -/
def xor32 (a b : Bytes) : Bytes := List.zipWith (· ^^^ ·) a b
/-- `unicast_group`, `crates/common/src/protocols/mod.rs:13-15`. -/
def unicastGroup (p1 p2 : Bytes) : Bytes := xor32 p1 p2

/-- `HANDSHAKE_D`, `handshake.rs:11`: `ab` pads on the left. -/
def handshakeD : Bytes := List.replicate 6 0 ++ 0xff :: ascii "handshake"
/-- `ID_SENTINAL_SPACENAME`, 13: the rooted space of the one component `sentinal` (`rspace1`). -/
def sentinal : Bytes := [1, 9, 9, 9, 9, 9, 9, 9, 8] ++ ascii "sentinal"
/-- The tags of 75 and 136. -/
def authTag : Bytes := List.replicate 12 0 ++ ascii "auth"
def signedTag : Bytes := List.replicate 10 0 ++ ascii "signed"

/-- `MAX_DIFF_SECONDS`, 16. -/
def maxDiffSeconds : Nat := 15
/-- `valid_stamp_range`, 17-30.  Durations are in nanoseconds. -/
def validStampRange (now stamp : Nat) (maxDiff : Option Nat) : Except (Fault Unit) Unit :=
  let dur := maxDiff.getD maxDiffSeconds * 1000000000
  match Stamp.stampAge now stamp with
  | .ok d => if d < dur then .ok () else .error (.err ())
  | .error d => if d < dur then .ok () else .error (.err ())

/-- `keypoint`, `crates/pkt/src/builder.rs:81-93`: unwraps. -/
def keypoint (C : Crypto) (nh group domain rspace : Bytes) (links : List Link) (data : Bytes) (stamp : Nat) (key : C.Key) :
    Except (Fault Unit) NetParts :=
  match tryKeypoint C group domain rspace links data stamp key nh with
  | .ok p => .ok p
  | .error _ => .error .panic

/-- `net_header().hop`. -/
def hopOf (p : NetParts) : Nat := beNat ((p.netHeader.drop 4).take 4)
/-- `pubkey`, `crates/pkt/src/lib.rs:220-222`. -/
def pubkey? (p : NetParts) : Option Bytes := p.parts.fields.signed?.map (·.pubkey)
/-- `domain` and `group`, 194-202. -/
def domain? (p : NetParts) : Option Bytes := p.parts.fields.head?.map (·.domain)
def group? (p : NetParts) : Option Bytes := p.parts.fields.head?.map (·.group)
/-- `get_rooted_spacename`, 248-250: empty if there is none. -/
def getRspace (p : NetParts) : Bytes := (p.parts.fields.tail?.map (·.rspace)).getD []

/-- `phase0_client_init`, 36-52. -/
def phase0 (C : Crypto) (nh : Bytes) (now : Nat) (id : C.Key) : Except (Fault Unit) NetParts :=
  keypoint C nh (C.pubkey id) handshakeD sentinal [] [] now id

/-- `phase1_server_signs`, 53-89.  `seen` is the clock when the stamp is checked, `now` when the reply is made. -/
def phase1 (C : Crypto) (nh : Bytes) (seen now : Nat) (theirs : NetParts) (id : C.Key) (maxDiff : Option Nat) :
    Except (Fault Unit) NetParts :=
  if ¬ hopOf theirs > 0 then .error .panic
  else match pubkey? theirs with
    | none => .error (.err ())
    | some theirKey =>
      match validStampRange seen theirs.getCreate maxDiff with
      | .error e => .error e
      | .ok () =>
        let ourGroup := unicastGroup theirKey (C.pubkey id)
        if ourGroup = privateGroup then .error (.err ())
        else keypoint C nh ourGroup handshakeD sentinal [⟨authTag, theirs.hash⟩] [] now id

/-- `phase2_client_signs`, 90-144. -/
def phase2 (C : Crypto) (nh : Bytes) (seen now : Nat) (mine theirs : NetParts) (id : C.Key) (maxDiff : Option Nat) :
    Except (Fault Unit) (NetParts × Bytes) :=
  if pubkey? mine ≠ some (C.pubkey id) then .error (.err ())
  else if ¬ hopOf theirs > 0 then .error .panic
  else match pubkey? theirs with
    | none => .error (.err ())
    | some theirKey =>
      match validStampRange seen theirs.getCreate maxDiff with
      | .error e => .error e
      | .ok () =>
        if !theirs.getLinks.any (fun l => l.ptr == mine.hash) then .error (.err ())
        else if domain? theirs ≠ some handshakeD then .error (.err ())
        else
          let ourGroup := unicastGroup (C.pubkey id) theirKey
          if group? theirs ≠ some ourGroup then .error (.err ())
          else if getRspace theirs ≠ sentinal then .error (.err ())
          else match keypoint C nh ourGroup handshakeD sentinal [⟨signedTag, theirs.hash⟩] [] now id with
            | .error e => .error e
            | .ok proof => .ok (proof, theirKey)

/-- `phase3_server_verify`, 145-180. -/
def phase3 (C : Crypto) (theirInit myPhase1 theirs : NetParts) (id : C.Key) : Except (Fault Unit) Bytes :=
  if pubkey? myPhase1 ≠ some (C.pubkey id) then .error (.err ())
  else match pubkey? theirs with
    | none => .error (.err ())
    | some theirKey =>
      if pubkey? theirs ≠ pubkey? theirInit then .error (.err ())
      else
        let ourGroup := unicastGroup (C.pubkey id) theirKey
        if !theirs.getLinks.any (fun l => l.ptr == myPhase1.hash) then .error (.err ())
        else if getRspace theirs ≠ sentinal then .error (.err ())
        else if domain? theirs ≠ some handshakeD then .error (.err ())
        else if group? theirs ≠ some ourGroup then .error (.err ())
        else .ok theirKey

/-- A packet as the receiver sees it: the reading end increments the hop counter (`common.default_hop()`,
`cli/handshake/src/main.rs:71`). -/
def received (p : NetParts) : NetParts := { p with netHeader := hopHeader p.netHeader }

end Verif.Shake
