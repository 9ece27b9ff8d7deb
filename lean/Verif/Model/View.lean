import Verif.Model.Packet
/-!
# The fields of a packet as the core crate sees them

The accessors of `PointExt` (`crates/pkt/src/lib.rs:156-276`) on the enum form.  A space of 1 to 7 bytes would make
`space()` panic; packets with such a space do not pass the checks of C02 and cannot be built, so `space` is total here.
-/
namespace Verif.Pkt
open Verif

/-- `linkpoint_header`, `crates/pkt/src/point_parts.rs:150-156`. -/
def Fields.head? : Fields → Option LinkHead
  | .link h _ => some h
  | .key h _ _ => some h
  | _ => none
/-- `tail`, `crates/pkt/src/point_parts.rs:138-144`. -/
def Fields.tail? : Fields → Option Tail
  | .link _ t => some t
  | .key _ t _ => some t
  | _ => none
/-- `signed`, `crates/pkt/src/point_parts.rs:158-163`. -/
def Fields.signed? : Fields → Option Signed
  | .key _ _ s => some s
  | _ => none
/-- `data_ptr`, `crates/pkt/src/point_parts.rs:82-90`. -/
def Fields.data' : Fields → Bytes
  | .data b => b
  | .link _ t => t.data
  | .key _ t _ => t.data
  | .error b => b
  | .unknown b => b

/-- `RootedSpace::space` on a checked value, `crates/pkt/src/rooted_space.rs:237-239`. -/
def spaceOf (rspace : Bytes) : Bytes := rspace.drop 8

/-- `PointFields::common_idx`, `crates/pkt/src/point_parts.rs:42-50`. -/
def Fields.commonIdx : Fields → Option (LinkHead × Bytes × Option Bytes)
  | .link h t => some (h, t.rspace, none)
  | .key h t s => some (h, t.rspace, some s.pubkey)
  | _ => none

def zeros (n : Nat) : Bytes := List.replicate n 0

/-- `get_group`, `crates/pkt/src/lib.rs:197-199`. -/
def NetParts.getGroup (p : NetParts) : Bytes := (p.parts.fields.head?.map (·.group)).getD (zeros 32)
/-- `get_domain`, 203-205. -/
def NetParts.getDomain (p : NetParts) : Bytes := (p.parts.fields.head?.map (·.domain)).getD (zeros 16)
/-- `get_create_stamp`, 209-211. -/
def NetParts.getCreate (p : NetParts) : Nat := (p.parts.fields.head?.map (·.stamp)).getD 0
/-- `get_pubkey`, 224-226. -/
def NetParts.getPubkey (p : NetParts) : Bytes := (p.parts.fields.signed?.map (·.pubkey)).getD (zeros 32)
/-- `spacename`, 232-234. -/
def NetParts.space? (p : NetParts) : Option Bytes := p.parts.fields.tail?.map (fun t => spaceOf t.rspace)
/-- `get_depth`, 244-246: the depth byte of the rooted space. -/
def NetParts.getDepth (p : NetParts) : UInt8 := (p.parts.fields.tail?.map (fun t => t.rspace.headD 0)).getD 0
/-- `get_links`, 259-261. -/
def NetParts.getLinks (p : NetParts) : List Link := (p.parts.fields.tail?.map (·.links)).getD []
/-- `data`, `crates/pkt/src/point_parts.rs:128-130`. -/
def NetParts.data (p : NetParts) : Bytes := p.parts.fields.data'

end Verif.Pkt
