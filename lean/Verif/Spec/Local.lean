import Verif.Spec.Votes
import Verif.Spec.Name
/-!
# Specification of local names
-/
namespace Verif.Spec
open Verif Verif.Pkt Verif.Env

/-- A point of this group, domain and space, made before the time, and by the key if one is given. -/
def MadeAt (g d : Bytes) (cs : List Bytes) (by_ : Option Bytes) (now : Nat) (p : NetParts) : Prop :=
  ∃ t, HasTuple p t ∧ t.group = g ∧ t.domain = d ∧ t.space = cs ∧ (∀ k, by_ = some k → t.pubkey = k) ∧ t.create < now

/-- Of the points at one place, those of smaller keys come first, and those of one key from new to old. -/
def Leads (p q : NetParts) : Prop :=
  ∃ t u, HasTuple p t ∧ HasTuple q u ∧ (BytesBefore t.pubkey u.pubkey ∨ (t.pubkey = u.pubkey ∧ Older q p))

/-- The first stored point of this place, if there is one. -/
def LeadAt (db : Db) (g d : Bytes) (cs : List Bytes) (by_ : Option Bytes) (now : Nat) : Option (Nat × NetParts) → Prop
  | none => ∀ e ∈ db.log, ¬ MadeAt g d cs by_ now e.2
  | some e => e ∈ db.log ∧ MadeAt g d cs by_ now e.2 ∧ ∀ f ∈ db.log, MadeAt g d cs by_ now f.2 → f = e ∨ Leads e.2 f.2

/-- The claim of a key for a local name: it never ends, and its data is the encrypted key. -/
def keyClaim (comps : List Bytes) (key enckey : Bytes) : Content :=
  .link ⟨List.replicate 32 0, List.replicate 13 0 ++ ascii "lns", 0, [⟨List.replicate 8 255 ++ [0] ++ ascii "pubkey@", key⟩],
    rootedOf (ascii "claims" :: comps.reverse), enckey⟩

/-- A stored claim with this hash, and the components of its name. -/
def StoredClaim (db : Db) (h : Bytes) (p : NetParts) (comps : List Bytes) : Prop :=
  (∃ i, (i, p) ∈ db.log) ∧ p.hash = h ∧ ∃ c lc, p.parts = c.parts ∧ c.Valid ∧ IsClaim c comps lc

/-- A link of the index leads somewhere: its time is not over and it points to a stored claim. -/
def LiveLink (db : Db) (now : Nat) (l : Link) (p : NetParts) (comps : List Bytes) : Prop :=
  now < beNat (l.tag.take 8) ∧ StoredClaim db l.ptr p comps

/-- The first claim the links lead to, if any. -/
def FirstLive (db : Db) (now : Nat) (links : List Link) : Option (NetParts × List Bytes) → Prop
  | none => ∀ l ∈ links, ∀ p comps, ¬ LiveLink db now l p comps
  | some (p, comps) => ∃ a l b, links = a ++ l :: b ∧ LiveLink db now l p comps ∧ ∀ x ∈ a, ∀ q cs, ¬ LiveLink db now x q cs

end Verif.Spec
