import Verif.Spec.Query
import Verif.Model.Env
/-!
# Specification of the lookup of a public name
-/
namespace Verif.Spec
open Verif Verif.Pkt Verif.Env

/-- A stored point of this group, domain, space and key. -/
def At (g d : Bytes) (cs : List Bytes) (k : Bytes) (p : NetParts) : Prop :=
  ∃ t, HasTuple p t ∧ t.group = g ∧ t.domain = d ∧ t.space = cs ∧ t.pubkey = k

/-- `p` was made before `q`; of two points made at the same time, the one with the smaller hash. -/
def Older (p q : NetParts) : Prop := p.getCreate < q.getCreate ∨ (p.getCreate = q.getCreate ∧ BytesBefore p.hash q.hash)

/-- The newest stored point of this group, domain, space and key, if there is one. -/
def NewestAt (db : Db) (g d : Bytes) (cs : List Bytes) (k : Bytes) : Option (Nat × NetParts) → Prop
  | none => ∀ e ∈ db.log, ¬ At g d cs k e.2
  | some e => e ∈ db.log ∧ At g d cs k e.2 ∧ ∀ f ∈ db.log, At g d cs k f.2 → f = e ∨ Older f.2 e.2

/-- The claim a point votes for: its first link has the tag `vote`. -/
def choice (p : NetParts) : Option Bytes :=
  match p.getLinks with
  | l :: _ => if l.tag = List.replicate 12 0 ++ ascii "vote" then some l.ptr else none
  | [] => none

/-- The votes for a claim. -/
def votesFor (rs : List (Option (Nat × NetParts))) (h : Bytes) : List (Nat × NetParts) :=
  rs.filterMap fun r => r.bind fun v => if choice v.2 = some h then some v else none

/-- The time of the last vote for a claim. -/
def lastVote (rs : List (Option (Nat × NetParts))) (h : Bytes) : Nat := ((votesFor rs h).map (·.2.getCreate)).foldl max 0

/-- `h` is ahead of every other claim: it has more votes, or as many and the last of them earlier. A claim with exactly half of all votes must
have more than every other. -/
def Ahead (rs : List (Option (Nat × NetParts))) (h : Bytes) : Prop :=
  ∀ h', h' ≠ h → (votesFor rs h').length < (votesFor rs h).length ∨
    ((votesFor rs h').length = (votesFor rs h).length ∧ 2 * (votesFor rs h).length ≠ rs.length ∧ lastVote rs h < lastVote rs h')

end Verif.Spec
