import Verif.Model.Name
import Verif.Model.Query
/-!
# Looking up a public name (`crates/common/src/protocols/lns/public_claim.rs`)

The issue handler is taken to return `Ok`, as all handlers of the library do (`crates/common/src/protocols/lns/mod.rs:175`); the issues are
returned in the order in which they are reported.
-/
namespace Verif.Lns
open Verif Verif.Pkt Verif.Pred Verif.Env Verif.Query Verif.Shake

/-- `Query::dgsk`, `crates/core/src/query.rs:171-181`. -/
def dgsk (domain group rspace key : Bytes) : Preds :=
  let s := Preds.default
  let s := s.put .domain ((s.set .domain).add .equal (num _ domain))
  let s := s.put .group ((s.set .group).add .equal (num _ group))
  let s := { s with rspace := rspace }
  s.put .pubkey ((s.set .pubkey).add .equal (num _ key))

/-- The predicates for the vote of one authority, `public_claim.rs:74-76` and 82; `new_eq` is `crates/core/src/predicate/value_test.rs:458-462`. -/
def votePreds (group rspace auth : Bytes) : Preds :=
  let s := dgsk lnsDomain group rspace (List.replicate 32 255)
  let s := s.put .depth ((s.set .depth).add .equal 2#8)
  s.put .pubkey ((TestSet.default _).add .equal (num _ auth))

/-- A value of the map `claim_votes`, 77, with its key. -/
structure Tally where
  hash : Bytes
  claim : Option Claim
  votes : List (Nat × NetParts)

/-- `Issue`, 36-55. -/
inductive Issue
  | noVote (auth parent : Bytes)
  | unknownVote (vote : Nat × NetParts)
  | unknownLive (hash : Bytes)
  | badClaim (claim : Nat × NetParts) (vote : Bytes)
  | missing (hash : Bytes)
  | tie (ts : List Tally)

/-- Lines 96-113. -/
def readClaim (db : Db) (h : Bytes) : QRes (Option Claim × List Issue) :=
  match db.read h with
  | none => .ok (none, [.missing h])
  | some e =>
    match Claim.ofPkt e.2 with
    | .ok c => .ok (some c, [])
    | .error (.err _) => .ok (none, [.badClaim e h])
    | .error .panic => .error .panic

/-- Reporting issues first. -/
def noting {α : Type} (is : List Issue) : QRes (α × List Issue) → QRes (α × List Issue)
  | .ok (a, js) => .ok (a, is ++ js)
  | .error e => .error e

/-- `o.get_mut().1.push(vote)`, 90. -/
def addVote (m : List Tally) (h : Bytes) (v : Nat × NetParts) : List Tally :=
  m.map fun t => if t.hash = h then { t with votes := t.votes ++ [v] } else t

/-- The loop over the authorities, 80-126.  `ask` is the query of lines 81-85.  The map is kept in the order in which its keys were added. -/
def collect (db : Db) (ask : Bytes → QRes (Option (Nat × NetParts))) (parent : Bytes) (need : Nat) :
    List Tally → List Bytes → QRes (List Tally × List Issue)
  | m, [] => .ok (m, [])
  | m, a :: as =>
    match ask a with
    | .error e => .error e
    | .ok none => noting [.noVote a parent] (collect db ask parent need m as)
    | .ok (some v) =>
      match v.2.getLinks.head? with
      | none => noting [.unknownVote v] (collect db ask parent need m as)
      | some l =>
        if l.tag ≠ voteTag then noting [.unknownVote v] (collect db ask parent need m as)
        else match m.find? (fun t => t.hash == l.ptr) with
          | some t =>
            if t.votes.length + 1 ≥ need then .ok (addVote m l.ptr v, []) else collect db ask parent need (addVote m l.ptr v) as
          | none =>
            match readClaim db l.ptr with
            | .error e => .error e
            | .ok (c, is) => noting is (collect db ask parent need (m ++ [⟨l.ptr, c, [v]⟩]) as)

/-- `order`, 136-150. -/
def Tally.order (t : Tally) : Nat × Nat := (t.votes.length, u64End - 1 - (t.votes.map (·.2.getCreate)).foldl max 0)
def orderLe (a b : Tally) : Bool := decide (a.order.1 < b.order.1 ∨ (a.order.1 = b.order.1 ∧ a.order.2 ≤ b.order.2))

/-- `sort_by_key` is a stable sort; here by insertion. -/
def insertBy (le : Tally → Tally → Bool) (x : Tally) : List Tally → List Tally
  | [] => [x]
  | y :: ys => if le x y then x :: y :: ys else y :: insertBy le x ys
def sortBy (le : Tally → Tally → Bool) (l : List Tally) : List Tally := l.foldr (insertBy le) []

/-- What lines 127-162 decide. -/
inductive Outcome
  | nobody
  | tie (ts : List Tally)
  | live (t : Tally)

/-- Lines 127-162, with the entries of the map in the order of its iterator. -/
def outcome (m : List Tally) : Outcome :=
  let sorted := sortBy orderLe (m.filter fun t => !t.votes.isEmpty)
  match sorted.getLast? with
  | none => .nobody
  | some live =>
    let ties := sorted.dropLast.takeWhile fun p => live.order == p.order
    if ties.isEmpty then .live live else .tie (ties ++ [live])

/-- `LiveClaim`, `claim.rs:11-15`, without its parent. -/
structure Step where
  claim : Claim
  votes : List (Nat × NetParts)

/-- `walk_live_claims`, `public_claim.rs:58-179`.  `iter` is the order in which the iterator of the map gives its entries.  The result is
whether the name was found, the last claim found with those before it, and the issues. -/
def walk (db : Db) (iter : List Tally → List Tally) : Step → List Step → List Bytes → QRes ((Bool × Step × List Step) × List Issue)
  | cur, up, [] => .ok ((true, cur, up), [])
  | cur, up, sub :: comps =>
    match Rooted.tryAppendComponent (getRspace cur.claim.pkt) sub with
    | .error _ => .error .panic
    | .ok rspace =>
      let auths := cur.claim.authorities
      match collect db (fun a => getFirst db ⟨.tree, false⟩ (votePreds cur.claim.pkt.getGroup rspace a)) cur.claim.pkt.hash
          ((auths.length + 1) / 2) [] auths with
      | .error e => .error e
      | .ok (m, is) =>
        match outcome (iter m) with
        | .nobody => .ok ((false, cur, up), is)
        | .tie ts => .ok ((false, cur, up), is ++ [.tie ts])
        | .live t =>
          match t.claim with
          | none => .ok ((false, cur, up), is ++ [.unknownLive t.hash])
          | some c => noting is (walk db iter ⟨c, t.votes⟩ (cur :: up) comps)

/-- The first packet of `LNS_ROOTS`, `crates/core/src/lnsroots.pkt`. -/
def rootPkt : NetParts := ⟨
  [76, 75, 49, 0, 0, 0, 0, 0, 255, 255, 255, 255, 255, 255, 255, 255, 0, 0, 0, 0, 0, 0, 0, 0, 0, 0, 0, 0, 0, 0, 0, 0],
  [199, 51, 74, 20, 40, 194, 32, 253, 106, 95, 235, 176, 118, 70, 32, 21, 32, 121, 121, 76, 176, 149, 44, 207, 90, 54, 215, 216, 159, 205, 138, 86],
  ⟨0, 3, 453⟩, .link ⟨400, 415, 1688459451750173, publicGroup, lnsDomain⟩ ⟨[
    ⟨List.replicate 9 0 ++ ascii "root_1^", [76, 234, 140, 59, 55, 229, 115, 167, 51, 178, 251, 169, 146, 148, 140, 186, 77, 251, 150, 131, 64, 161, 171, 16, 122, 184, 121, 153, 89, 146, 128, 134]⟩,
    ⟨List.replicate 9 0 ++ ascii "root_2^", [228, 100, 27, 210, 169, 148, 247, 225, 245, 197, 143, 149, 128, 38, 173, 45, 94, 157, 241, 213, 61, 244, 80, 197, 101, 185, 123, 137, 148, 75, 198, 9]⟩,
    ⟨List.replicate 9 0 ++ ascii "root_3^", [111, 195, 210, 187, 47, 230, 183, 230, 52, 232, 193, 191, 182, 191, 236, 187, 17, 40, 252, 0, 194, 53, 188, 82, 17, 101, 69, 224, 88, 19, 48, 132]⟩,
    ⟨List.replicate 9 0 ++ ascii "root_4^", [124, 226, 112, 138, 93, 150, 59, 7, 10, 108, 226, 207, 62, 134, 77, 67, 175, 19, 122, 169, 242, 209, 220, 58, 227, 63, 232, 199, 3, 225, 173, 26]⟩,
    ⟨List.replicate 9 0 ++ ascii "root_5^", [255, 226, 14, 229, 118, 139, 116, 56, 48, 76, 74, 88, 42, 166, 143, 167, 17, 10, 23, 4, 44, 222, 235, 225, 51, 138, 168, 104, 171, 91, 89, 65]⟩,
    ⟨List.replicate 9 0 ++ ascii "root_6^", [138, 221, 73, 206, 206, 106, 188, 202, 89, 154, 125, 35, 179, 99, 228, 22, 52, 137, 245, 205, 79, 9, 129, 210, 35, 255, 60, 251, 249, 142, 209, 64]⟩,
    ⟨List.replicate 9 0 ++ ascii "root_7^", [39, 18, 164, 125, 53, 134, 208, 58, 134, 7, 4, 221, 102, 178, 128, 202, 252, 235, 107, 160, 253, 229, 183, 157, 8, 7, 115, 75, 109, 35, 141, 22]⟩],
    [35, 97, 98, 116, 120, 116, 10, 117, 110, 116, 105, 108, 58, 92, 48, 92, 120, 49, 49, 92, 120, 49, 57, 92, 120, 49, 55, 40, 92, 120, 49, 56, 92, 102, 92, 120, 49, 100],
    claimPrefix⟩⟩
/-- `root_claim`, `public_claim.rs:12-30`.  The file holds one packet, so there are no signatures. -/
def rootStep : Step := ⟨⟨rootPkt, .root⟩, []⟩

/-- The public case of `lookup_live_chain`, `mod.rs:141-146`: the components of the space of a name are most general first. -/
def lookupPublic (db : Db) (iter : List Tally → List Tally) (n : Name) : QRes ((Bool × Step × List Step) × List Issue) :=
  match Space.iter n.space with
  | .error _ => .error .panic
  | .ok cs => walk db iter rootStep [] cs

end Verif.Lns
