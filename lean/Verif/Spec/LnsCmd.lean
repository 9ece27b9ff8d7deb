import Verif.Model.LnsCmd
import Verif.Spec.Collect
import Verif.Spec.Local
/-!
# Specification of the program for names
-/
namespace Verif.Spec
open Verif Verif.Pkt Verif.Env Verif.Cmd Verif.LnsCmd Verif.Lns

/-- These things were done with packets, and nothing else. -/
def Did (w w' : World) (l : List (Sent × Put)) : Prop := w'.outs = w.outs ++ linesOf l ∧ Saves w w' (savedOf l)
/-- The packets, each put to all destinations. -/
def allPut (put : Sent → List Put) (ss : List Sent) : List (Sent × Put) := ss.flatMap fun s => (put s).map (s, ·)

/-! ### create-claim -/

/-- The key to claim and the data: as given, from the text of an encrypted key, or that of another name. -/
inductive KeyOf (shows : Bytes → Bytes → Prop) (found : Name → Option Bytes → Prop) (c : Create) : Option Bytes → Bytes → Prop
  | given : c.enckey = none → c.copyFrom = none → KeyOf shows found c c.pubkey []
  | encrypted {text key : Bytes} : c.enckey = some text → c.pubkey = none → c.copyFrom = none → shows text key → KeyOf shows found c (some key) (text ++ [0x0a])
  | copied {n : Name} {key : Option Bytes} : c.enckey = none → c.pubkey = none → c.copyFrom = some n → found n key → KeyOf shows found c key []

/-- The name given to an authority. -/
def authName (l : Link) : Bytes := l.tag.dropWhile (· == 0)
/-- One of the names is too long. -/
def LongName (auth : List Link) : Prop := ∃ l ∈ auth, 8 ≤ (authName l).length
instance (auth : List Link) : Decidable (LongName auth) := by unfold LongName; infer_instance

/-- What is to be claimed: the last eight bytes of a tag and the pointer. -/
def wanted (group key : Option Bytes) (noAuth : Bool) (auth : List Link) : List (Bytes × Bytes) :=
  (group.map fun g => ([0, 0] ++ ascii "group#", g)).toList ++ (key.map fun k => (0 :: ascii "pubkey@", k)).toList ++
    (if noAuth then [] else (key.map fun k => (0 :: ascii "pubkey^", k)).toList) ++
    auth.map fun l => (List.replicate (7 - (authName l).length) 0 ++ authName l ++ ascii "^", l.ptr)
/-- An empty claim has one empty link. -/
def claimed (l : List (Bytes × Bytes)) : List (Bytes × Bytes) := if l = [] then [(List.replicate 8 0, List.replicate 32 0)] else l
/-- The end is in the first eight bytes of the first tag. -/
def endsAt (t : Nat) : List (Bytes × Bytes) → List Link
  | [] => []
  | x :: xs => ⟨beBytes 8 t ++ x.1, x.2⟩ :: xs.map fun x => ⟨List.replicate 8 0 ++ x.1, x.2⟩

/-- The claim of the name with these links and data. -/
structure ClaimMade (C : Crypto) (nh : Bytes) (comps : List Bytes) (links : List Link) (data : Bytes) (s : Sent) : Prop where
  head : s.nh = nh
  hash : s.hash = C.hash s.c.layout
  content : ∃ g, GroupOf comps g ∧ s.c = .link ⟨g, List.replicate 13 0 ++ ascii "lns", 0, links, rootedOf (ascii "claims" :: comps.reverse), data⟩

/-- The options have the sizes of their types. -/
structure CreateSized (c : Create) (key : Option Bytes) : Prop where
  group : ∀ g, c.group = some g → g.length = 32
  key : ∀ k, key = some k → k.length = 32
  auth : LinksSized c.auth
  until_ : c.until_ < 2 ^ 64

/-- The size of the point. -/
def claimSize (comps : List Bytes) (links : List (Bytes × Bytes)) (data : Bytes) : Nat :=
  64 + 48 * links.length + (rootedOf (ascii "claims" :: comps.reverse)).length + data.length

/-! ### vote -/

/-- Who has a say about a name: the keys of the root for one component, and for two those of the claim found for the second. -/
inductive HasSay (roots : List Bytes) (found : List Bytes → Claim → Prop) : List Bytes → Bytes → Prop
  | top {c k : Bytes} : k ∈ roots → HasSay roots found [c] k
  | sub {a b k : Bytes} {cl : Claim} : found [b] cl → k ∈ cl.authorities → HasSay roots found [a, b] k

/-- The vote of a key for a claim of the name. -/
structure VoteMade (C : Crypto) (nh : Bytes) (comps : List Bytes) (claim : Bytes) (time : Nat) (id : C.Key) (s : Sent) : Prop where
  head : s.nh = nh
  hash : s.hash = C.hash s.c.layout
  signed : s.c.Sealed C
  content : ∃ g sig, GroupOf comps g ∧ s.c = .key ⟨g, List.replicate 13 0 ++ ascii "lns", time, [⟨List.replicate 12 0 ++ ascii "vote", claim⟩],
    rootedOf (ascii "claims" :: comps.reverse), []⟩ (C.pubkey id) sig

/-! ### get -/

/-- The packets of the claims of a chain, each with its votes. -/
def Packed (steps : List Step) (ss : List (Sent × List Sent)) : Prop :=
  steps.map (fun st => (st.claim.pkt, st.votes.map (·.2))) = ss.map fun x => (x.1.parts, x.2.map Sent.parts)

/-- What is done with them. -/
def chainPut (putW putS : Sent → List Put) (ss : List (Sent × List Sent)) : List (Sent × Put) :=
  ss.flatMap fun x => (putW x.1).map (x.1, ·) ++ allPut putS x.2

/-- The number of packets that are saved. -/
def chainCount (write sigs : List Dest) (ss : List (Sent × List Sent)) : Nat := (ss.map fun x => dbCount write + dbCount sigs * x.2.length).sum

end Verif.Spec
