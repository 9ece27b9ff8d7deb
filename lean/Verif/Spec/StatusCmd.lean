import Verif.Spec.Status
import Verif.Spec.CliData
/-!
# What the command `status` is to do
-/
namespace Verif.Spec
open Verif Verif.Pkt

/-- A point with links or data: it is no request. -/
def Speaks (p : NetParts) : Prop := p.getLinks ≠ [] ∨ p.data ≠ []
/-- A point with links and data, as a reply has. -/
def FullReply (p : NetParts) : Prop := p.getLinks ≠ [] ∧ p.data ≠ []
instance (p : NetParts) : Decidable (Speaks p) := inferInstanceAs (Decidable (_ ∨ _))
instance (p : NetParts) : Decidable (FullReply p) := inferInstanceAs (Decidable (_ ∧ _))

/-- All of a list, or only the first. -/
def someOf {α : Type} (all : Bool) (l : List α) : List α := if all then l else l.take 1

/-- The blocks up to the first empty one. -/
def untilEmpty (l : List Bytes) : List Bytes := l.takeWhile fun b => !b.isEmpty

/-- FullReply with these data: unsigned points made at these times at one place of the private group, with one link each: the first to `ptr` with the tag `tag`, the others to the one before with the tag `later`. -/
inductive ReplyChain (C : Crypto) (nh d sp later : Bytes) : Bytes → Bytes → List Nat → List Bytes → List NetParts → Prop
  | nil {tag ptr ts} : ReplyChain C nh d sp later tag ptr ts [] []
  | cons {tag ptr t ts b bs p ps} : (Content.link ⟨zeroGroup, d, t, [⟨tag, ptr⟩], sp, b⟩).Valid →
      p = ⟨nh, C.hash (Content.link ⟨zeroGroup, d, t, [⟨tag, ptr⟩], sp, b⟩).layout, (Content.link ⟨zeroGroup, d, t, [⟨tag, ptr⟩], sp, b⟩).parts⟩ →
      ReplyChain C nh d sp later later p.hash ts bs ps → ReplyChain C nh d sp later tag ptr (t :: ts) (b :: bs) (p :: ps)

end Verif.Spec
