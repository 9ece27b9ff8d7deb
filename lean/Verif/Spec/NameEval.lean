import Verif.Spec.Local
import Verif.Spec.ReadHash
/-!
# Specification of names in expressions
-/
namespace Verif.Spec
open Verif Verif.Pkt Verif.Env

/-- `#` stands for the group of a name and `@` for its key: the mark, and how the tag of the link in a claim ends. -/
inductive Kind : Bytes → Bytes → Prop
  | group : Kind (ascii "#") (ascii "group#")
  | key : Kind (ascii "@") (ascii "pubkey@")

/-- Words that mean the same on every machine, and what they stand for. -/
inductive Fixed (pub test : Bytes) : Bytes → Bytes → Bytes → Prop
  | null : Fixed pub test (ascii "#") (ascii "0") (List.replicate 32 0)
  | pub : Fixed pub test (ascii "#") (ascii "pub") pub
  | test : Fixed pub test (ascii "#") (ascii "test") test
  | none : Fixed pub test (ascii "@") (ascii "none") (List.replicate 32 0)

/-- The word is fixed. -/
def Word (mark c : Bytes) : Prop := mark = ascii "#" ∧ c ∈ [ascii "0", ascii "pub", ascii "test"] ∨ mark = ascii "@" ∧ c = ascii "none"

/-- Where the first link whose tag ends in `suffix` points. -/
def FirstPtr (links : List Link) (suffix v : Bytes) : Prop :=
  ∃ a l b, links = a ++ l :: b ∧ suffix <:+ l.tag ∧ (∀ x ∈ a, ¬ suffix <:+ x.tag) ∧ l.ptr = v

/-- What a local name stands for: the claim that leads at the place of the name, and its first link with this tag. -/
def LocalValue (db : Db) (now : Nat) (comps : List Bytes) (tag v : Bytes) : Prop :=
  ∃ e c lc, LeadAt db (List.replicate 32 0) (List.replicate 13 0 ++ ascii "lns") (ascii "claims" :: comps.reverse) none now (some e) ∧
    e.2.parts = c.parts ∧ c.Valid ∧ IsClaim c comps lc ∧ FirstPtr lc.links tag v

/-- The name the index has for a group or key: of the entry that leads at its place, the first link that still leads to a stored claim. -/
def ListedAs (db : Db) (now : Nat) (tag v : Bytes) (comps : List Bytes) : Prop :=
  ∃ e q, LeadAt db (List.replicate 32 0) (List.replicate 13 0 ++ ascii "lns") [ascii "by-tag", tag, v] none now (some e) ∧
    FirstLive db now e.2.getLinks (some (q, comps))

/-- The components of a name as they are written: `a:b:c`. -/
def nameText : List Bytes → Bytes
  | [] => []
  | c :: cs => Verif.Abtxt.asAbtxt c ++ tailText cs

/-- `[/mac:a:b/x]`. -/
def macroText (mac : Bytes) (comps : List Bytes) (x : Bytes) : Bytes :=
  ascii "[/" ++ mac ++ tailText comps ++ ascii "/" ++ x ++ ascii "]"

end Verif.Spec
