import Verif.Spec.Local
/-!
# Specification of named keys
-/
namespace Verif.Spec
open Verif Verif.Pkt Verif.Env

/-- The first line of the data, which is cut off after 130 bytes. -/
def FirstLine (data line : Bytes) : Prop :=
  (0x0a : UInt8) ∉ line ∧ ∃ rest, data.take 130 = line ++ rest ∧ (rest = [] ∨ rest.head? = some 0x0a)

/-- Nothing stored at this place was made from the first time on and before the second. -/
def Calm (db : Db) (g d : Bytes) (cs : List Bytes) (now later : Nat) : Prop :=
  ∀ f ∈ db.log, ∀ t, HasTuple f.2 t → t.group = g → t.domain = d → t.space = cs → t.create < now ∨ later ≤ t.create

/-- The encrypted key of a claim: its own first line if that is good, and otherwise the first line, if good, of the stored packet that the first link
with a tag ending in `enckey` points to. -/
def EnckeyOf (good : Bytes → Prop) (db : Db) (p : NetParts) (line : Bytes) : Prop :=
  (FirstLine p.data line ∧ good line) ∨
    ((¬ ∃ l, FirstLine p.data l ∧ good l) ∧ ∃ a l b, p.getLinks = a ++ l :: b ∧ ascii "enckey" <:+ l.tag ∧ (∀ x ∈ a, ¬ ascii "enckey" <:+ x.tag) ∧
      ∃ e ∈ db.log, e.2.hash = l.ptr ∧ FirstLine e.2.data line ∧ good line)

end Verif.Spec
