import Verif.Model.Bytes
/-!
# Specification of spaces: lists of components
-/
namespace Verif.Spec

/-- The wire form of a component list. -/
def encodeSpace (cs : List Bytes) : Bytes := cs.flatMap (fun c => UInt8.ofNat c.length :: c)

/-- Every component has between 1 and 200 bytes. -/
def ValidComps (cs : List Bytes) : Prop := ∀ c ∈ cs, 1 ≤ c.length ∧ c.length ≤ 200

/-- `bs` is the encoding of the component list `cs` and within the size limit. -/
structure IsSpace (bs : Bytes) (cs : List Bytes) : Prop where
  comps : ValidComps cs
  enc : bs = encodeSpace cs
  size : bs.length ≤ 242

/-- Offset in the encoding at which the first `k` components end. -/
def endOffset (cs : List Bytes) (k : Nat) : Nat := (encodeSpace (cs.take k)).length

/-- The rooted form: a depth byte, seven end offsets and the space; empty for no components. -/
def rootedWith (d : UInt8) (cs : List Bytes) : Bytes :=
  d :: (List.range 7).map (fun k => UInt8.ofNat (endOffset cs (k + 1))) ++ encodeSpace cs

def rootedOf (cs : List Bytes) : Bytes :=
  if cs = [] then [] else rootedWith (UInt8.ofNat cs.length) cs

end Verif.Spec
