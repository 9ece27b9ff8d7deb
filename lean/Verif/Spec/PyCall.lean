import Verif.Model.PyCall
import Verif.Spec.FfiArgs
import Verif.Spec.Api
/-!
# Specification of callbacks from Python
-/
namespace Verif.Spec
open Verif Verif.Ffi

/-- The call for the item number `i` of those given raised an exception. -/
def Raised {α : Type} (cb : List α → α → PyRet) (given : List α) (i : Nat) : Prop := ∃ x, given[i]? = some x ∧ cb (given.take i) x = .raise

/-- A Python function that says stop: it returns `True`. -/
def SaysStop {α : Type} (cb : List α → α → PyRet) : List α → α → Bool := fun seen x => cb seen x == .bool true

/-- The hashes an argument denotes: one, or a list. A text is one. -/
inductive HashArg : PyVal → List Bytes → Prop
  | one (v s b) : PyText v s → Names32 s b → HashArg v [b]
  | many (l hs) : l.length = hs.length → (∀ (i : Nat) v b, l[i]? = some v → hs[i]? = some b → ∃ s, PyText v s ∧ Names32 s b) → HashArg (.seq l) hs

end Verif.Spec
