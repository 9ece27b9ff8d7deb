import Verif.Model.Scopes
import Verif.Spec.AbList
/-!
# Specification of evaluation results
-/
namespace Verif.Spec
open Verif Verif.Ast Verif.Eval

/-- The text parses, evaluates without error, and the result is exactly these bytes: one component, no delimiter. -/
def EvalsTo (dbg : Bool) (sc : Scope) (fuel : Nat) (text bytes : Bytes) : Prop :=
  ∃ abe l, parseStrict text = .ok abe ∧ eval dbg sc fuel abe = .ok l ∧ (l = [(none, bytes)] ∨ (l = [] ∧ bytes = []))

/-- An option text names an encoder. -/
def NamesEncoder (opts id : Bytes) : Prop := ∃ abe, parseStrict opts = .ok abe ∧ ABE.bytes id ∈ abe

end Verif.Spec
