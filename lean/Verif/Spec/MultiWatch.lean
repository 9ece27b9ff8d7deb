import Verif.Spec.Predicates
import Verif.Model.QueryText
/-!
# What a text asks for
-/
namespace Verif.Spec
open Verif Verif.Pkt Verif.Pred Verif.QText Verif.Eval Verif.Abl Verif.Opt

/-- The lines, evaluated with the functions of `sc`, say these statements and these options.  Nothing here depends on a query. -/
inductive Says (sc : Scope) (n : Nat) : List Bytes → List Stmt → List ABList → Prop
  | nil : Says sc n [] [] []
  | blank {ls rs os} : Says sc n ls rs os → Says sc n ([] :: ls) rs os
  | option {line c b l ls rs os} : line ≠ [] → evalLine true sc n line = .ok ((some c, b) :: l) → Says sc n ls rs os →
      Says sc n (line :: ls) rs (((some c, b) :: l) :: os)
  | stmt {line b l e rs1 ls rs os} : line ≠ [] → evalLine true sc n line = .ok ((none, b) :: l) →
      extOf ((none, b) :: l) = .ok e → e.stmts = .ok rs1 → Says sc n ls rs os → Says sc n (line :: ls) (rs1 ++ rs) os

/-- What a text says. -/
def TextSays (sc : Scope) (n : Nat) (t : Bytes) (rs : List Stmt) (os : List ABList) : Prop := Says sc n (splitLines t) rs os

end Verif.Spec
