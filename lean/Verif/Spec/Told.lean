import Verif.Spec.Runtime
/-!
# Being told of the end of a watch
-/
namespace Verif.Spec
open Verif Verif.Rt

variable {C : Type}

/-- The reason that a callback is told for an end, if it is told. -/
def toldFor : Why → Option Reason
  | .closed _ _ => some .closed
  | .stopped r => some r
  | .inDb | .unmade | .late _ | .collected _ => none

/-- The end of a watch of which its callback is told, for a reason in `F`. -/
def Tells (F : Reason → Bool) (e : Ev) : Prop := ∃ n why r, e = .gone n why ∧ toldFor why = some r ∧ F r = true

/-- The same program, except that it panics when it is told of an end for a reason in `F`. What the callback asks for is a panic while the watches
are borrowed (`idle`). -/
def loud (F : Reason → Bool) (p : Prog C) : Prog C where
  handle := p.handle
  stopped c r := if F r then .ask .idle fun _ => .ret c false else p.stopped c r
  clock := p.clock

end Verif.Spec
