import Verif.Spec.Query
/-!
# What a callback is given
-/
namespace Verif.Spec

/-- A callback that has seen `seen` is given the items of a list one by one until it answers `true`: `given` are the
items it gets, and the last argument says whether it broke. -/
inductive Fed {α : Type} (cb : List α → α → Bool) : List α → List α → List α → Bool → Prop
  | done (seen : List α) : Fed cb seen [] [] false
  | stop {seen : List α} {x : α} (xs : List α) : cb seen x = true → Fed cb seen (x :: xs) [x] true
  | go {seen : List α} {x : α} {xs given : List α} {b : Bool} : cb seen x = false → Fed cb (seen ++ [x]) xs given b →
      Fed cb seen (x :: xs) (x :: given) b

/-- The number a reading function returns: the count, negative if the callback broke. -/
def SignedCount (n : Nat) (broke : Bool) : Int := if broke then -(n : Int) else n

end Verif.Spec
