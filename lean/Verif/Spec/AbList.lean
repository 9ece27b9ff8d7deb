import Verif.Spec.Abe
/-!
# Specification of lists of delimited byte components
-/
namespace Verif.Spec
open Verif Verif.Ast

/-- Every component but the first has a delimiter in front of it. -/
def Delimited (l : List (Option Ctr × Bytes)) : Prop := ∀ e ∈ l.tail, e.1 ≠ none

/-- The list starts with an empty component that has no delimiter: it adds no text. -/
def SilentHead (l : List (Option Ctr × Bytes)) : Prop := l.head? = some (none, [])

/-- Components that all have a delimiter, spelled as text. -/
inductive AblTail : Bytes → List (Option Ctr × Bytes) → Prop
  | nil : AblTail [] []
  | colon {w b s l} : Spells w b → AblTail s l → AblTail (UInt8.ofNat ':'.toNat :: (w ++ s)) ((some .colon, b) :: l)
  | fslash {w b s l} : Spells w b → AblTail s l → AblTail (UInt8.ofNat '/'.toNat :: (w ++ s)) ((some .fslash, b) :: l)

/-- A text spelling a list: an optional first component without delimiter, then delimited ones. -/
inductive AblText : Bytes → List (Option Ctr × Bytes) → Prop
  | bare {s l} : AblTail s l → AblText s l
  | head {w b s l} : Spells w b → b ≠ [] → AblTail s l → AblText (w ++ s) ((none, b) :: l)

/-- Cutting a list in front of every later `/`. -/
structure SlashSplit (l : List (Option Ctr × Bytes)) (segs : List (List (Option Ctr × Bytes))) : Prop where
  whole : segs.flatten = l
  nonempty : ∀ s ∈ segs, s ≠ []
  inside : ∀ s ∈ segs, ∀ e ∈ s.tail, e.1 ≠ some .fslash
  starts : ∀ s ∈ segs.tail, ∃ b r, s = (some .fslash, b) :: r

end Verif.Spec
