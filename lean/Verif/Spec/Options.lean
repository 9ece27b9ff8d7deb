import Verif.Model.AbList
/-!
# Options of a query

The options are lists of components in the order they were added.
-/
namespace Verif.Spec
open Verif Verif.Ast

/-- An option starts with `:` or `/`. -/
def IsOption (l : List (Option Ctr × Bytes)) : Prop := ∃ c b r, l = (some c, b) :: r

/-- The option has this name and at least one component after it. -/
def Carries (name : Bytes) (l : List (Option Ctr × Bytes)) : Prop := ∃ c e r, l = (some c, name) :: e :: r

/-- `:name:value`. -/
def plainOption (name v : Bytes) : List (Option Ctr × Bytes) := [(some .colon, name), (some .colon, v)]

/-- The one added last among those with the property. -/
def Newest {α : Type} (P : α → Prop) (c : List α) (l : α) : Prop :=
  ∃ older newer, c = older ++ l :: newer ∧ P l ∧ ∀ x ∈ newer, ¬ P x

end Verif.Spec
