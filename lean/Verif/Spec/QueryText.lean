import Verif.Model.Predicates
/-!
# Values that the text of a query keeps
-/
namespace Verif.Spec
open Verif

/-- Printable ascii, except `/`, `[`, `]`, `:` and `\`. -/
def PlainChar (c : UInt8) : Prop := 0x20 ≤ c ∧ c ≤ 0x7e ∧ c ≠ 0x2f ∧ c ≠ 0x5b ∧ c ≠ 0x5d ∧ c ≠ 0x3a ∧ c ≠ 0x5c

instance (c : UInt8) : Decidable (PlainChar c) := by unfold PlainChar; infer_instance

/-- Plain characters after a filling of zeros, or of 255s. -/
def PlainFilled (b : Bytes) : Prop := ∃ k x t, (x = 0 ∨ x = 255) ∧ b = List.replicate k x ++ t ∧ ∀ c ∈ t, PlainChar c

/-- The values that are written between brackets as text are plain: a domain, and the components of 16 bytes of a prefix. -/
def PlainValues (r : Pred.Stmt) : Prop :=
  ∀ e ∈ r.val, (r.kind = .field .domain ∨ r.kind = .pre ∧ e.2.length = 16) → PlainFilled e.2

end Verif.Spec
