import Verif.Model.Files
/-!
# Specification of the files directory
-/
namespace Verif.Spec
open Verif Verif.Files

/-- The path is made of these parts with slashes between them. -/
def PathParts (path : Bytes) (segs : List Bytes) : Prop :=
  segs ≠ [] ∧ path = List.intercalate [0x2f] segs ∧ ∀ s ∈ segs, (0x2f : UInt8) ∉ s

/-- A path that names something in a directory: it is not absolute, does not begin with `.` and never goes up.  The names, without empty parts and
without `.`. -/
def PathNames (path : Bytes) (names : List Bytes) : Prop :=
  ∃ segs, PathParts path segs ∧ ascii ".." ∉ segs ∧ (segs = [[]] ∨ (segs.head? ≠ some [] ∧ segs.head? ≠ some (ascii "."))) ∧
    names = segs.filter (fun s => s ≠ [] ∧ s ≠ ascii ".")

/-- A path that ends in a name. -/
def EndsInName (path : Bytes) : Prop := ∃ segs s, PathParts path (segs ++ [s]) ∧ s ≠ [] ∧ s ≠ ascii "."

/-- What changed: nothing but some missing directories on the way to `base ++ names`, which were made. -/
def Grown (fs fs' : Fs) (base names : List Bytes) : Prop :=
  ∀ q, fs' q = fs q ∨ (fs q = none ∧ fs' q = some .dir ∧ ∃ k, 0 < k ∧ k ≤ names.length ∧ q = base ++ names.take k)

/-- A tree: whatever there is, is in a directory. -/
def IsTree (fs : Fs) : Prop := ∀ q n, fs (q ++ [n]) ≠ none → fs q = some .dir

end Verif.Spec
