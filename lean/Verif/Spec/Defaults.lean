import Verif.Model.Defaults
/-!
# What opening a database and the defaults of a thread are to do
-/
namespace Verif.Spec
open Verif Verif.Pred Verif.Defs

/-- The path that is meant: the one given, else the one of LK_DIR, else `linkspace` in HOME. -/
inductive Meant (w : World) : Option Path → Path → Prop
  | given (q : Path) : Meant w (some q) q
  | var (q : Path) : w.lkDir = some q → Meant w none q
  | home (a : Path) : w.lkDir = none → w.home = some a → a ≠ [] → (∀ b, a ≠ b ++ [47]) → Meant w none (a ++ ascii "/linkspace")
  | homeSlash (a : Path) : w.lkDir = none → w.home = some a → a = [] ∨ (∃ b, a = b ++ [47]) → Meant w none (a ++ ascii "linkspace")

/-- A call on thread `n` opened the runtime `r`, and its path leads to the directory `h`. -/
def Opened (w : World) (n : Nat) (h : Nat) (r : Runtime) (x : Ev × Out × State) : Prop :=
  ∃ q c d, (x.1 = .call n (.openDir q c) ∨ x.1 = .call n (.lkOpen q c)) ∧ x.2.1 = .runtime r ∧ Meant w q d ∧ x.2.2.proc.fs d = some h

/-- A call on thread `n` gave or accepted the group. -/
def SaysGroup (n : Nat) (g : Bytes) (x : Ev × Out × State) : Prop :=
  (x.1 = .call n .group ∧ x.2.1 = .bytes g) ∨ (x.1 = .call n (.setGroup g) ∧ x.2.1 = .done)
/-- A call on thread `n` gave or accepted the domain. -/
def SaysDomain (n : Nat) (d : Bytes) (x : Ev × Out × State) : Prop :=
  (x.1 = .call n .domain ∧ x.2.1 = .bytes d) ∨ (x.1 = .call n (.setDomain d) ∧ x.2.1 = .done)

/-- The value of a variable, or the default if it is not set. -/
inductive VarGives (dflt : Bytes) : LkVar → Bytes → Prop
  | absent : VarGives dflt .absent dflt
  | plain (b : Bytes) : VarGives dflt (.plain (some b)) b
  | named (f : Nat → Option Bytes) (e : Nat) (b : Bytes) : f e = some b → VarGives dflt (.named f) b

/-- The state after some events. -/
def after (w : World) (s : State) (l : List Ev) : State := l.foldl (fun s e => (stepEv w s e).2) s

end Verif.Spec
