import Verif.Model.Runtime
import Verif.Spec.Matcher
/-!
# What a watch is given
-/
namespace Verif.Spec
open Verif Verif.Pkt Verif.Pred Verif.Env Verif.Query Verif.Matcher Verif.Rt

variable {C : Type}

/-- It never asks to process. -/
inductive Quiet : Act C → Prop
  | ret (c : C) (b : Bool) : Quiet (.ret c b)
  | ask {q : Cmd C} {k : Ans → Act C} : q ≠ .process → (∀ a, Quiet (k a)) → Quiet (.ask q k)

/-- No callback asks to process. -/
def QuietProg (p : Prog C) : Prop := (∀ c e, Quiet (p.handle c e)) ∧ ∀ c r, Quiet (p.stopped c r)

/-- The watch an event is about. -/
def Ev.num : Ev → Nat
  | .born n _ _ _ _ => n
  | .call n _ => n
  | .broke n => n
  | .gone n _ => n

/-- The history of one watch. -/
def about (n : Nat) (t : List Ev) : List Ev := t.filter (fun e => Ev.num e == n)

/-- The packets received after `a` and up to `b`. -/
def between (log : List (Nat × NetParts)) (a b : Nat) : List (Nat × NetParts) := log.filter (fun e => decide (a < e.1) && decide (e.1 ≤ b))

/-- The packets given to a callback. -/
def callsTo (n : Nat) (t : List Ev) : List (Nat × NetParts) := t.filterMap fun e =>
  match e with
  | .call m e => if m = n then some e else none
  | _ => none

/-- The states of the runtime between the requests of the main program, from any files that saving produces. Requests
include saving, so others may save in between. -/
inductive Reach (p : Prog C) : RT C → Prop
  | start (es : List SaveEv) : Reach p (start (runSaves {} es))
  | step {rt rt' : RT C} {q : Cmd C} {a : Ans} {k : Nat} : Reach p rt → step p (run p k) rt q = .ok (rt', a) → Reach p rt'

/-- The statements do not rule out results from the database. -/
def Asks (rs : List Stmt) : Prop := SomePosition .branch rs ∧ SomePosition .index rs

/-- What a watch finds in the database: the result of its query if it asks for one. -/
def FoundIn (rs : List Stmt) (s : Preds) (mode : Mode) (db : Db) (found : List (Nat × NetParts)) (nth : BitVec 32) : Prop :=
  (Asks rs ∧ query db mode s 0#32 = .ok (found, nth)) ∨ (¬ Asks rs ∧ found = [] ∧ nth = 0#32)

/-- The packets up to receive stamp `q` are the last that a watch sees: nothing later would be given to it. -/
def Exhausted (rs : List Stmt) (nth : Nat) (seen out : List (Nat × NetParts)) (q : Nat) : Prop :=
  ∀ L acc, (∀ e ∈ L, q ≤ e.1 ∧ e.1 < 2 ^ 64) → nth + (seen ++ L).length < 2 ^ 32 → Taken rs nth 0 (seen ++ L) acc → acc = out

/-- Why a watch with the id `id` may end after the calls `calls`, when it found `found` and `log` is the log; `head` is the
last stamp of the snapshot it began with. -/
def MayEnd (rs : List Stmt) (id : Bytes) (found : List (Nat × NetParts)) (nth : Nat) (log : List (Nat × NetParts)) (head top : Nat)
    (calls : List (Nat × NetParts)) (broke : Prop) : Why → Prop
  | .inDb => broke ∧ calls ≠ [] ∧ calls <+: found
  | .unmade => calls = found ∧ Exhausted rs nth [] [] 0
  | .late now | .collected now => (∀ t, now < t → t < 2 ^ 64 → ¬ ∀ r ∈ rs, RecvOk r t) ∧
      ∃ q out, head ≤ q ∧ q ≤ top ∧ calls = found ++ out ∧ Taken rs nth 0 (between log head q) out
  | .closed i range => (id = i ∨ range = true ∧ i <+: id) ∧ ∃ q out, head ≤ q ∧ q ≤ top ∧ calls = found ++ out ∧ Taken rs nth 0 (between log head q) out
  | .stopped .replaced => ∃ q out, head ≤ q ∧ q ≤ top ∧ calls = found ++ out ∧ Taken rs nth 0 (between log head q) out
  | .stopped .closed => False
  | .stopped .finish => broke ∧ ∃ q out, head ≤ q ∧ q ≤ top ∧ calls = found ++ out ∧ out ≠ [] ∧ Taken rs nth 0 (between log head q) out
  | .stopped .brk => ∃ q out, head ≤ q ∧ q ≤ top ∧ calls = found ++ out ∧ Taken rs nth 0 (between log head q) out ∧
      Exhausted rs nth (between log head q) out q

end Verif.Spec
