import Verif.Spec.Runtime
import Verif.Lemmas.Matcher
import Verif.Props.Env
/-!
# The invariant of the runtime
-/
namespace Verif.Rt
open Verif Verif.Pkt Verif.Pred Verif.Env Verif.Query Verif.Matcher Verif.Spec

variable {C D : Type}

/-! ### watches without their callbacks -/

/-- The watch alone. -/
def bare (w : Watch D) : Watch Unit := ⟨w.queryId, w.preds, w.nthQuery, w.iQuery, w.nthNew, w.iNew, w.recv, w.lastTest, ()⟩

theorem test_bare' (w : Watch D) (recv : Nat) (p : NetParts) :
    (bare w).test' recv p = (match w.test' recv p with
      | .error e => .error e
      | .ok (w', r) => .ok (bare w', r)) := by
  unfold Watch.test'
  simp only [bare]
  by_cases h1 : w.recv.high.toNat < recv
  · simp only [h1, if_true]
  by_cases h2 : recv < w.recv.low.toNat
  · simp only [h1, h2, if_true, if_false]
  by_cases h3 : (!w.preds.test p) = true
  · simp only [h1, h2, h3, if_true, if_false]
  simp only [h1, h2, h3, if_false]
  cases w.iNew.test true w.nthNew with
  | error e => rfl
  | ok a =>
    simp only
    cases (if a = true then w.iQuery.test true w.nthQuery else .ok false) with
    | error e => rfl
    | ok b =>
      simp only
      cases inc w.nthNew with
      | none => rfl
      | some n =>
        cases inc w.nthQuery with
        | none => rfl
        | some m => rfl

theorem test_bare {w w' : Watch D} {recv : Nat} {p : NetParts} {r : Bool × Bool} (h : w.test recv p = .ok (w', r)) :
    (bare w).test recv p = .ok (bare w', r) := by
  unfold Watch.test at h ⊢
  rw [test_bare']
  cases ht : w.test' recv p with
  | error e => rw [ht] at h; cases h
  | ok x => rw [ht] at h; obtain ⟨a, b⟩ := x; cases h; rfl

theorem bare_ctx (w : Watch D) (c : D) : bare { w with ctx := c } = bare w := rfl

theorem update_bare (w : Watch D) : (bare w).updateTests = (match w.updateTests with
    | .error e => .error e
    | .ok w => .ok (bare w)) := by
  unfold Watch.updateTests
  simp only [bare]
  cases pending (w.preds.state .new) w.nthNew with
  | error e => rfl
  | ok b =>
    cases b with
    | false => rfl
    | true =>
      simp only
      cases pending (w.preds.state .query) w.nthQuery with
      | error e => rfl
      | ok b => cases b <;> rfl

theorem new_bare {id : Bytes} {s : Preds} {nth : BitVec 32} {c : D} : Watch.new id s nth () = (match Watch.new id s nth c with
    | .error e => .error e
    | .ok w => .ok (bare w)) := by
  unfold Watch.new
  rw [← update_bare]; rfl

theorem new_same {id : Bytes} {s : Preds} {nth : BitVec 32} {c : D} {w : Watch D} (h : Watch.new id s nth c = .ok w) :
    w.queryId = id ∧ w.preds = s ∧ w.ctx = c ∧ w.recv = s.recv := by
  unfold Watch.new Watch.updateTests at h
  simp only at h
  split at h
  · cases h
  · cases h
  · split at h
    · cases h
    · cases h
    · cases h; exact ⟨rfl, rfl, rfl, rfl⟩

/-- What a watch alone makes of packets, none of which ends it: those it gives to its callback, and how it stands after. -/
inductive Sees (w : Watch Unit) : List (Nat × NetParts) → Watch Unit → List (Nat × NetParts) → Prop
  | nil : Sees w [] w []
  | snoc {L out : List (Nat × NetParts)} {w1 w2 : Watch Unit} {e : Nat × NetParts} {ok : Bool} : Sees w L w1 out →
      w1.test e.1 e.2 = .ok (w2, ok, false) → Sees w (L ++ [e]) w2 (out ++ if ok then [e] else [])

/-! ### histories -/

/-- The beginning of a watch: its number, id, mode, predicates, whether it asks the database, the snapshot it asks, what is
found there and the counter after. -/
structure Birth where
  num : Nat
  id : Bytes
  mode : Mode
  preds : Preds
  check : Bool
  db : Db
  found : List (Nat × NetParts)
  nth : BitVec 32

/-- It is as `watch` makes it. -/
structure Birth.Ok (b : Birth) : Prop where
  check : checkDb b.preds = .ok b.check
  part : dbPart b.preds b.mode b.check b.db = .ok (b.found, b.nth)
  cons : Consistent b.db

/-- The history of a watch with these calls so far. -/
def Birth.hist (b : Birth) (calls : List (Nat × NetParts)) : List Ev := .born b.num b.id b.mode b.preds b.db :: calls.map (.call b.num)

/-- The last stamp of a log. -/
def topOf (log : List (Nat × NetParts)) : Nat := (lastStamp log).getD 0

/-- The watch was there, or requested, until it was ended from outside. -/
def Idle (b : Birth) (log : List (Nat × NetParts)) (calls : List (Nat × NetParts)) (bk : Bool) : Prop :=
  bk = false ∧ ∃ w0 q w1 out, Watch.new b.id b.preds b.nth () = .ok w0 ∧ b.db.logHead ≤ q ∧
      q ≤ topOf log ∧ Sees w0 (between log b.db.logHead q) w1 out ∧ calls = b.found ++ out

/-- How a watch that is over has ended. `bk`: its callback broke. -/
def Fate (b : Birth) (log : List (Nat × NetParts)) (calls : List (Nat × NetParts)) (bk : Bool) : Why → Prop
  | .inDb => bk = true ∧ calls ≠ [] ∧ calls <+: b.found
  | .unmade => bk = false ∧ calls = b.found ∧ Watch.new b.id b.preds b.nth () = .error (.err ())
  | .late now | .collected now => Idle b log calls bk ∧ b.preds.recv.high.toNat ≤ now
  | .closed id range => Idle b log calls bk ∧ (b.id = id ∨ range = true ∧ id <+: b.id)
  | .stopped .replaced => Idle b log calls bk
  | .stopped .closed => False
  | .stopped r => ∃ w0 q w1 out w2 e ok over, Watch.new b.id b.preds b.nth () = .ok w0 ∧ b.db.logHead ≤ q ∧ e ∈ log ∧
      between log b.db.logHead e.1 = between log b.db.logHead q ++ [e] ∧ Sees w0 (between log b.db.logHead q) w1 out ∧
      w1.test e.1 e.2 = .ok (w2, ok, over) ∧ calls = b.found ++ out ++ (if ok then [e] else []) ∧ (bk = true → ok = true) ∧
      (if over then r = .brk else r = .finish ∧ bk = true)

/-- A watch that is over. -/
def Done (h : List Ev) (log : List (Nat × NetParts)) (n : Nat) : Prop :=
  ∃ (b : Birth) (calls : List (Nat × NetParts)) (bk : Bool) (why : Why), b.Ok ∧ b.num = n ∧ b.db.log <+: log ∧ h = b.hist calls ++ (if bk then [.broke n] else []) ++ [.gone n why] ∧
    Fate b log calls bk why

/-- A watch that has seen everything up to `pos`. -/
def Entry (h : List Ev) (log : List (Nat × NetParts)) (pos : Nat) (w : Watch (Nat × C)) : Prop :=
  ∃ (b : Birth) (w0 : Watch Unit) (out : List (Nat × NetParts)), b.Ok ∧ b.num = w.ctx.1 ∧ b.id = w.queryId ∧ Watch.new b.id b.preds b.nth () = .ok w0 ∧ b.db.log <+: log ∧ b.db.logHead ≤ pos ∧
    Sees w0 (between log b.db.logHead pos) (bare w) out ∧ h = b.hist (b.found ++ out)

end Verif.Rt
