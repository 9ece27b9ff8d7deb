import Verif.Model.Bus
/-!
# What the bus of a database is for

Nothing here refers to how a step is taken, only to where threads are and what is under way.
-/
namespace Verif.Spec
open Verif Verif.Bus

/-- The different ids, in the order they first came. -/
def firsts (ids : List UInt64) : List UInt64 := ids.foldl (fun l i => if i ∈ l then l else l ++ [i]) []

/-- A file that complete writes have left: entries of 10 bytes. -/
def WholeEntries (file : Bytes) : Prop := file.length % 10 = 0

/-- The thread has emitted this value in this process, or is about to. -/
def EmitsIn (w : World) (t p : Nat) (v : UInt64) : Prop :=
  (∃ udp, w.thr t = .loading p udp v) ∨ (∃ udp old, w.thr t = .testing p udp v old) ∨ w.thr t = .sending p v ∨ w.thr t = .notifying p v ∨ ∃ r, w.thr t = .returned p v r

/-- No call of `emit` has yet to return. -/
def NoneEmitting (w : World) : Prop := ∀ t p v, EmitsIn w t p v → ∃ r, w.thr t = .returned p v r

/-- Nothing is under way. -/
def AllQuiet (w : World) : Prop := NoneEmitting w ∧ w.flying = []

/-- The thread waits, having processed the log up to `h`. -/
def Sleeps (w : World) (t p : Nat) (h : UInt64) : Prop := w.thr t = .listening p h

/-- The network is faithful: it loses nothing, and nobody else uses the port. -/
def Faithful : Act → Prop
  | .lose _ => False
  | .send _ lost => lost = false
  | .stray _ _ => False
  | _ => True

/-- The value given to the bus by this action, which is emitted or comes from outside. -/
def GivesBus (a : Act) (v : UInt64) : Prop :=
  (∃ t p, a = .emit t p v) ∨ (∃ t p, a = .save t p v) ∨ ∃ p b, a = .stray p b ∧ b.length = 20 ∧ leNat (b.drop 12) = v.toNat

/-- Only `save` emits. -/
def OnlySaves (a : Act) : Prop := ∀ t p v, a ≠ .emit t p v

/-- Processes have process ids of their own. -/
def OwnPids (s : Setup) : Prop := ∀ p ∈ s.members, ∀ q ∈ s.members, s.pid p = s.pid q → p = q

/-- The value of every process is this one. -/
def AllHave (s : Setup) (w : World) (v : UInt64) : Prop := ∀ p ∈ s.members, w.val p = v

end Verif.Spec
