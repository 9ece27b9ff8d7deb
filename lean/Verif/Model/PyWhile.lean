import Verif.Model.Runtime
/-!
# Waiting in Python

`lk_process_while`, `ffi/linkspace-py/src/lib.rs:521-544`, over `run_while` (`Model/Runtime`).
-/
namespace Verif.Ffi
open Verif Verif.Env Verif.Rt

/-- The `timeout` argument, 527-530: eight bytes (`Stamp::try_from`), and zero is as none. `none`: an exception. -/
def pyTimeout : Option Bytes → Option (Option Nat)
  | none => some none
  | some b => if b.length = 8 then (if beNat b = 0 then some none else some (some (beNat b))) else none

/-- What happens around a call, slice by slice: the clock (in microseconds) when a slice begins and in each of its rounds, and the saves by others after each round
and after each slice. -/
structure Around where
  begin : Nat → Nat
  round : Nat → Nat → Nat
  others : Nat → Nat → List SaveEv
  between : Nat → List SaveEv

/-- `check_at` of a slice, 533-536. -/
def checkAt (a : Around) (till : Option Nat) (s : Nat) : Nat :=
  match till with
  | none => a.begin s + 1000000
  | some u => min (a.begin s + 1000000) u

variable {C : Type}

/-- The loop, 532-543, from slice `s` on; `n` bounds the slices of the model and `fuel` the rounds of each. In a round the last step is reached if it lies before the
reading of the clock (`rx.rs:213-220`). `none`: an exception, because no watch has the id. Simplified: `check_signals` is left out. -/
def pySlices (p : Prog C) (call : Call C) (id : Option Bytes) (a : Around) (till : Option Nat) (fuel : Nat) :
    Nat → Nat → RT C → Option (Except RStop (RT C × Int))
  | 0, _, _ => some (.error .fuel)
  | n + 1, s, rt =>
    match runWhile p call id (fun i => decide (checkAt a till s < a.round s i)) (a.others s) fuel rt with
    | none => none
    | some (.error e) => some (.error e)
    | some (.ok (rt, r)) =>
      if r ≠ 0 ∨ some (checkAt a till s) = till then some (.ok (rt, r))
      else pySlices p call id a till fuel n (s + 1) { rt with disk := runSaves rt.disk (a.between s) }

/-- `lk_process_while`; `start` is the clock when it is called (531). -/
def pyProcessWhile (p : Prog C) (call : Call C) (id : Option Bytes) (timeout : Option Bytes) (start : Nat) (a : Around) (fuel n : Nat) (rt : RT C) :
    Option (Except RStop (RT C × Int)) :=
  match pyTimeout timeout with
  | none => none
  | some t => pySlices p call id a (t.map (start + ·)) fuel n 0 rt

end Verif.Ffi
