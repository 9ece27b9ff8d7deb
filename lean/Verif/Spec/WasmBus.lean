import Verif.Model.WasmBus
/-!
# Specification of the bus of a browser
-/
namespace Verif.Spec
open Verif.WasmBus

/-- What happened: values emitted and calls of `next_async`. -/
inductive BusOp where
  | emit (v : Nat)
  | next

/-- The bus after a history, the oldest first. -/
def busAfter (ops : List BusOp) : Bus := ops.foldl (fun b o => match o with | .emit v => WasmBus.emit b v | .next => (WasmBus.next b).1) fresh

/-- The greatest value emitted, 0 if there was none. -/
def highest : List BusOp → Nat
  | [] => 0
  | .emit v :: ops => max v (highest ops)
  | .next :: ops => highest ops

end Verif.Spec
