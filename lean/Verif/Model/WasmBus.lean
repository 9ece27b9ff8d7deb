/-!
# The bus of a browser (`crates/ipcbus/src/wasmbus.rs`)
-/
namespace Verif.WasmBus

/-- `Inner`, `crates/ipcbus/src/wasmbus.rs:11-15`: the value, and what is in the channel with the oldest first. -/
structure Bus where
  val : Nat
  queue : List Nat

/-- `ProcBus::new`, `crates/ipcbus/src/wasmbus.rs:18-25`. -/
def fresh : Bus := ⟨0, []⟩

/-- `emit`, `crates/ipcbus/src/wasmbus.rs:26-34`. -/
def emit (b : Bus) (v : Nat) : Bus := if b.val ≥ v then b else ⟨v, b.queue ++ [v]⟩

/-- The outcome of a call of `next_async`: it returns, or it goes on to wait on the channel. -/
inductive Out where
  | value (v : Nat)
  | waits
deriving DecidableEq

/-- `next_async`, `crates/ipcbus/src/wasmbus.rs:39-53`, up to line 50: the channel is emptied for the greatest of its values, which is returned unless it is above
the value of the bus; then the bus is set to it and the call waits. -/
def next (b : Bus) : Bus × Out :=
  let last := b.queue.foldl max 0
  if b.val ≥ last then (⟨b.val, []⟩, .value last) else (⟨last, []⟩, .waits)

end Verif.WasmBus
