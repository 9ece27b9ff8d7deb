import Verif.Model.Packet
/-!
# Helpers for streams of packets

Models `crates/common/src/pkt_stream_utils.rs`.  The packets are of any type; of a packet only its hash and its links
matter, `none` for a datapoint.
-/
namespace Verif.Stream
open Verif Verif.Pkt

section
variable {P : Type} (hash : P → Bytes) (links : P → Option (List Bytes))

/-- `Buffer`, `crates/common/src/pkt_stream_utils.rs:16-19`; the set of linked hashes as a list. -/
structure Buffer (P : Type) where
  forward : List P
  latest : List Bytes
/-- `Buffer::default`. -/
def Buffer.empty : Buffer P := ⟨[], []⟩

/-- `Buffer::push`, 22-47: the packets to forward and the new buffer. -/
def Buffer.push (b : Buffer P) (p : P) : List P × Buffer P :=
  match links p with
  | none => if hash p ∈ b.latest then ([p], b) else ([], { b with forward := b.forward ++ [p] })
  | some ls => (b.forward.filter (fun v => decide (hash v ∈ ls)) ++ [p], ⟨[], ls⟩)

/-- Pushing the packets of a stream one after the other. -/
def Buffer.run (b : Buffer P) : List P → List P × Buffer P
  | [] => ([], b)
  | p :: ps =>
    let r := b.push hash links p
    let s := Buffer.run r.2 ps
    (r.1 ++ s.1, s.2)
end

/-- `QuickDedup::new`, 55-59. -/
def dedupNew (cap : Nat) : List Bytes := List.replicate cap (List.replicate 32 0)
/-- The first eight bytes as a number, 61; little endian. -/
def dedupKey (h : Bytes) : Nat := beNat (h.take 8).reverse
/-- `probable_contains`, 60-66: the answer and the new buffers; without buffers the remainder panics. -/
def dedup (bufs : List Bytes) (h : Bytes) : Except (Fault Unit) (Bool × List Bytes) :=
  if bufs.length = 0 then .error .panic
  else
    let i := dedupKey h % bufs.length
    .ok (bufs[i]? == some h, bufs.set i h)
/-- Asking about hashes one after the other. -/
def dedupRun (bufs : List Bytes) : List Bytes → Except (Fault Unit) (List Bytes)
  | [] => .ok bufs
  | h :: hs =>
    match dedup bufs h with
    | .ok (_, b) => dedupRun b hs
    | .error e => .error e

end Verif.Stream
