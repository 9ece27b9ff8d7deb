import Verif.Spec.PktCmd
/-!
# Specification of reading a stream of packets
-/
namespace Verif.Spec
open Verif Verif.Pkt Verif.Cmd

/-- These are the packets a stream starts with, as many as there are: what is left does not start with a packet that is admitted. -/
structure ReadsOff (C : Crypto) (o : IoOpts) (b : Bytes) (ss : List Sent) (rest : Bytes) : Prop where
  bytes : b = streamOf ss ++ rest
  admits : Admits C o ss
  longest : ∀ s t, Admits C o [s] → rest ≠ s.bytes ++ t

end Verif.Spec
