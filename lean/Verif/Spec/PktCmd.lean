import Verif.Model.PktCmd
import Verif.Spec.Query
import Verif.Spec.Packet
/-!
# What the commands on streams of packets are for
-/
namespace Verif.Spec
open Verif Verif.Pkt Verif.Pred Verif.Cmd

/-- A packet of a stream: routing header, hash and content. -/
structure Sent where
  nh : Bytes
  hash : Bytes
  c : Content
  nhLen : nh.length = 32
  hashLen : hash.length = 32
  valid : c.Valid

/-- The bytes of a packet. -/
def Sent.bytes (s : Sent) : Bytes := s.nh ++ s.hash ++ s.c.layout
/-- The fields of a packet. -/
def Sent.parts (s : Sent) : NetParts := ⟨s.nh, s.hash, s.c.parts⟩
/-- The hash is that of the point, and if it is signed the signature is right. -/
def Sent.Genuine (C : Crypto) (s : Sent) : Prop := s.c.Sealed C ∧ s.hash = C.hash s.c.layout
/-- The point is in the private group. -/
def Sent.Secret (s : Sent) : Prop := s.c.group? = some zeroGroup
instance (s : Sent) : Decidable s.Secret := by unfold Sent.Secret; infer_instance
/-- With another routing header. -/
def Sent.routed (s : Sent) (nh : Bytes) (h : nh.length = 32) : Sent := { s with nh, nhLen := h }

/-- A stream of packets as bytes. -/
def streamOf (ss : List Sent) : Bytes := ss.flatMap Sent.bytes

/-- The input is this stream, in pieces of any size. -/
structure Feeds (i : PktIn) (b : Bytes) : Prop where
  opened : i.noPkts = false
  pieces : ∀ c ∈ i.chunks, c ≠ []
  bytes : i.chunks.flatten = b

/-- Private points are let in, and let out. -/
def LetsIn (o : IoOpts) : Prop := o.priv = true ∨ o.privateRead = some true
def LetsOut (o : IoOpts) : Prop := o.priv = true ∨ o.privateWrite = some true
instance (o : IoOpts) : Decidable (LetsIn o) := by unfold LetsIn; infer_instance
instance (o : IoOpts) : Decidable (LetsOut o) := by unfold LetsOut; infer_instance
/-- Private points are an error to write. -/
def Forbids (o : IoOpts) : Prop := o.priv = false ∧ o.privateWrite = some false
instance (o : IoOpts) : Decidable (Forbids o) := by unfold Forbids; infer_instance

/-- The packets are ones the command reads: genuine unless that is not to be checked, and private only if allowed. -/
def Admits (C : Crypto) (o : IoOpts) (ss : List Sent) : Prop :=
  ∀ s ∈ ss, (o.skipHash = true ∨ s.Genuine C) ∧ (s.Secret → LetsIn o)

/-- What follows the packets of a stream that is not read to a good end: a packet that is not admitted, or the front of a packet that is
cut off after its headers. -/
inductive Spoils (C : Crypto) (o : IoOpts) : Bytes → Prop
  | refused (s : Sent) (rest : Bytes) : ¬ Admits C o [s] → Spoils C o (s.bytes ++ rest)
  | cut (s : Sent) (n : Nat) : 68 ≤ n → n < s.bytes.length → Spoils C o (s.bytes.take n)

/-- Hops are counted: `--hop true`, or the default of the command. -/
def Arrives (hop : Bool) (s t : Sent) : Prop :=
  t.hash = s.hash ∧ t.c = s.c ∧ (hop = false → t.nh = s.nh) ∧
    (hop = true → t.nh.take 3 = s.nh.take 3 ∧ t.nh.getD 3 0 = s.nh.getD 3 0 &&& 127 ∧
      beNat ((t.nh.drop 4).take 4) = min (beNat ((s.nh.drop 4).take 4) + 1) (2 ^ 32 - 1) ∧ t.nh.drop 8 = s.nh.drop 8)

/-- What is written where for a packet: its bytes, or the value of the expression of the destination. -/
inductive Lines : List Dest → Sent → List (Bytes × Bytes) → Prop
  | nil (s : Sent) : Lines [] s []
  | bytes {ds : List Dest} {s : Sent} {l : List (Bytes × Bytes)} (f : Bytes) : Lines ds s l → Lines ({ out := .fd f } :: ds) s ((f, s.bytes) :: l)
  | expr {ds : List Dest} {s : Sent} {l : List (Bytes × Bytes)} (f : Bytes) {g : NetParts → PRes Bytes} {b : Bytes} :
      g s.parts = .ok b → Lines ds s l → Lines ({ prep := some g, out := .fd f } :: ds) s ((f, b) :: l)

/-- What is written for each of the packets. -/
def Writes (ds : List Dest) (ss : List Sent) (lines : Sent → List (Bytes × Bytes)) : Prop := ∀ s ∈ ss, Lines ds s (lines s)

/-- A file gets the packets that may be written, one after the other. -/
def goesOut (o : IoOpts) (s : Sent) : Bool := decide (s.Secret → LetsOut o)

/-- Of a stream, `out` are the packets let through by a memory of `cap` places: a packet is taken for seen if its hash is the last one asked
for with its place, or is all zero and its place is unused. -/
inductive Deduped (cap : Nat) : List Bytes → List Sent → List Sent → Prop
  | nil (hist : List Bytes) : Deduped cap hist [] []
  | keep {hist : List Bytes} {s : Sent} {ss out : List Sent} :
      ¬ (∃ older newer, hist = older ++ s.hash :: newer ∧ ∀ y ∈ newer, Stream.dedupKey y % cap ≠ Stream.dedupKey s.hash % cap) →
      ¬ (s.hash = List.replicate 32 0 ∧ ∀ y ∈ hist, Stream.dedupKey y % cap ≠ Stream.dedupKey s.hash % cap) →
      Deduped cap (hist ++ [s.hash]) ss out → Deduped cap hist (s :: ss) (s :: out)
  | drop {hist : List Bytes} {s : Sent} {ss out : List Sent} :
      (∃ older newer, hist = older ++ s.hash :: newer ∧ ∀ y ∈ newer, Stream.dedupKey y % cap ≠ Stream.dedupKey s.hash % cap) ∨
        (s.hash = List.replicate 32 0 ∧ ∀ y ∈ hist, Stream.dedupKey y % cap ≠ Stream.dedupKey s.hash % cap) →
      Deduped cap (hist ++ [s.hash]) ss out → Deduped cap hist (s :: ss) out

/-- The point is a datapoint. -/
def Sent.IsData (s : Sent) : Prop := ∃ b, s.c = .data b

/-- The packets with the mark the filter gives them: datapoints are marked when they are allowed, others when they satisfy the statements
at a position that the counts accept. `k` have satisfied the statements before, `n` were tested. -/
inductive Sieved (rs : List Stmt) (allow : Bool) (clock : Nat → Nat) : Nat → Nat → List (Sent × Bool) → Prop
  | nil (n k : Nat) : Sieved rs allow clock n k []
  | data {n k : Nat} {s : Sent} {ms : List (Sent × Bool)} : allow = true → s.IsData → Sieved rs allow clock n k ms → Sieved rs allow clock n k ((s, true) :: ms)
  | pass {n k : Nat} {s : Sent} {ms : List (Sent × Bool)} : ¬ (allow = true ∧ s.IsData) → ¬ Meets rs (clock n) s.parts →
      Sieved rs allow clock (n + 1) k ms → Sieved rs allow clock n k ((s, false) :: ms)
  | hit {n k : Nat} {s : Sent} {b : Bool} {ms : List (Sent × Bool)} : ¬ (allow = true ∧ s.IsData) → Meets rs (clock n) s.parts →
      (b = true ↔ (∀ r ∈ rs, CountOk .new r k) ∧ ∀ r ∈ rs, CountOk .query r k) →
      Sieved rs allow clock (n + 1) (k + 1) ms → Sieved rs allow clock n k ((s, b) :: ms)

/-- The format for a point of this kind. -/
def formatFor (f : Fmt) : Content → Option (NetParts → PRes Bytes)
  | .data _ => some f.data
  | .link _ => some f.link
  | .key _ _ _ => some f.key
  | .error _ => none

/-- The text of a packet: the fast one if asked for, else that of the format for its kind, or the text given for errors if that fails. -/
def Prints (f : Fmt) (s : Sent) (t : Bytes) : Prop :=
  (∃ g, f.fast = some g ∧ t = g s.parts) ∨
    f.fast = none ∧ ∃ g, formatFor f s.c = some g ∧ (g s.parts = .ok t ∨ g s.parts = .error (.err ()) ∧ f.error = some t)

/-- With `--forward` packets also go on to standard output. -/
def forwarded (fwd : Bool) (lines : Sent → List (Bytes × Bytes)) (s : Sent) : List (Bytes × Bytes) := lines s ++ if fwd then [(stdout, s.bytes)] else []

/-- The packets with whether their hash is new: not known, nor that of an earlier packet. -/
def markNew (known : List Bytes) : List Sent → List (Sent × Bool)
  | [] => []
  | s :: ss => (s, !known.contains s.hash) :: markNew (s.hash :: known) ss

end Verif.Spec
