import Verif.Spec.PktCmd
import Verif.Spec.Handshake
/-!
# Specification of the handshake program

In terms of the packets read (`ReadsOff`), not of the functions of the model.
-/
namespace Verif.Spec
open Verif Verif.Pkt Verif.Cmd

/-- What is written for a packet, if it may be. -/
def passed (o : IoOpts) (l : Sent → List (Bytes × Bytes)) (s : Sent) : List (Bytes × Bytes) := if goesOut o s then l s else []

/-- The keypoint made by `id` at `t` in the group `g` with these links: space and domain of the handshake, no data. -/
structure Message (C : Crypto) (id : C.Key) (nh : Bytes) (t : Nat) (g : Bytes) (links : List Link) (s : Sent) : Prop where
  head : s.nh = nh
  hash : s.hash = C.hash s.c.layout
  content : let lc : LinkContent := ⟨g, List.replicate 6 0 ++ 0xff :: ascii "handshake", t, links, [1, 9, 9, 9, 9, 9, 9, 9, 8] ++ ascii "sentinal", []⟩
    s.c = .key lc (C.pubkey id) (C.sign id (C.hash (Content.key lc [] []).unsigned))

/-- The first message: in the group that is the own key, linking nothing. -/
def Hello (C : Crypto) (id : C.Key) (nh : Bytes) (t : Nat) (s : Sent) : Prop := Message C id nh t (C.pubkey id) [] s

/-- The answers: in the group of both keys, linking the packet answered with this tag. -/
def Answer (C : Crypto) (id : C.Key) (nh : Bytes) (t : Nat) (tag you : Bytes) (to s : Sent) : Prop :=
  ∃ g, IsPair g (C.pubkey id) you ∧ Message C id nh t g [⟨tag, to.hash⟩] s

/-- The tags of the links. -/
def tagAuth : Bytes := List.replicate 12 0 ++ ascii "auth"
def tagSigned : Bytes := List.replicate 10 0 ++ ascii "signed"

/-- A first message the server answers: signed by another key `k`, not long ago. -/
def Opening (secs seen : Nat) (me k : Bytes) (s : Sent) : Prop := ∃ lc sig, s.c = .key lc k sig ∧ Near secs seen lc.stamp ∧ k ≠ me

/-- A message signed by `k` that names the packet `h`. -/
def Confirms (me k h : Bytes) (s : Sent) : Prop := ∃ lc sig, s.c = .key lc k sig ∧ Names lc me k h

/-- The same, made not long ago. -/
def Accepted (secs seen : Nat) (me k h : Bytes) (s : Sent) : Prop := ∃ lc sig, s.c = .key lc k sig ∧ Near secs seen lc.stamp ∧ Names lc me k h

/-- What the server reads, writes, and whether it succeeds.  `F` is what is written for a packet that was read, `W` for one that was made. -/
inductive Serves (C : Crypto) (id : C.Key) (nh : Bytes) (secs seen sign : Nat) (F W : Sent → List (Bytes × Bytes)) : List Sent → List (Bytes × Bytes) → Bool → Prop
  | hungUp : Serves C id nh secs seen sign F W [] [] false
  | refused {s0 : Sent} {ss : List Sent} : (∀ k, ¬ Opening secs seen (C.pubkey id) k s0) → Serves C id nh secs seen sign F W (s0 :: ss) (F s0) false
  | alone {s0 s1 : Sent} {k : Bytes} : Opening secs seen (C.pubkey id) k s0 → Answer C id nh sign tagAuth k s0 s1 →
      Serves C id nh secs seen sign F W [s0] (F s0 ++ W s1) false
  | wrong {s0 s1 s2 : Sent} {ss : List Sent} {k : Bytes} : Opening secs seen (C.pubkey id) k s0 → Answer C id nh sign tagAuth k s0 s1 →
      ¬ Confirms (C.pubkey id) k s1.hash s2 → Serves C id nh secs seen sign F W (s0 :: s2 :: ss) (F s0 ++ W s1 ++ F s2) false
  | done {s0 s1 s2 : Sent} {ss : List Sent} {k : Bytes} : Opening secs seen (C.pubkey id) k s0 → Answer C id nh sign tagAuth k s0 s1 →
      Confirms (C.pubkey id) k s1.hash s2 → Serves C id nh secs seen sign F W (s0 :: s2 :: ss) (F s0 ++ W s1 ++ F s2) true

/-- The same of the client. -/
inductive Connects (C : Crypto) (id : C.Key) (nh : Bytes) (secs made seen sign : Nat) (F W : Sent → List (Bytes × Bytes)) :
    List Sent → List (Bytes × Bytes) → Bool → Prop
  | alone {s0 : Sent} : Hello C id nh made s0 → Connects C id nh secs made seen sign F W [] (W s0) false
  | wrong {s0 s1 : Sent} {ss : List Sent} : Hello C id nh made s0 → (∀ k, ¬ Accepted secs seen (C.pubkey id) k s0.hash s1) →
      Connects C id nh secs made seen sign F W (s1 :: ss) (W s0 ++ F s1) false
  | done {s0 s1 s2 : Sent} {ss : List Sent} {k : Bytes} : Hello C id nh made s0 → Accepted secs seen (C.pubkey id) k s0.hash s1 →
      Answer C id nh sign tagSigned k s1 s2 → Connects C id nh secs made seen sign F W (s1 :: ss) (W s0 ++ F s1 ++ W s2) true

/-- The single phases that read.  They get the messages of both sides as input. -/
inductive Replies (C : Crypto) (id : C.Key) (nh : Bytes) (secs seen sign : Nat) (F W : Sent → List (Bytes × Bytes)) : List Sent → List (Bytes × Bytes) → Bool → Prop
  | none : Replies C id nh secs seen sign F W [] [] false
  | refused {s0 : Sent} {ss : List Sent} : (∀ k, ¬ Opening secs seen (C.pubkey id) k s0) → Replies C id nh secs seen sign F W (s0 :: ss) (F s0) false
  | done {s0 s1 : Sent} {ss : List Sent} {k : Bytes} : Opening secs seen (C.pubkey id) k s0 → Answer C id nh sign tagAuth k s0 s1 →
      Replies C id nh secs seen sign F W (s0 :: ss) (F s0 ++ W s1) true

/-- Signed by this key. -/
def SignedBy (k : Bytes) (s : Sent) : Prop := ∃ lc sig, s.c = .key lc k sig

inductive Signs (C : Crypto) (id : C.Key) (nh : Bytes) (secs seen sign : Nat) (F W : Sent → List (Bytes × Bytes)) : List Sent → List (Bytes × Bytes) → Bool → Prop
  | few {ss : List Sent} : ss.length < 2 → Signs C id nh secs seen sign F W ss (ss.flatMap F) false
  | refused {s0 s1 : Sent} {ss : List Sent} : ¬ (SignedBy (C.pubkey id) s0 ∧ ∃ k, Accepted secs seen (C.pubkey id) k s0.hash s1) →
      Signs C id nh secs seen sign F W (s0 :: s1 :: ss) (F s0 ++ F s1) false
  | done {s0 s1 s2 : Sent} {ss : List Sent} {k : Bytes} : SignedBy (C.pubkey id) s0 → Accepted secs seen (C.pubkey id) k s0.hash s1 →
      Answer C id nh sign tagSigned k s1 s2 → Signs C id nh secs seen sign F W (s0 :: s1 :: ss) (F s0 ++ F s1 ++ W s2) true

inductive Verifies (me : Bytes) (F : Sent → List (Bytes × Bytes)) : List Sent → List (Bytes × Bytes) → Bool → Prop
  | few {ss : List Sent} : ss.length < 3 → Verifies me F ss (ss.flatMap F) false
  | refused {s0 s1 s2 : Sent} {ss : List Sent} : ¬ (∃ k, SignedBy k s0 ∧ SignedBy me s1 ∧ Confirms me k s1.hash s2) →
      Verifies me F (s0 :: s1 :: s2 :: ss) (F s0 ++ F s1 ++ F s2) false
  | done {s0 s1 s2 : Sent} {ss : List Sent} {k : Bytes} : SignedBy k s0 → SignedBy me s1 → Confirms me k s1.hash s2 →
      Verifies me F (s0 :: s1 :: s2 :: ss) (F s0 ++ F s1 ++ F s2) true

end Verif.Spec
