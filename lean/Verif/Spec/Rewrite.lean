import Verif.Model.Rewrite
import Verif.Spec.Collect
/-!
# Points made anew
-/
namespace Verif.Spec
open Verif Verif.Pkt Verif.Pred Verif.Cmd Verif.Rd Verif.Env

/-- The values of the options of the command line for the `n`-th packet: `none` if the field is to stay. -/
structure Changes where
  group : Nat → Sent → Option Bytes
  domain : Nat → Sent → Option Bytes
  rspace : Nat → Sent → Option Bytes
  create : Nat → Sent → Option Nat

/-- An option has these values for the packets. -/
def ValuesAre {α : Type} (e : Option (Nat → NetParts → PRes α)) (v : Nat → Sent → Option α) (ts : List Sent) : Prop :=
  match e with
  | none => ∀ n s, v n s = none
  | some f => ∀ n, ∀ s ∈ ts, ∃ a, f n s.parts = .ok a ∧ v n s = some a

/-- The command line is good for the packets: the options have these values, which have the sizes of their types, there is a key to sign with, and nothing is
held back or forbidden to be written. -/
structure RewriteOk (C : Crypto) (o : IoOpts) (nh : Bytes) (r : Rewrite C) (ts : List Sent) (v : Changes) (fwd wr : Sent → List Put) : Prop where
  laws : C.Laws
  nhLen : nh.length = 32
  group : ValuesAre r.group v.group ts
  domain : ValuesAre r.domain v.domain ts
  rspace : ValuesAre r.rspace v.rspace ts
  create : ValuesAre r.create v.create ts
  groupLen : ∀ n s a, v.group n s = some a → a.length = 32
  domainLen : ∀ n s a, v.domain n s = some a → a.length = 16
  space : ∀ n s a, v.rspace n s = some a → Rooted.checkComponents a = .ok ()
  stamp : ∀ n s a, v.create n s = some a → a < 2 ^ 64
  key : r.mode = .signAll ∨ r.mode = .resign → r.key.isSome
  fwds : ∀ s ∈ ts, Puts r.forward s (fwd s)
  writes : ∀ s, Puts r.write s (wr s)
  direct : ∀ s b, .hold b ∉ fwd s ∧ .hold b ∉ wr s
  private_ : ¬ Forbids o

/-- The fields of a point with the changes, and its data. -/
def Changes.apply (v : Changes) (n : Nat) (s : Sent) (c : LinkContent) (data : Bytes) : LinkContent :=
  ⟨(v.group n s).getD c.group, (v.domain n s).getD c.domain, (v.create n s).getD c.stamp, c.links, (v.rspace n s).getD c.rspace, data⟩

/-- A packet that is made anew: its fields, and the key to sign with.  Link points always are, key points unless they are to be skipped. -/
inductive Remakes {C : Crypto} (r : Rewrite C) (s : Sent) : LinkContent → Option C.Key → Prop
  | link (c : LinkContent) : s.c = .link c → r.mode ≠ .signAll → Remakes r s c none
  | signLink (c : LinkContent) : s.c = .link c → r.mode = .signAll → Remakes r s c r.key
  | key (c : LinkContent) (pk sig : Bytes) : s.c = .key c pk sig → r.mode = .signAll ∨ r.mode = .resign → Remakes r s c r.key
  | unsign (c : LinkContent) (pk sig : Bytes) : s.c = .key c pk sig → r.mode = .unsign → Remakes r s c none

/-- A packet that stays as it is. -/
inductive Stays {C : Crypto} (r : Rewrite C) (s : Sent) : Prop
  | data (b : Bytes) : s.c = .data b → Stays r s
  | skip (c : LinkContent) (pk sig : Bytes) : s.c = .key c pk sig → r.mode = .skip → Stays r s

/-- The number of bytes asked for, negative if there is no space: for a signed point 60 too much (see C04). -/
def askedBytes (rspace : Bytes) (links : Nat) (signed : Bool) : Int :=
  64960 - (48 * links : Nat) - (if rspace.length ≤ 8 then 0 else rspace.length : Nat) - (if signed then 36 else 0 : Nat)

/-- The size of a point with these fields. -/
def pointSize {C : Crypto} (c : LinkContent) (key : Option C.Key) : Nat := c.len + if key.isSome then 96 else 0

/-- The data for a point: its own, or what is read. -/
inductive Takes {C : Crypto} (r : Rewrite C) (v : Changes) (n : Nat) (s : Sent) (c : LinkContent) (key : Option C.Key) (rd : Reader) : Bytes → Reader → Prop
  | own : r.interpret = false → Takes r v n s c key rd c.data rd
  | read (f : Nat) (d : Bytes) (rd' : Reader) : r.interpret = true → askedBytes ((v.rspace n s).getD c.rspace) c.links.length key.isSome = f →
      readNext (r.ev n s.parts) rd f [] = .ok (true, rd', d) → Takes r v n s c key rd d rd'

/-- The packet `t` is written for the `n`-th packet `s`. -/
inductive Becomes {C : Crypto} (nh : Bytes) (r : Rewrite C) (v : Changes) (n : Nat) (s : Sent) (rd : Reader) : Sent → Reader → Prop
  | stays : Stays r s → Becomes nh r v n s rd s rd
  | made (c : LinkContent) (key : Option C.Key) (d : Bytes) (t : Sent) (rd' : Reader) : Remakes r s c key → Takes r v n s c key rd d rd' →
      IsPoint C nh (v.apply n s c d) key t.parts → Becomes nh r v n s rd t rd'

/-- The packets `us` are written for `ss`, the first of which is the `n`-th. -/
inductive Rewritten {C : Crypto} (nh : Bytes) (r : Rewrite C) (v : Changes) : Nat → Reader → List Sent → List Sent → Reader → Prop
  | nil (n : Nat) (rd : Reader) : Rewritten nh r v n rd [] [] rd
  | cons {n : Nat} {rd rd' rd'' : Reader} {s t : Sent} {ss us : List Sent} : Becomes nh r v n s rd t rd' → Rewritten nh r v (n + 1) rd' ss us rd'' →
      Rewritten nh r v n rd (s :: ss) (t :: us) rd''

/-- Why the command ends at a packet. -/
inductive Refuses {C : Crypto} (r : Rewrite C) (v : Changes) (n : Nat) (s : Sent) (rd : Reader) : Fault Unit → Prop
  | errorPoint (b : Bytes) : s.c = .error b → Refuses r v n s rd .panic
  | noSpace (c : LinkContent) (key : Option C.Key) : Remakes r s c key → r.interpret = true →
      askedBytes ((v.rspace n s).getD c.rspace) c.links.length key.isSome < 0 → Refuses r v n s rd (.err ())
  | noData (c : LinkContent) (key : Option C.Key) (f : Nat) (rd' : Reader) (d : Bytes) : Remakes r s c key → r.interpret = true →
      askedBytes ((v.rspace n s).getD c.rspace) c.links.length key.isSome = f → readNext (r.ev n s.parts) rd f [] = .ok (false, rd', d) → Refuses r v n s rd (.err ())
  | badData (c : LinkContent) (key : Option C.Key) (f : Nat) (e : Fault Unit) : Remakes r s c key → r.interpret = true →
      askedBytes ((v.rspace n s).getD c.rspace) c.links.length key.isSome = f → readNext (r.ev n s.parts) rd f [] = .error e → Refuses r v n s rd e
  | tooLarge (c : LinkContent) (key : Option C.Key) (d : Bytes) (rd' : Reader) : Remakes r s c key → Takes r v n s c key rd d rd' →
      65024 < pointSize (v.apply n s c d) key → Refuses r v n s rd (.err ())

/-- What is done for packets: each new one to `--write`, then the one it was to `--forward`. -/
def rewriteDone (o : IoOpts) (fwd wr : Sent → List Put) (ss us : List Sent) : List (Sent × Put) :=
  (List.zip ss us).flatMap fun x => doneWith o wr [x.2] ++ doneWith o fwd [x.1]

end Verif.Spec
