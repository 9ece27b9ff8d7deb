import Verif.Model.Collect
import Verif.Spec.PktCmd
import Verif.Spec.CliData
import Verif.Spec.Env
/-!
# Points that link to the packets of a stream
-/
namespace Verif.Spec
open Verif Verif.Pkt Verif.Pred Verif.Cmd Verif.Rd Verif.Env

/-- What is done with a packet: written to a file, held back in the buffer, or saved. -/
inductive Put where
  | file (f b : Bytes)
  | hold (b : Bytes)
  | save
deriving DecidableEq

/-- What the destinations do with a packet. -/
inductive Puts : List Dest → Sent → List Put → Prop
  | nil (s : Sent) : Puts [] s []
  | file {ds : List Dest} {s : Sent} {l : List Put} (f : Bytes) : Puts ds s l → Puts ({ out := .fd f } :: ds) s (.file f s.bytes :: l)
  | fileExpr {ds : List Dest} {s : Sent} {l : List Put} (f : Bytes) {g : NetParts → PRes Bytes} {b : Bytes} :
      g s.parts = .ok b → Puts ds s l → Puts ({ prep := some g, out := .fd f } :: ds) s (.file f b :: l)
  | hold {ds : List Dest} {s : Sent} {l : List Put} : Puts ds s l → Puts ({ out := .buffer } :: ds) s (.hold s.bytes :: l)
  | holdExpr {ds : List Dest} {s : Sent} {l : List Put} {g : NetParts → PRes Bytes} {b : Bytes} :
      g s.parts = .ok b → Puts ds s l → Puts ({ prep := some g, out := .buffer } :: ds) s (.hold b :: l)
  | save {ds : List Dest} {s : Sent} {l : List Put} (prep : Option (NetParts → PRes Bytes)) : Puts ds s l → Puts ({ prep, out := .db } :: ds) s (.save :: l)

def Put.line? : Put → Option (Bytes × Bytes)
  | .file f b => some (f, b)
  | _ => none
def Put.held : Put → Bytes
  | .hold b => b
  | _ => []
def Put.isSave : Put → Bool
  | .save => true
  | _ => false

/-- Done with the packets that may be written. -/
def doneWith (o : IoOpts) (put : Sent → List Put) (ss : List Sent) : List (Sent × Put) := (ss.filter (goesOut o)).flatMap fun s => (put s).map (s, ·)
/-- What is written at once, what is held back, and what is saved. -/
def linesOf (l : List (Sent × Put)) : List (Bytes × Bytes) := l.filterMap (·.2.line?)
def heldOf (l : List (Sent × Put)) : Bytes := l.flatMap (·.2.held)
def savedOf (l : List (Sent × Put)) : List Sent := (l.filter (·.2.isSave)).map (·.1)

/-- One round: the packets collected, the data and the point that links to them. -/
structure Round where
  pkts : List Sent
  data : Bytes
  point : Sent

/-- All packets of some rounds. -/
def pktsOf (rounds : List Round) : List Sent := rounds.flatMap (·.pkts)

/-- What is done in a round. -/
def Round.done (o : IoOpts) (fwd wr : Sent → List Put) (x : Round) : List (Sent × Put) := doneWith o fwd x.pkts ++ doneWith o wr [x.point]
/-- What is written in a round: what was held back comes last, on standard output. -/
def Round.lines (o : IoOpts) (fwd wr : Sent → List Put) (x : Round) : List (Bytes × Bytes) :=
  linesOf (x.done o fwd wr) ++ if heldOf (x.done o fwd wr) = [] then [] else [(stdout, heldOf (x.done o fwd wr))]

/-- The links to packets, the first of which is the `n`-th that was read. -/
def taken (tag : Nat → Sent → Bytes) : Nat → List Sent → List Link
  | _, [] => []
  | n, s :: ss => ⟨tag n s, s.hash⟩ :: taken tag (n + 1) ss

/-- The values of the expressions of the command for the packets `ts` and any point. -/
structure Exprs {C : Crypto} (c : Collect C) (ts : List Sent) (tag : Nat → Sent → Bytes) (chain : Option (Nat → Sent → Bytes))
    (links : List (Nat → Sent → Link)) : Prop where
  collects : ∀ n, ∀ s ∈ ts, c.collectTag n s.parts = .ok (tag n s)
  sized : ∀ n s, (tag n s).length = 16
  chains : match c.chainTag, chain with
    | none, none => True
    | some f, some t => ∀ n (s : Sent), f n s.parts = .ok (t n s) ∧ (t n s).length = 16
    | _, _ => False
  count : c.link.length = links.length
  extra : ∀ (i : Nat) (f : Nat → NetParts → PRes Link) (g : Nat → Sent → Link), c.link[i]? = some f → links[i]? = some g →
    ∀ n (s : Sent), f n s.parts = .ok (g n s) ∧ LinksSized [g n s]

/-- The links after a point was made: to that point, and those of the command line. -/
def linksAfter (chain : Option (Nat → Sent → Bytes)) (links : List (Nat → Sent → Link)) (n : Nat) (p : Sent) : List Link :=
  (chain.map fun t => (⟨t n p, p.hash⟩ : Link)).toList ++ links.map fun f => f n p

/-- The rounds of a command that starts with the links `init`: each point has the links that were left by the one before, and one to each
packet of its round, in order.  `next` are the links the next point will start with. -/
inductive Made {C : Crypto} (nh : Bytes) (c : PointCmd C) (tag : Nat → Sent → Bytes) (chain : Option (Nat → Sent → Bytes)) (links : List (Nat → Sent → Link))
    (init : List Link) : List Round → List Link → Prop
  | nil : Made nh c tag chain links init [] init
  | snoc {xs : List Round} {x : Round} {b : List Link} : Made nh c tag chain links init xs b →
      IsPoint C nh ⟨c.group, c.domain, c.stamp xs.length, b ++ taken tag (pktsOf xs).length x.pkts, c.rspace, x.data⟩ c.key x.point.parts →
      Made nh c tag chain links init (xs ++ [x]) (linksAfter chain links xs.length x.point)

/-- The links of a point. -/
def linksIn (c : Content) : List Link :=
  match c with
  | .link l => l.links
  | .key l _ _ => l.links
  | _ => []

/-- The free space a reader is asked for, round by round. -/
def wants {C : Crypto} (c : PointCmd C) (xs : List Round) : List Nat := xs.map fun x => askedFor c (linksIn x.point.c).length

/-- The log has the new ones of these packets in addition, in order. -/
def Saves (w w' : World) (ss : List Sent) : Prop :=
  ∃ L, w'.db.log = w.db.log ++ L ∧ L.map (·.2) = news (hashesOf w.db.log) (ss.map Sent.parts)

/-- The next `n` saves will do: the calls into LMDB succeed, and the clock is ahead of the log and ticks. -/
def Clock (y : Sys) (w : World) (n : Nat) : Prop :=
  n = 0 ∨ ((∀ i j, y.io i j = .ok) ∧ Spec.Consistent w.db ∧ (∀ e ∈ w.db.log, e.1 < y.now w.saves) ∧
    ∀ i, i < n → y.now (w.saves + i) < y.now (w.saves + i + 1) ∧ y.now (w.saves + i) + 1 < 2 ^ 64)

/-- How a command ends because of its data: there is no more of it, reading it fails, or it is too long for the point.  `fs` was asked for
before, now it is `ask`, of which `free` bytes would do. -/
inductive Halts (ev : Bytes → PRes Bytes) (r : Reader) (fs : List Nat) (ask free : Nat) : PRes Unit → Prop
  | ended (ds : List Bytes) : blocks ev r (fs ++ [ask]) = (ds, .ended) → Halts ev r fs ask free (.ok ())
  | failed (ds : List Bytes) (e : Fault Unit) : blocks ev r (fs ++ [ask]) = (ds, .stop e) → Halts ev r fs ask free (.error e)
  | long (ds : List Bytes) (d : Bytes) : blocks ev r (fs ++ [ask]) = (ds ++ [d], .running) → free < d.length → Halts ev r fs ask free (.error .panic)

/-- The number of destinations that save. -/
def dbCount (ds : List Dest) : Nat := ds.countP fun d => decide (d.out = .db)

/-- The number of links that are left by a point. -/
def carried (chain : Option (Nat → Sent → Bytes)) (links : List (Nat → Sent → Link)) : Nat := (if chain.isSome then 1 else 0) + links.length

/-- The number of packets that make a round full. -/
def fullRound {C : Crypto} (c : Collect C) : Nat := max 1 c.maxLinks

/-- The command line is good for the packets `ts`: sizes are those of the types, the expressions have values, the links of a full round fit into a point, and
nothing private is forbidden to be written. -/
structure CollectOk (C : Crypto) (o : IoOpts) (nh : Bytes) (c : Collect C) (ts : List Sent) (tag : Nat → Sent → Bytes) (chain : Option (Nat → Sent → Bytes))
    (links : List (Nat → Sent → Link)) (init : List Link) (fwd wr : Sent → List Put) : Prop where
  laws : C.Laws
  nhLen : nh.length = 32
  sized : ∃ cs, CmdSized c.point cs
  exprs : Exprs c ts tag chain links
  initSized : LinksSized init
  room : Room c.point (max init.length (carried chain links) + fullRound c)
  fwds : ∀ s ∈ ts, Puts c.forward s (fwd s)
  writes : ∀ s, Puts c.write s (wr s)
  private_ : ∀ s ∈ ts, s.Secret → ¬ Forbids o
  privatePoint : c.point.group = zeroGroup → ¬ Forbids o

/-- What a command did: `ts` are the packets it was given, of which it put those of `rounds` into points, read those of `pend` without making a point
for them, and did not read those of `unread`.  Either all of them are in points, or the command ended with `res` because of its data. -/
structure Collected {C : Crypto} (o : IoOpts) (nh : Bytes) (c : Collect C) (tag : Nat → Sent → Bytes) (chain : Option (Nat → Sent → Bytes))
    (links : List (Nat → Sent → Link)) (init : List Link) (fwd wr : Sent → List Put) (r : Reader) (ts : List Sent)
    (rounds : List Round) (pend unread : List Sent) (b : List Link) (w w' : World) : Prop where
  packets : ts = pktsOf rounds ++ pend ++ unread
  made : Made nh c.point tag chain links init rounds b
  outs : w'.outs = w.outs ++ rounds.flatMap (Round.lines o fwd wr) ++ linesOf (doneWith o fwd pend)
  saved : Saves w w' (rounds.flatMap (fun x => savedOf (x.done o fwd wr)) ++ savedOf (doneWith o fwd pend))
  data : blocks c.ev r (wants c.point rounds) = (rounds.map (·.data), .running)
  links : ∀ x ∈ rounds, c.allowEmpty = true ∨ linksIn x.point.c ≠ []

/-- A round ends after the first `m` packets. -/
def CutAt (rounds : List Round) (m : Nat) : Prop := ∃ a b, rounds = a ++ b ∧ (pktsOf a).length = m

/-- `Q m k` for every round, where `k` is the number of its packets and `m` that of all packets up to its end. -/
def EachEnds (Q : Nat → Nat → Prop) (rounds : List Round) : Prop := ∀ a x b, rounds = a ++ x :: b → Q (pktsOf (a ++ [x])).length x.pkts.length

/-- The data ended the command with `res`, for a point with the links `b` and those to `pend`. -/
def DataEnds {C : Crypto} (c : Collect C) (r : Reader) (rounds : List Round) (pend : List Sent) (b : List Link) (res : PRes Unit) : Prop :=
  Halts c.ev r (wants c.point rounds) (askedFor c.point (b.length + pend.length)) (freeFor c.point (b.length + pend.length)) res

/-- How a command ended: because of its data, or with all packets in points.  All rounds are as `Q` says, but for the last one, which may have less packets. -/
def Finished {C : Crypto} (Q : Nat → Nat → Prop) (c : Collect C) (r : Reader) (rounds : List Round) (pend unread : List Sent) (b : List Link) (res : PRes Unit) : Prop :=
  (EachEnds Q rounds ∧ DataEnds c r rounds pend b res) ∨
  (res = .ok () ∧ pend = [] ∧ unread = [] ∧
    ((EachEnds Q rounds ∧ b = []) ∨ ∃ xs x, rounds = xs ++ [x] ∧ EachEnds Q xs ∧ x.pkts.length < fullRound c))

end Verif.Spec
