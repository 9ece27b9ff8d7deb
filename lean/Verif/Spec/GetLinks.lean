import Verif.Model.GetLinks
import Verif.Spec.Runtime
import Verif.Spec.Collect
/-!
# The packets that links lead to
-/
namespace Verif.Spec
open Verif Verif.Pkt Verif.Env Verif.Rt Verif.Cmd

/-- The packets written for links, and whether there is no error: each packet the log has for a link, followed by those for its own links if there are levels left.
With `stops` the first missing link is an error for those that follow it in the same packet; the error is lost if the packet was itself found by a link. -/
inductive Reached (log : List (Nat × NetParts)) (stops : Bool) : Nat → List Link → List (Nat × NetParts) → Bool → Prop
  | nil (n : Nat) : Reached log stops n [] [] true
  | skip {n : Nat} {l : Link} {ls : List Link} {out : List (Nat × NetParts)} {ok : Bool} : stops = false → (∀ e ∈ log, e.2.hash ≠ l.ptr) →
      Reached log stops n ls out ok → Reached log stops n (l :: ls) out ok
  | stop {n : Nat} {l : Link} {ls : List Link} : stops = true → (∀ e ∈ log, e.2.hash ≠ l.ptr) → Reached log stops n (l :: ls) [] false
  | leaf {l : Link} {ls : List Link} {e : Nat × NetParts} {out : List (Nat × NetParts)} {ok : Bool} : e ∈ log → e.2.hash = l.ptr →
      Reached log stops 0 ls out ok → Reached log stops 0 (l :: ls) (e :: out) ok
  | inner {n : Nat} {l : Link} {ls : List Link} {e : Nat × NetParts} {mid out : List (Nat × NetParts)} {ok ok' : Bool} : e ∈ log → e.2.hash = l.ptr →
      Reached log stops n e.2.getLinks mid ok' → Reached log stops (n + 1) ls out ok → Reached log stops (n + 1) (l :: ls) (e :: (mid ++ out)) ok

/-- A packet of the log is found by a chain of at most `n + 1` links, the first of which is one of these and all others those of packets of the log. -/
inductive LinkChain (log : List (Nat × NetParts)) : Nat → List Link → Nat × NetParts → Prop
  | last {n : Nat} {ls : List Link} {l : Link} {e : Nat × NetParts} : l ∈ ls → e ∈ log → e.2.hash = l.ptr → LinkChain log n ls e
  | more {n : Nat} {ls : List Link} {l : Link} {e e' : Nat × NetParts} : l ∈ ls → e ∈ log → e.2.hash = l.ptr → LinkChain log n e.2.getLinks e' → LinkChain log (n + 1) ls e'

/-- The log holds packets: what can be sent. -/
def HoldsPackets (log : List (Nat × NetParts)) : Prop := ∀ e ∈ log, ∃ t : Sent, e.2 = t.parts

/-- The packets `ts` are those of the log that were found. -/
def TheseFrom (out : List (Nat × NetParts)) (ts : List Sent) : Prop := out.map (·.2) = ts.map Sent.parts

/-- What is written for each packet, all without errors. -/
inductive Fetched (log : List (Nat × NetParts)) (stops : Bool) (n : Nat) : List Sent → List (List Sent) → Prop
  | nil : Fetched log stops n [] []
  | cons {s : Sent} {ss : List Sent} {out : List (Nat × NetParts)} {ts : List Sent} {outs : List (List Sent)} : Reached log stops n (linksIn s.c) out true →
      TheseFrom out ts → Fetched log stops n ss outs → Fetched log stops n (s :: ss) (ts :: outs)

/-- What is done: for each packet, what was found to `--write`, then the packet to `--forward`. -/
def fetchDone (o : IoOpts) (fwd wr : Sent → List Put) (ss : List Sent) (outs : List (List Sent)) : List (Sent × Put) :=
  (List.zip ss outs).flatMap fun x => doneWith o wr x.2 ++ doneWith o fwd [x.1]

/-- The command line is good for the packets and the files: one of the two modes, files as they come about, nothing held back or forbidden to be written, and
`--write` does not save. -/
structure GetLinksOk (o : IoOpts) (g : GetLinks) (db : Db) (ts : List Sent) (fwd wr : Sent → List Put) : Prop where
  mode : g.mode ≠ .watch
  files : Spec.Consistent db
  shown : AllShow db
  packets : HoldsPackets db.log
  fwds : ∀ s ∈ ts, Puts g.forward s (fwd s)
  writes : ∀ s, Puts g.write s (wr s)
  noSave : dbCount g.write = 0
  direct : ∀ s b, .hold b ∉ fwd s ∧ .hold b ∉ wr s
  private_ : ¬ Forbids o

/-- The links of a packet of which the files do not have all, in the mode that calls this an error. -/
def Lacks (log : List (Nat × NetParts)) (s : Sent) : Prop := ∃ l ∈ linksIn s.c, ∀ e ∈ log, e.2.hash ≠ l.ptr

end Verif.Spec
