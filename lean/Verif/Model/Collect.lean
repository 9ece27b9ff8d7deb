import Verif.Model.PktCmd
import Verif.Model.CliData
/-!
# Making points that link to the packets of a stream

Models `cli/linkspace/src/collect.rs`.  As in `Model/PktCmd.lean` expressions are taken as evaluated, and as in `Model/CliData.lean`
reading data does not fail.
-/
namespace Verif.Cmd
open Verif Verif.Pkt Verif.Env Verif.Pred Verif.Multi Verif.Rd

/-- `MAX_LINKS_LEN`, `crates/pkt/src/consts.rs:21`, and the default of `--max-links`, `cli/linkspace/src/collect.rs:59-60`. -/
def maxLinksLen : Nat := (maxPointSize - Space.maxSize) / 48
def defaultMaxLinks : Nat := maxLinksLen - 16

/-- `Collect`, `cli/linkspace/src/collect.rs:45-75`.  `point` has the fields of the points to make and their stamps; its `links`, `multi`
and `tag` are those of `linkpoint` and are not used here.  `collectTag n` is the tag for the `n`-th packet read and `chainTag n` and
`link n` are those with the `n`-th point made in scope: they may depend on the clock. -/
structure Collect (C : Crypto) where
  point : PointCmd C
  ev : Bytes → PRes Bytes
  collectTag : Nat → NetParts → PRes Bytes
  chainTag : Option (Nat → NetParts → PRes Bytes) := none
  link : List (Nat → NetParts → PRes Link) := []
  allowEmpty : Bool := false
  maxLinks : Nat := defaultMaxLinks
  forward : List Dest := [{ out := .fd stdout }]
  write : List Dest := [{ out := .fd stdout }]

/-- `Collector`, 77-87.  `read` and `made` count the packets read and the points made. -/
structure Collector where
  links : List Link
  current : Nat := 0
  reader : Reader
  read : Nat := 0
  made : Nat := 0
  world : World

/-- The links to the new point, 114-123. -/
def Collect.chain {C : Crypto} (c : Collect C) (n : Nat) (p : NetParts) : PRes (List Link) :=
  match c.chainTag with
  | none => .ok []
  | some f => match f n p with
    | .error e => .error e
    | .ok t => .ok [⟨t, p.hash⟩]
/-- The links of the command line, with the new point in scope, 124-126. -/
def linkAll (n : Nat) (p : NetParts) : List (Nat → NetParts → PRes Link) → PRes (List Link)
  | [] => .ok []
  | f :: fs => match f n p with
    | .error e => .error e
    | .ok l => match linkAll n p fs with
      | .error e => .error e
      | .ok ls => .ok (l :: ls)
/-- The links the next point starts with, 114-126. -/
def Collect.after {C : Crypto} (c : Collect C) (n : Nat) (p : NetParts) : PRes (List Link) :=
  match c.chain n p with
  | .error e => .error e
  | .ok a => match linkAll n p c.link with
    | .error e => .error e
    | .ok b => .ok (a ++ b)

/-- `if !self.buf.is_empty()`, 131-137. -/
def World.flush (w : World) : World :=
  match w.buf with
  | none => w
  | some b => if b = [] then w else { w with outs := w.outs ++ [(stdout, b)], buf := some [] }

/-- `Collector::collect`, 89-139: whether to go on. -/
def collectOnce (dbg : Bool) (y : Sys) (o : IoOpts) {C : Crypto} (nh : Bytes) (c : Collect C) (s : Collector) : Collector × PRes Bool :=
  if !c.allowEmpty && s.links.isEmpty then (s, .ok true)
  else
    match buildRead c.ev nh c.point s.links (c.point.stamp s.made) s.reader with
    | .error e => ({ s with links := [] }, .error e)
    | .ok (none, r) => ({ s with links := [], reader := r }, .ok false)
    | .ok (some p, r) =>
      match Item.ofParts dbg p with
      | .error e => ({ s with links := [], reader := r }, .error e)
      | .ok x =>
        match writeMulti y o c.write x s.world with
        | (w, .error e) => ({ s with links := [], reader := r, world := w }, .error e)
        | (w, .ok ()) =>
          match c.after s.made p with
          | .error e => ({ s with links := [], reader := r, world := w }, .error e)
          | .ok ls => ({ s with links := ls, current := 0, reader := r, made := s.made + 1, world := w.flush }, .ok true)

/-- `Collector::new_pkt`, 140-154: whether there are enough links. -/
def newPkt (dbg : Bool) (y : Sys) (o : IoOpts) {C : Crypto} (c : Collect C) (s : Collector) (q : NetPkt) : Collector × PRes Bool :=
  match Item.ofPkt dbg q with
  | .error e => (s, .error e)
  | .ok x =>
    match c.collectTag s.read x.parts with
    | .error e => (s, .error e)
    | .ok t =>
      let s : Collector := { s with links := s.links ++ [⟨t, q.hash⟩], current := s.current + 1, read := s.read + 1 }
      match writeMulti y o c.forward x s.world with
      | (w, .error e) => ({ s with world := w }, .error e)
      | (w, .ok ()) => ({ s with world := w }, .ok (decide (c.maxLinks ≤ s.current)))

/-- What happens while packets are read: one arrives, or the interval is over; `seen` tells whether the thread that reads has got anything
yet, 231-233. -/
inductive CEvent where
  | pkt (q : NetPkt)
  | tick (seen : Bool)

/-- One round of the loops, 196-204 and 218-242: whether to go on. -/
def collectStep (dbg : Bool) (y : Sys) (o : IoOpts) {C : Crypto} (nh : Bytes) (c : Collect C) (s : Collector) : CEvent → Collector × PRes Bool
  | .pkt q => match newPkt dbg y o c s q with
    | (s, .error e) => (s, .error e)
    | (s, .ok false) => (s, .ok true)
    | (s, .ok true) => collectOnce dbg y o nh c s
  | .tick false => (s, .ok true)
  | .tick true => collectOnce dbg y o nh c s

/-- The loops over all packets. -/
def collectEvents (dbg : Bool) (y : Sys) (o : IoOpts) {C : Crypto} (nh : Bytes) (c : Collect C) : Collector → List CEvent → Collector × PRes Bool
  | s, [] => (s, .ok true)
  | s, e :: es =>
    match collectStep dbg y o nh c s e with
    | (s, .ok true) => collectEvents dbg y o nh c s es
    | (s, .ok false) => (s, .ok false)
    | (s, .error x) => (s, .error x)

/-- The links left at the end of the input, 206-208 and 244-246. -/
def collectEnd (dbg : Bool) (y : Sys) (o : IoOpts) {C : Crypto} (nh : Bytes) (c : Collect C) (s : Collector) : Left Collector :=
  if s.links.isEmpty then (s, .ok ())
  else
    match collectOnce dbg y o nh c s with
    | (s, .error e) => (s, .error e)
    | (s, .ok _) => (s, .ok ())

/-- The command ends: what is left in the buffer is gone. -/
def Collector.close (x : Left Collector) : Left World := ({ x.1.world with buf := none }, x.2)

/-- `collect` without `--min-interval`, 157-210.  The links of the command line are evaluated: `init` are those of `--init-link` and of
the list, in this order. -/
def collectCmd (C : Crypto) (dbg : Bool) (y : Sys) (o : IoOpts) (nh : Bytes) (c : Collect C) (init : List Link) (r : Reader) (i : PktIn) (w : World) : Left World :=
  match input C dbg o i with
  | .error e => (w, .error e)
  | .ok (qs, e) =>
    Collector.close <|
      match collectEvents dbg y o nh c { links := init, reader := r, world := { w with buf := some [] } } (qs.map .pkt) with
      | (s, .error x) => (s, .error x)
      | (s, .ok false) => (s, .ok ())
      | (s, .ok true) =>
        match e with
        | none => collectEnd dbg y o nh c s
        | some (.pkt .panic) => (s, .error .panic)
        | some _ => (s, .error (.err ()))

/-- The packets with the ends of intervals between them: `ticks n` are those before the `n`-th packet arrives.  The thread that reads has
got something if a packet has arrived, and may have otherwise. -/
def weave (ticks : Nat → List Bool) : Nat → List NetPkt → List CEvent
  | n, [] => (ticks n).map fun b => .tick (b || decide (0 < n))
  | n, q :: qs => (ticks n).map (fun b => .tick (b || decide (0 < n))) ++ .pkt q :: weave ticks (n + 1) qs

/-- `collect` with `--min-interval`, 211-256: the thread that reads ends at an error of the input and its result is dropped; if it panics,
so does `thread::scope` in the end. -/
def collectTimed (C : Crypto) (dbg : Bool) (y : Sys) (o : IoOpts) (nh : Bytes) (c : Collect C) (init : List Link) (r : Reader) (ticks : Nat → List Bool)
    (i : PktIn) (w : World) : Left World :=
  match input C dbg o i with
  | .error e => (w, .error e)
  | .ok (qs, e) =>
    let x := Collector.close <|
      match collectEvents dbg y o nh c { links := init, reader := r, world := { w with buf := some [] } } (weave ticks 0 qs) with
      | (s, .error x) => (s, .error x)
      | (s, .ok false) => (s, .ok ())
      | (s, .ok true) => collectEnd dbg y o nh c s
    if e = some (.pkt .panic) then (x.1, .error .panic) else x

end Verif.Cmd
