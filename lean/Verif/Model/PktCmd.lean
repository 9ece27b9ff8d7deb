import Verif.Model.Matcher
import Verif.Model.Env
import Verif.Model.Stream
import Verif.Model.View
import Verif.Model.MultiWatch
/-!
# Commands that read packets and pass them on

Models the options for reading and writing packets, `crates/common/src/cli/{mod,opts}.rs`, and the commands `filter`, `ignore`, `dedup`,
`save`, `route` and `pktf` of `cli/linkspace/src`.  Expressions (destinations, queries, formats) are taken as evaluated: a value for each
packet, or a failure.  Writing to a file or to standard output does not fail here; saving does as in `Model/Env.lean`.
-/
namespace Verif.Cmd
open Verif Verif.Pkt Verif.Env Verif.Pred Verif.Matcher Verif.Multi

/-! ### options -/

/-- `IOOpts`, `OutOpts` and `InOpts`, `crates/common/src/cli/opts.rs:91-133`. -/
structure IoOpts where
  priv : Bool := false
  privateWrite : Option Bool := none
  privateRead : Option Bool := none
  hop : Option Bool := none
  skipHash : Bool := false
deriving DecidableEq, Repr

/-- `default_hop`, `crates/common/src/cli/opts.rs:149-151`. -/
def IoOpts.defaultHop (o : IoOpts) : IoOpts := { o with hop := some (o.hop.getD true) }
/-- `enable_private_group`, 152-156. -/
def IoOpts.enablePrivate (o : IoOpts) : IoOpts := { o with priv := true, privateRead := some true, privateWrite := some true }
/-- `write_private`, 163-169. -/
def IoOpts.writes (o : IoOpts) : Option Bool := if o.priv then some true else o.privateWrite
/-- `read_private`, 170-176. -/
def IoOpts.reads (o : IoOpts) : Option Bool := if o.priv then some true else o.privateRead
/-- The decoder of `inp_reader`, 254-269. -/
def IoOpts.decoder (o : IoOpts) : Decoder := ⟨o.reads.getD false, o.hop.getD false, o.skipHash⟩

/-- `PktReadOpts`, `crates/common/src/cli/reader.rs:17-25`, and what reading the file or standard input delivers. -/
structure PktIn where
  noPkts : Bool := false
  chunks : List Bytes

/-- `inp_reader`, `crates/common/src/cli/opts.rs:254-269`, and the iteration over its packets: those read, and the error that ends it, if
one does.  `--no-pkts` makes `open` return `None`, which `expect` turns into a panic.  Every packet has at least 68 bytes, so there are
no more of them than bytes. -/
def input (C : Crypto) (dbg : Bool) (o : IoOpts) (i : PktIn) : PRes (List NetPkt × Option DecError) :=
  if i.noPkts then .error .panic
  else .ok (o.decoder.collect C dbg (i.chunks.flatten.length + 1) i.chunks)

/-! ### destinations -/

/-- A packet as it is handed to a destination: its fields and its bytes. -/
structure Item where
  parts : NetParts
  bytes : Bytes
deriving DecidableEq

/-- A packet that was read.  Reading its fields does not fail for a packet that was checked. -/
def Item.ofPkt (dbg : Bool) (q : NetPkt) : PRes Item :=
  match q.parts dbg with
  | .ok p => .ok ⟨⟨q.netHeader, q.hash, p⟩, q.bytes⟩
  | .error _ => .error .panic
/-- A packet that was built, `byte_segments` of its parts. -/
def Item.ofParts (dbg : Bool) (p : NetParts) : PRes Item :=
  match p.segments dbg with
  | .ok s => .ok ⟨p, s.bytes⟩
  | .error _ => .error .panic

/-- `Out`, `crates/common/src/cli/mod.rs:44-48`; files, standard output and standard error by name. -/
inductive Out where
  | fd (name : Bytes) | db | buffer
deriving DecidableEq, Repr

/-- `WriteDest`, 50-54: `prep` is the expression of an `-expr` destination as a function of the packet.  The destination `null` is left out
by `open`, 130. -/
structure Dest where
  prep : Option (NetParts → PRes Bytes) := none
  out : Out

/-- What is outside of a command: the database and how many saves there were, what was written to which file, in order, and the buffer of
`collect`. -/
structure World where
  db : Db := {}
  saves : Nat := 0
  outs : List (Bytes × Bytes) := []
  buf : Option Bytes := none

/-- What the saves of a command meet: the `n`-th finds the calls into LMDB do `io n`, and the clock at `now n`. -/
structure Sys where
  io : Nat → Nat → Call := fun _ _ => .ok
  now : Nat → Nat

/-- The file of standard output and of standard error, `crates/common/src/cli/mod.rs:106-113`. -/
def stdout : Bytes := ascii "\x00stdout"
def stderr : Bytes := ascii "\x00stderr"

/-- `check_private`, `crates/common/src/cli/opts.rs:177-192`: whether the packet is to be written. -/
def passPrivate (o : IoOpts) (p : NetParts) : PRes Bool :=
  match o.writes with
  | some false => match p.parts.checkPrivate with
    | .ok () => .ok true
    | .error _ => .error (.err ())
  | some true => .ok true
  | none => match p.parts.checkPrivate with
    | .ok () => .ok true
    | .error _ => .ok false

/-- `write_pkt2`, `crates/common/src/cli/mod.rs:23-43`: the bytes written. -/
def Dest.text (d : Dest) (x : Item) : PRes Bytes :=
  match d.prep with
  | none => .ok x.bytes
  | some f => f x.parts

/-- How a failed save ends a command; a process that died does nothing more. -/
def ofStop : Stop → Fault Unit
  | .err => .err ()
  | .panic => .panic
  | .died => .panic

/-- Saving one packet, `save_dyn_one` and `save_ptr_one`, `crates/core/src/env/lmdb/mod.rs:116-125`: whether it was written. -/
def saveOne (y : Sys) (w : World) (p : NetParts) : World × PRes Bool :=
  let r := lkSave (y.io w.saves) (y.now w.saves) w.db p
  ({ w with db := r.1, saves := w.saves + 1 }, match r.2 with
    | .ok b => .ok b
    | .error e => .error (ofStop e))

/-- `write_dest`, `crates/common/src/cli/opts.rs:199-220`. -/
def writeDest (y : Sys) (o : IoOpts) (d : Dest) (x : Item) (w : World) : Left World :=
  match passPrivate o x.parts with
  | .error e => (w, .error e)
  | .ok false => (w, .ok ())
  | .ok true =>
    match d.out with
    | .db => match saveOne y w x.parts with
      | (w, .ok _) => (w, .ok ())
      | (w, .error e) => (w, .error e)
    | .fd f => Left.get w (d.text x) fun b => ({ w with outs := w.outs ++ [(f, b)] }, .ok ())
    | .buffer => match w.buf with
      | none => (w, .error (.err ()))
      | some c => Left.get w (d.text x) fun b => ({ w with buf := some (c ++ b) }, .ok ())

/-- `write_multi_dest`, 222-234. -/
def writeMulti (y : Sys) (o : IoOpts) : List Dest → Item → World → Left World
  | [], _, w => (w, .ok ())
  | d :: ds, x, w => Left.next (writeDest y o d x w) fun w => writeMulti y o ds x w

/-- What a file was given. -/
def World.file (w : World) (f : Bytes) : Bytes := (w.outs.filter fun e => e.1 == f).flatMap (·.2)

/-! ### the loop over the packets read -/

/-- `for p in inp { let p = p?; .. }`: a step says whether to go on. -/
def each {σ : Type} (step : σ → NetPkt → σ × PRes Bool) : σ → List NetPkt → Option DecError → Left σ
  | s, [], none => (s, .ok ())
  | s, [], some (.pkt .panic) => (s, .error .panic)
  | s, [], some _ => (s, .error (.err ()))
  | s, q :: qs, e =>
    match step s q with
    | (s, .ok true) => each step s qs e
    | (s, .ok false) => (s, .ok ())
    | (s, .error x) => (s, .error x)

/-- A step that always goes on. -/
def onward {σ : Type} (x : Left σ) : σ × PRes Bool :=
  match x with
  | (s, .ok ()) => (s, .ok true)
  | (s, .error e) => (s, .error e)

/-- A command with a state of its own next to the world. -/
def runCmd {σ : Type} (C : Crypto) (dbg : Bool) (o : IoOpts) (i : PktIn) (step : World × σ → NetPkt → (World × σ) × PRes Bool) (s : σ) (w : World) :
    Left World :=
  match input C dbg o i with
  | .error e => (w, .error e)
  | .ok (qs, e) => let r := each step (w, s) qs e; (r.1.1, r.2)

/-! ### the commands -/

/-- `dedup`, `cli/linkspace/src/main.rs:418-434`. -/
def dedupStep (dbg : Bool) (y : Sys) (o : IoOpts) (write : List Dest) (s : World × List Bytes) (q : NetPkt) : (World × List Bytes) × PRes Bool :=
  match Stream.dedup s.2 q.hash with
  | .error e => (s, .error e)
  | .ok (true, b) => ((s.1, b), .ok true)
  | .ok (false, b) =>
    match Item.ofPkt dbg q with
    | .error e => (s, .error e)
    | .ok x => let r := onward (writeMulti y o write x s.1); ((r.1, b), r.2)
def dedupCmd (C : Crypto) (dbg : Bool) (y : Sys) (o : IoOpts) (cap : Nat) (write : List Dest) (i : PktIn) (w : World) : Left World :=
  runCmd C dbg o.enablePrivate i (dedupStep dbg y o.enablePrivate write) (Stream.dedupNew cap) w

/-- `Filter`, `cli/linkspace/src/filter.rs:12-32`.  `query` is `statements2query` of the statements in the scope of the command, or in that
scope with the packet behind it. -/
structure Filter where
  allowDatapoint : Bool := false
  query : Option NetParts → PRes Preds
  write : List Dest
  writeFalse : List Dest
  recvNow : Bool := false
  live : Bool := false

def isDatapoint (p : NetParts) : Bool :=
  match p.parts.fields with
  | .data _ => true
  | _ => false

/-- `if live { .. }`, 66-75: the watch to go on with, `none` to break. -/
def relive (f : Filter) (p : NetParts) (e : Watch Unit) : PRes (Option (Watch Unit)) :=
  if f.live then
    match f.query (some p) with
    | .error x => .error x
    | .ok s =>
      match ({ e with preds := s } : Watch Unit).updateTests with
      | .ok e => .ok (some e)
      | .error (.err ()) => .ok none
      | .error .panic => .error .panic
  else .ok (some e)

/-- The body of the loop of `select`, 54-85.  `clock n` is the time at which the `n`-th packet is tested. -/
def filterStep (dbg : Bool) (y : Sys) (o : IoOpts) (clock : Nat → Nat) (f : Filter) (s : World × Watch Unit × Nat) (q : NetPkt) :
    (World × Watch Unit × Nat) × PRes Bool :=
  match Item.ofPkt dbg q with
  | .error e => (s, .error e)
  | .ok x =>
    if f.allowDatapoint && isDatapoint x.parts then
      let r := onward (writeMulti y o f.write x s.1)
      ((r.1, s.2), r.2)
    else
      match s.2.1.test (clock s.2.2) x.parts with
      | .error e => (s, .error e)
      | .ok (e, ok, over) =>
        match writeMulti y o (if ok then f.write else f.writeFalse) x s.1 with
        | (w, .error x) => ((w, e, s.2.2 + 1), .error x)
        | (w, .ok ()) =>
          match (if ok then relive f x.parts e else .ok (some e)) with
          | .error x => ((w, e, s.2.2 + 1), .error x)
          | .ok none => ((w, e, s.2.2 + 1), .ok false)
          | .ok (some e) => ((w, e, s.2.2 + 1), .ok (!over))

/-- `select`, 33-86.  The query refuses `recv` unless `--recv-now` is given; simplified: the code also refuses masks on `recv`, which the
model of the predicates leaves out. -/
def filterCmd (C : Crypto) (dbg : Bool) (y : Sys) (o : IoOpts) (clock : Nat → Nat) (f : Filter) (i : PktIn) (w : World) : Left World :=
  match f.query none with
  | .error e => (w, .error e)
  | .ok s =>
    if !f.recvNow && s.recv != Bound.default 64 then (w, .error (.err ()))
    else
      match Watch.new [] s 0#32 () with
      | .error e => (w, .error e)
      | .ok e => runCmd C dbg o i (filterStep dbg y o clock f) (e, 0) w

/-- `ignore`, `cli/linkspace/src/main.rs:464-467`. -/
def ignoreCmd (C : Crypto) (dbg : Bool) (y : Sys) (o : IoOpts) (clock : Nat → Nat) (f : Filter) (i : PktIn) (w : World) : Left World :=
  filterCmd C dbg y o clock { f with write := f.writeFalse, writeFalse := f.write } i w

/-- `save`, `cli/linkspace/src/save.rs:29-63`. -/
def saveStep (dbg : Bool) (y : Sys) (o : IoOpts) (new old : List Dest) (s : World × Unit) (q : NetPkt) : (World × Unit) × PRes Bool :=
  match Item.ofPkt dbg q with
  | .error e => (s, .error e)
  | .ok x =>
    match saveOne y s.1 x.parts with
    | (w, .error e) => ((w, ()), .error e)
    | (w, .ok isNew) =>
      let r := onward (writeMulti y o (if isNew then new else old) x w)
      ((r.1, ()), r.2)
/-- The destinations other than the database. -/
def notDb (ds : List Dest) : List Dest := ds.filter fun d => decide (d.out ≠ .db)
def saveCmd (C : Crypto) (dbg : Bool) (y : Sys) (o : IoOpts) (new old : List Dest) (forward : Bool) (i : PktIn) (w : World) : Left World :=
  let o := o.defaultHop
  let new := if forward then new ++ [{ out := .fd stdout }] else new
  let old := if forward then old ++ [{ out := .fd stdout }] else old
  if i.noPkts then (w, .error .panic)
  else if !new.any (fun d => decide (d.out = .db)) then (w, .error (.err ()))
  else runCmd C dbg o i (saveStep dbg y o (notDb new) (notDb old)) () w

/-- `route`, `cli/linkspace/src/main.rs:470-483`. -/
def routeStep (dbg : Bool) (y : Sys) (o : IoOpts) (m : Mutate) (s : World × Unit) (q : NetPkt) : (World × Unit) × PRes Bool :=
  match Item.ofPkt dbg { q with netHeader := m.apply q.netHeader } with
  | .error e => (s, .error e)
  | .ok x => let r := onward (writeDest y o { out := .fd stdout } x s.1); ((r.1, ()), r.2)
def routeCmd (C : Crypto) (dbg : Bool) (y : Sys) (o : IoOpts) (m : Mutate) (i : PktIn) (w : World) : Left World :=
  let o := { o.enablePrivate with skipHash := true }
  runCmd C dbg o i (routeStep dbg y o m) () w

/-- `PktFmtOpts`, `cli/linkspace/src/pktf.rs:19-54`.  The formats are functions of the packet. -/
structure Fmt where
  inspect : Bool := false
  error : Option Bytes := none
  forward : List Dest := []
  join : Bool := false
  delimiter : Bytes := [10]
  data : NetParts → PRes Bytes
  link : NetParts → PRes Bytes
  key : NetParts → PRes Bytes
  fast : Option (NetParts → Bytes) := none

/-- The text of a packet, 137-158.  Points of other types run into `todo!()`. -/
def Fmt.text (f : Fmt) (p : NetParts) : PRes Bytes :=
  match f.fast with
  | some g => .ok (g p)
  | none =>
    match (if p.parts.header.ptype = tData then some f.data else if p.parts.header.ptype = tLink then some f.link
      else if p.parts.header.ptype = tKey then some f.key else none) with
    | none => .error .panic
    | some g =>
      match g p, f.error with
      | .ok b, _ => .ok b
      | .error (.err ()), some e => .ok e
      | .error x, _ => .error x

/-- The body of the loop of `pkt_info`, 117-160; the state tells whether nothing was written yet. -/
def pktfStep (dbg : Bool) (y : Sys) (o : IoOpts) (writePrivate : Bool) (f : Fmt) (s : World × Bool) (q : NetPkt) : (World × Bool) × PRes Bool :=
  match Item.ofPkt dbg q with
  | .error e => (s, .error e)
  | .ok x =>
    if !writePrivate && x.parts.parts.checkPrivate matches .error _ then (s, .ok true)
    else
      match f.text x.parts with
      | .error e => (s, .error e)
      | .ok b =>
        let out := if f.join then (if s.2 then [] else f.delimiter) ++ b else b ++ f.delimiter
        let fwd := if f.inspect then f.forward ++ [{ out := .fd stdout }] else f.forward
        let r := onward (writeMulti y o fwd x { s.1 with outs := s.1.outs ++ [(if f.inspect then stderr else stdout, out)] })
        ((r.1, false), r.2)
/-- `pkt_info`, 56-162. -/
def pktfCmd (C : Crypto) (dbg : Bool) (y : Sys) (o : IoOpts) (f : Fmt) (i : PktIn) (w : World) : Left World :=
  let writePrivate := o.writes.getD true
  let o := { o with privateRead := some (o.privateRead.getD true) }
  runCmd C dbg o i (pktfStep dbg y o writePrivate f) true w

end Verif.Cmd
