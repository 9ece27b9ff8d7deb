import Verif.Model.Packet
import Verif.Model.View
import Verif.Model.Scopes
import Verif.Model.TestSet
/-!
# Data from a file or standard input for new points

Models `crates/common/src/cli/reader.rs` and the commands `cli/linkspace/src/{datapoint,point}.rs`.  Reading the source
does not fail here, and the options are taken as they are after `clap`.
-/
namespace Verif.Rd
open Verif Verif.Ast Verif.Abl Verif.Eval Verif.Pkt Verif.Pred

/-- `EMode`, `crates/common/src/cli/reader.rs:138-144`. -/
inductive OMode where
  | error | split | carry | trim
deriving DecidableEq, Repr

/-- `ReadSource`, 147-152: everything there is, for `rewind`, and what is still unread. -/
structure Src where
  all : Bytes
  rest : Bytes
deriving DecidableEq, Repr

/-- `read_until`: up to and with the delimiter. -/
def upTo (d : UInt8) : Bytes → Bytes
  | [] => []
  | x :: r => if x = d then [x] else x :: upTo d r
/-- `ReadSource::read`, 180-193.  `saturating_add` differs from the sum only above 2^64 bytes. -/
def Src.read (s : Src) (take : Nat) (delim : Option UInt8) : Bytes × Src :=
  let out := match delim with
    | some d => upTo d (s.rest.take (take + 1))
    | none => s.rest.take take
  (out, { s with rest := s.rest.drop out.length })

/-- `Reader`, 220-229. -/
structure Reader where
  next : Option Bytes := none
  takeMax : Option Nat := none
  calls : Nat := 2 ^ 64 - 1
  input : Option Src
  cycle : Bool := false
  eval : Bool := false
  delim : Option UInt8 := none
  onOverflow : OMode := .error
deriving DecidableEq, Repr

/-- Evaluating the data, 279-281, in the scope of the command. -/
def evalData (dbg : Bool) (sc : Scope) (n : Nat) (b : Bytes) : PRes Bytes :=
  match parseStrict b with
  | .error _ => .error (.err ())
  | .ok ast => match Eval.eval dbg sc n ast with
    | .err => .error (.err ())
    | .abort => .error .panic
    | .ok l => .ok (Abl.concat l)

/-- `check_size`, 285-291: what was carried over comes first. -/
def joined (r : Reader) (buf : Bytes) : Reader × Bytes :=
  match r.onOverflow, r.next with
  | .carry, some c => ({ r with next := none }, c ++ buf)
  | _, _ => (r, buf)
/-- `check_size`, 285-307. -/
def checkSize (r : Reader) (buf : Bytes) (free : Nat) : PRes (Reader × Bytes) :=
  let x := joined r buf
  if free < x.2.length then
    match r.onOverflow with
    | .error => .error (.err ())
    | .trim => .ok (x.1, x.2.take free)
    | .split | .carry => .ok ({ x.1 with next := some (x.2.drop free) }, x.2.take free)
  else .ok x

/-- `read_next_data` after something was read, 276-283. -/
def haveRead (ev : Bytes → PRes Bytes) (r : Reader) (free : Nat) (buf : Bytes) : PRes (Bool × Reader × Bytes) :=
  let buf := if r.delim.isSome ∧ r.delim = buf.getLast? then buf.dropLast else buf
  match (if r.eval then ev buf else .ok buf) with
  | .error e => .error e
  | .ok buf => match checkSize r buf free with
    | .error e => .error e
    | .ok (r, buf) => .ok (true, r, buf)

/-- `read_next_data` without anything left over, 254-283. -/
def readFresh (ev : Bytes → PRes Bytes) (r : Reader) (free : Nat) (buf : Bytes) : PRes (Bool × Reader × Bytes) :=
  let take := r.takeMax.getD free
  let r := { r with calls := r.calls - 1 }
  match r.input with
  | none => .ok (true, r, buf)
  | some s =>
    let o := s.read take r.delim
    if o.1.isEmpty then
      if r.cycle then
        let o := Src.read { s with rest := s.all } take r.delim
        if o.1.isEmpty then .ok (false, { r with input := none, calls := 0 }, buf)
        else haveRead ev { r with input := some o.2 } free (buf ++ o.1)
      else .ok (false, { r with input := some o.2 }, buf)
    else haveRead ev { r with input := some o.2 } free (buf ++ o.1)

/-- `read_next_data`, 233-284.  The inner call of the mode `carry` has nothing left over and calls left. -/
def readNext (ev : Bytes → PRes Bytes) (r : Reader) (free : Nat) (buf : Bytes) : PRes (Bool × Reader × Bytes) :=
  if r.calls = 0 then .ok (false, r, buf)
  else match r.next with
    | none => readFresh ev r free buf
    | some b =>
      let x : PRes (Reader × Bytes) := if r.onOverflow = .carry then
          match readFresh ev { r with next := none } free buf with
          | .error e => .error e
          | .ok (_, r, buf) => .ok (r, b ++ buf)
        else .ok ({ r with next := none }, b)
      match x with
      | .error e => .error e
      | .ok (r, buf) => match checkSize r buf free with
        | .error e => .error e
        | .ok (r, buf) => .ok (true, r, buf)

/-- How a command is going after some number of rounds: it has not ended, or has, well or not. -/
inductive Ending where
  | running | ended
  | stop (f : Fault Unit)
deriving DecidableEq, Repr

/-- `datapoint`, `crates/pkt/src/builder.rs:10-12`: unwraps. -/
def dataPkt (C : Crypto) (nh data : Bytes) : PRes NetParts :=
  match tryDatapoint C data nh with
  | .ok p => .ok p
  | .error _ => .error .panic

/-- The loop of `write_datapoint`, `cli/linkspace/src/datapoint.rs:16-24`, for a number of rounds; the packets written
and how it is going. -/
def dataCmd (ev : Bytes → PRes Bytes) (C : Crypto) (nh : Bytes) : Nat → Reader → List NetParts × Ending
  | 0, _ => ([], .running)
  | n + 1, r =>
    match readNext ev r maxContentSize [] with
    | .error e => ([], .stop e)
    | .ok (false, _, _) => ([], .ended)
    | .ok (true, r, buf) =>
      match dataPkt C nh buf with
      | .error e => ([], .stop e)
      | .ok p => let o := dataCmd ev C nh n r; (p :: o.1, o.2)

/-- The arguments of `linkpoint`.  `stamp` and `tag` are the stamp and the tag of `--multi-link` as evaluated for each
point: both may depend on the clock.  An expression that does not evaluate is not modelled. -/
structure PointCmd (C : Crypto) where
  group : Bytes
  domain : Bytes
  rspace : Bytes
  links : List Link
  key : Option C.Key
  stamp : Nat → Nat
  multi : Bool := false
  tag : Option (Nat → Bytes) := none

/-- `build_with_reader`, `cli/linkspace/src/point.rs:87-101`, with `build`, 55-85: `point` unwraps. -/
def buildRead (ev : Bytes → PRes Bytes) {C : Crypto} (nh : Bytes) (c : PointCmd C) (links : List Link) (stamp : Nat) (r : Reader) :
    PRes (Option NetParts × Reader) :=
  let free := calcFreeSpace (spaceOf c.rspace) links [] c.key.isSome
  if free < 0 then .error (.err ())
  else match readNext ev r free.toNat [] with
    | .error e => .error e
    | .ok (false, r, _) => .ok (none, r)
    | .ok (true, r, buf) =>
      match tryPoint C c.group c.domain c.rspace links buf stamp c.key nh with
      | .ok p => .ok (some p, r)
      | .error _ => .error .panic

/-- The loop of `linkpoint`, 126-147: `i` points have been written, the last has the hash `ptr`. -/
def pointLoop (ev : Bytes → PRes Bytes) {C : Crypto} (nh : Bytes) (c : PointCmd C) : Nat → Nat → Bytes → Reader → List NetParts × Ending
  | 0, _, _, _ => ([], .running)
  | n + 1, i, ptr, r =>
    let links := c.links ++ (c.tag.map fun t => (⟨t i, ptr⟩ : Link)).toList
    match buildRead ev nh c links (c.stamp i) r with
    | .error e => ([], .stop e)
    | .ok (none, _) => ([], .ended)
    | .ok (some p, r) => let o := pointLoop ev nh c n (i + 1) p.hash r; (p :: o.1, o.2)

/-- `linkpoint`, 103-148, for a number of rounds after the first point. -/
def pointCmd (ev : Bytes → PRes Bytes) {C : Crypto} (nh : Bytes) (c : PointCmd C) (n : Nat) (r : Reader) : List NetParts × Ending :=
  match buildRead ev nh c c.links (c.stamp 0) r with
  | .error e => ([], .stop e)
  | .ok (none, _) => ([], .stop (.err ()))
  | .ok (some p, r) =>
    if c.multi then let o := pointLoop ev nh c n 1 p.hash r; (p :: o.1, o.2)
    else ([p], .ended)

end Verif.Rd
