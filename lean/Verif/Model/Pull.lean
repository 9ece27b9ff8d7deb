import Verif.Model.QueryText
import Verif.Model.RootedSpace
/-!
# Pull requests

Models `crates/linkspace/src/conventions/pull.rs`.
-/
namespace Verif.Conv
open Verif Verif.Pkt Verif.Pred Verif.Query Verif.QText Verif.Opt

/-- `EXCHANGE_DOMAIN`, `crates/core/src/consts.rs:12`: `abx` fills with `\xff`, `crates/byte-fmt/src/lib.rs:244-250`. -/
def exchangeDomain : Bytes := List.replicate 8 255 ++ ascii "exchange"

/-- `to_string` of a query: `Display`, `crates/core/src/query.rs:49-55`, with that of the predicates,
`crates/core/src/predicate/pkt_predicates.rs:112-119`, and of one predicate, `crates/core/src/predicate/exprs.rs:180-184`.  Unlike
`to_str` there is no empty line after the options. -/
def toText (dbg : Bool) (q : QText.Query) : PRes Bytes :=
  match q.preds.iter dbg with
  | .error e => .error e
  | .ok rs =>
    match stmtLines true rs with
    | .error e => .error e
    | .ok t => .ok (displayConf q.conf ++ t)

/-- `.context(..)?` on an `Option`. -/
def orErr {α : Type} : Option α → PRes α
  | some a => .ok a
  | none => .error (.err ())

/-- `query.qid()?.flatten()`, `crates/core/src/query.rs:124-126`. -/
def queryId (c : Conf) : PRes (Option Bytes) :=
  match getOption c (ascii "qid") with
  | .error .panic => .error .panic
  | .error (.err _) => .error (.err ())
  | .ok o => .ok (o.bind id)

/-- `rspace_buf`, `crates/pkt/src/rooted_space.rs:368-370`: unwraps. -/
def rspaceBuf (cs : List Bytes) : PRes Bytes :=
  match Rooted.tryFromIter cs with
  | .ok r => .ok r
  | .error _ => .error .panic

/-- The error of a packet that does not fit, without its text. -/
def ofPkt {α : Type} : Pkt.Res α → PRes α
  | .ok a => .ok a
  | .error (.err _) => .error (.err ())
  | .error .panic => .error .panic

/-- `lk_pull_point`, `crates/linkspace/src/conventions/pull.rs:23-55`; `now` is the time read by `lk_linkpoint` and `nh` the routing
header of `NetOpts::Default`.  `as_netbox` copies the packet and is left out (C01). -/
def pullPoint (C : Crypto) (nh : Bytes) (now : Nat) (q : QText.Query) : PRes NetParts :=
  match orErr (q.preds.set .group).asEq with
  | .error e => .error e
  | .ok g =>
    match orErr (q.preds.set .domain).asEq with
    | .error e => .error e
    | .ok d =>
      match queryId q.conf with
      | .error e => .error e
      | .ok none => .error (.err ())
      | .ok (some id) =>
        match toText true q with
        | .error e => .error e
        | .ok text =>
          match rspaceBuf [ascii "pull", be g, be d, id] with
          | .error e => .error e
          | .ok sp => ofPkt (tryLinkpoint C privateGroup exchangeDomain sp [] text now nh)

end Verif.Conv
