import Verif.Model.QueryText
import Verif.Model.Stamp
/-!
# A query from command line arguments

Models `crates/common/src/dgs.rs`, `crates/common/src/predicate_aliases.rs` and `cli/linkspace/src/watch.rs`.  Error
texts are not kept.  Reading the arguments with `clap` and printing the query are not modelled.
-/
namespace Verif.Cli
open Verif Verif.Ast Verif.Abl Verif.Abe Verif.Pkt Verif.Pred Verif.Opt Verif.Eval Verif.Num Verif.QText Verif.Query

/-! ### `domain:group:space:depth` -/

/-- `no_ctrs`, `crates/abe/src/ast.rs:208-215`: the check of a domain and of a hash,
`crates/byte-fmt/src/lib.rs:298-303,449-454`. -/
def noCtrs (l : List ABE) : Bool := l.all fun e => match e with
  | .ctr _ => false
  | _ => true

/-- The loop of `check` for `SpaceBuf`, `crates/pkt/src/space_fmt.rs:104-107`: each `/` and one expression. -/
def spaceLoop : List ABE → Bool
  | [] => true
  | .ctr .fslash :: .bytes _ :: r => spaceLoop r
  | .ctr .fslash :: .lst _ :: r => spaceLoop r
  | _ => false
/-- `check` for `SpaceBuf`, 98-110. -/
def spaceCheck (l : List ABE) : Bool :=
  match l with
  | [.ctr _] => false
  | [_] => true
  | l => spaceLoop l

/-- `DGSExpr`, `crates/common/src/dgs.rs:21-26`. -/
structure Dgs where
  domain : List ABE
  group : List ABE
  space : List ABE
/-- `DGSDExpr`, 133-137. -/
structure Dgsd where
  dgs : Dgs
  limit : Nat

/-- `crate::thread_local::domain()` and `group()`: 16 and 32 bytes. -/
structure Defaults where
  domain : Bytes
  group : Bytes

/-- `next` of `slice::split` at colons; the state is the part still to be split. -/
def nextPart : Option (List ABE) → List ABE × Option (List ABE)
  | none => ([], none)
  | some l => (l.takeWhile fun e => !isColon e, match l.dropWhile fun e => !isColon e with
    | [] => none
    | _ :: r => some r)

/-- `try_take_dgs`, 166-188. -/
def tryTakeDgs (d : Defaults) (ast : List ABE) : Option (Dgs × List ABE) :=
  let a := nextPart (some ast)
  let b := nextPart a.2
  let c := nextPart b.2
  if noCtrs a.1 && noCtrs b.1 && spaceCheck c.1 then
    some (⟨if a.1.isEmpty then abToAbe d.domain else a.1, if b.1.isEmpty then b64ToAbe d.group else b.1, c.1⟩, c.2.getD [])
  else none

/-- The words of `try_take_subsegm_expr`, 223-235. -/
def depthWord (w : Bytes) : Option Nat :=
  if w = ascii "0" then some 0 else if w = ascii "1" then some 1 else if w = ascii "2" then some 2
  else if w = ascii "3" then some 3 else if w = ascii "4" then some 4 else if w = ascii "5" then some 5
  else if w = ascii "6" then some 6 else if w = ascii "7" then some 7 else if w = ascii "8" then some 8
  else if w = ascii "*" then some 1 else if w = ascii "**" then some 8 else none
/-- `try_take_subsegm_expr`, 215-240. -/
def tryTakeDepth : List ABE → Option (Nat × List ABE)
  | [] => some (0, [])
  | .bytes w :: r => (depthWord w).map fun k => (k, r)
  | _ => none

/-- `dgpd`, 190-202. -/
def dgpd (d : Defaults) (ast : List ABE) : Option Dgsd :=
  match tryTakeDgs d ast with
  | none => none
  | some (dgs, rest) =>
    if rest.isEmpty then some ⟨dgs, 0⟩
    else match tryTakeDepth rest with
      | some (k, []) => some ⟨dgs, k⟩
      | _ => none
/-- `FromStr for DGSDExpr`, 204-212. -/
def dgpdOf (d : Defaults) (s : Bytes) : Option Dgsd :=
  match parseStrict s with
  | .ok ast => dgpd d ast
  | .error _ => none

/-- `abev!((name) : (op) : +(val))`. -/
def stmtOf (name op : Bytes) (val : List ABE) : List ABE := .bytes name :: .ctr .colon :: .bytes op :: .ctr .colon :: val

/-- `as_test_exprs`, 76-93. -/
def Dgs.exprs (e : Dgs) : List (List ABE) :=
  [stmtOf (ascii "domain") (ascii "=") e.domain, stmtOf (ascii "group") (ascii "=") e.group] ++
    (if e.space.isEmpty then [] else [stmtOf (ascii "prefix") (ascii "=") e.space])

/-- `predicate_exprs`, 139-163. -/
def Dgsd.exprs (e : Dgsd) : Option (List (List ABE)) :=
  if e.limit ≠ 8 ∧ ¬ e.dgs.space.isEmpty ∧ ¬ e.dgs.space.any isFslash then none
  else
    some (e.dgs.exprs ++
      if e.limit < 8 then
        let len := min (e.dgs.space.filter isFslash).length 8
        let exclude := min (len + e.limit) 8 + 1
        [stmtOf (ascii "depth") (ascii "<") (callAbe (ascii "u8") (dec exclude))]
      else [])

/-! ### flags -/

/-- `PredicateAliases`, `crates/common/src/predicate_aliases.rs:22-67`. -/
structure Aliases where
  dbOnly : Bool := false
  newOnly : Bool := false
  max : Option (BitVec 32) := none
  maxBranch : Option (BitVec 32) := none
  maxIndex : Option (BitVec 32) := none
  maxNew : Option (BitVec 32) := none
  signed : Bool := false
  unsigned : Bool := false
  watch : Bool := false
  qid : Option (List ABE) := none
  follow : Bool := false
  until_ : Option Bytes := none

/-- A limit: `i:<:[u32:n]`. -/
def limitExpr (q : QScope) (n : BitVec 32) : List ABE :=
  stmtOf (kindName (.limit q)) (ascii "<") (callAbe (ascii "u32") (dec n.toNat))
/-- `bool::then` in a list. -/
def whenSet {α : Type} (b : Bool) (x : α) : List α := if b then [x] else []

/-- `as_predicates`, 70-125; `now` are the eight bytes of the clock. -/
def Aliases.exprs (a : Aliases) (now : Bytes) : List (List ABE) :=
  ((a.qid.or (if a.watch then some [.bytes (ascii "default")] else none)).map fun v =>
      .ctr .colon :: .bytes (ascii "qid") :: .ctr .colon :: v).toList
    ++ (a.until_.map fun v => stmtOf (ascii "recv") (ascii "<")
        [.lst [.ctr .colon, .bytes now, .ctr .fslash, .bytes (ascii "us"), .ctr .colon, .bytes (ascii "+"), .bytes v]]).toList
    ++ whenSet a.follow [.ctr .colon, .bytes (ascii "follow")]
    ++ whenSet a.signed (stmtOf (ascii "type") (ascii "1") (bitsAbe [4]))
    ++ whenSet a.unsigned (stmtOf (ascii "type") (ascii "0") (bitsAbe [0xfb]))
    ++ (a.max.map (limitExpr .query)).toList
    ++ (a.maxNew.map (limitExpr .new)).toList
    ++ (a.maxIndex.map (limitExpr .index)).toList
    ++ (a.maxBranch.map (limitExpr .branch)).toList
    ++ whenSet a.dbOnly (limitExpr .new 0#32)
    ++ whenSet a.newOnly (limitExpr .index 0#32)

/-- The function `us`, `crates/core/src/stamp_fmt.rs:303-304`, for `Params.us`. -/
def usFn (e : Stamp.Ef) (_ : Top) (args : List Bytes) (init : Bool) : AR Bytes :=
  let out : PRes Bytes → AR Bytes := fun r => match r with
    | .ok b => .value b
    | .error .panic => .abort
    | .error _ => .err
  if init then out (e.apply 0 args)
  else match args with
    | [] => .abort
    | s :: args => if s.length = 8 then out (e.apply (beNat s) args) else .err

/-! ### the query -/

/-- `DGPDWatchCLIOpts`, `cli/linkspace/src/watch.rs:13-23`. -/
structure Opts where
  dgpd : Option Dgsd
  aliases : Aliases
  exprs : List (List ABE)
  bare : Bool

/-- `iter_statments`, 26-37. -/
def Opts.stmts (o : Opts) (now : Bytes) : Option (List (List ABE)) :=
  match (if o.bare then none else o.dgpd) with
  | none => some (o.aliases.exprs now ++ o.exprs)
  | some d => d.exprs.map fun l => l ++ o.aliases.exprs now ++ o.exprs

/-- The loop of `statements2query`, 42-51. -/
def addExprs (dbg : Bool) (sc : Scope) (n : Nat) (q : QText.Query) : List (List ABE) → PRes QText.Query
  | [] => .ok q
  | e :: r =>
    match eval dbg sc n e with
    | .err => .error (.err ())
    | .abort => .error .panic
    | .ok l =>
      match q.addStmt dbg l with
      | .error e => .error e
      | .ok q => addExprs dbg sc n q r

/-- `DGPDWatchCLIOpts::into_query`, 38-40. -/
def Opts.query (o : Opts) (dbg : Bool) (sc : Scope) (n : Nat) (now : Bytes) : PRes QText.Query :=
  match o.stmts now with
  | none => .error (.err ())
  | some l => addExprs dbg sc n .empty l

/-- `CLIQuery::into_query`, 86-100, without `--print`.  `mode` is `None` only when no command line set it: the argument
has the default `tree-desc`. -/
def intoQuery (o : Opts) (mode : Option Mode) (dbg : Bool) (sc : Scope) (n : Nat) (now : Bytes) : PRes QText.Query :=
  match o.query dbg sc n now with
  | .error e => .error e
  | .ok q =>
    match Opt.mode q.conf with
    | .error e => .error e
    | .ok inner =>
      if inner = none ∨ inner ≠ mode then .ok { q with conf := addOption q.conf (ascii "mode") [modeText (mode.getD Mode.default)] }
      else .ok q

/-- The query of the command `watch`, 107-127. -/
def watchCmd (o : Opts) (mode : Option Mode) (dbg : Bool) (sc : Scope) (n : Nat) (now : Bytes) : PRes QText.Query :=
  match intoQuery o mode dbg sc n now with
  | .error e => .error e
  | .ok q => .ok { q with conf := addOption q.conf (ascii "qid") [ascii "<cli>"] }

end Verif.Cli
