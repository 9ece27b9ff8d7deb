import Verif.Model.TestSet
import Verif.Model.View
import Verif.Model.Scopes
/-!
# The predicates of a query

Models `crates/core/src/predicate/pkt_predicates.rs`, `builder.rs`, `test_pkt.rs` and `exprs.rs` next to it, and the
field table of `crates/pkt/src/field_ids.rs`.  Error texts are not kept; a failed assertion, an arithmetic
overflow and `todo!()` are panics.
-/
namespace Verif.Pred
open Verif Verif.Pkt Verif.Abl Verif.Fit Verif.Abe

/-- The fields with a predicate set of their own, `PktPredicates`, `crates/core/src/predicate/pkt_predicates.rs:23-48`. -/
inductive VF
  | type | netflags | hop | stamp | ubits (i : Fin 4) | hash | group | pubkey | domain | create | size | dataSize
  | linksLen | depth
deriving DecidableEq, Repr

/-- The size of the field in bytes: the integer types of the struct and `fixed_size`,
`crates/pkt/src/field_ids.rs:366-395`. -/
def VF.bytes : VF → Nat
  | .type => 1
  | .netflags => 1
  | .hop => 4
  | .stamp => 8
  | .ubits _ => 4
  | .hash => 32
  | .group => 32
  | .pubkey => 32
  | .domain => 16
  | .create => 8
  | .size => 2
  | .dataSize => 2
  | .linksLen => 2
  | .depth => 1
abbrev VF.width (f : VF) : Nat := 8 * f.bytes

/-- The bits of the point type a field asks for, the last column of the field table,
`crates/pkt/src/field_ids.rs:165-196`. -/
def VF.pkts : VF → BitVec 8
  | .pubkey => 4#8
  | .group => 2#8
  | .domain => 2#8
  | .create => 2#8
  | .depth => 2#8
  | .linksLen => 2#8
  | _ => 1#8

/-- The value of a field in a packet as a number, `field_val!`, `crates/pkt/src/field_ids.rs:253-302`.  The routing
header is 3 prefix bytes, flags, hop, stamp and four times ubits.  Packets have less than 65536 bytes, so the `expect`
of `data_size` and `links_len` holds. -/
def VF.get (f : VF) (p : NetParts) : Nat :=
  match f with
  | .type => p.parts.header.ptype.toNat
  | .netflags => (p.netHeader.getD 3 0).toNat
  | .hop => beNat ((p.netHeader.drop 4).take 4)
  | .stamp => beNat ((p.netHeader.drop 8).take 8)
  | .ubits i => beNat ((p.netHeader.drop (16 + 4 * i.val)).take 4)
  | .hash => beNat p.hash
  | .group => beNat p.getGroup
  | .pubkey => beNat p.getPubkey
  | .domain => beNat p.getDomain
  | .create => p.getCreate
  | .size => p.parts.header.size
  | .dataSize => p.data.length
  | .linksLen => p.getLinks.length
  | .depth => p.getDepth.toNat
def VF.val (f : VF) (p : NetParts) : BitVec f.width := BitVec.ofNat _ (f.get p)

/-- The counters, `QScope`, `crates/core/src/predicate/exprs.rs:225-235`. -/
inductive QScope
  | branch | index | new | query
deriving DecidableEq, Repr

/-- `RuleType`, `crates/core/src/predicate/exprs.rs:239-249`.  `todo` stands for the fields whose arm is `todo!()`:
`data` (1), `signature` (4), `rspacename` and `comp0` to `comp7` (2). -/
inductive Kind
  | field (f : VF)
  | spacename
  | todo (pkts : BitVec 8)
  | recv
  | pre
  | limit (q : QScope)
deriving DecidableEq, Repr

/-- `PktPredicates` with `StatePredicates`, `crates/core/src/predicate/pkt_predicates.rs:23-56`. -/
structure Preds where
  set : (f : VF) → TestSet f.width
  recv : Bound 64
  state : QScope → TestSet 32
  rspace : Bytes

/-- `PktPredicates::DEFAULT`, 87-110. -/
def Preds.default : Preds := ⟨fun f => .default f.width, .default 64, fun _ => .default 32, []⟩

/-- Replacing one set. -/
def Preds.put (s : Preds) (f : VF) (t : TestSet f.width) : Preds :=
  { s with set := fun g => if h : g = f then h ▸ t else s.set g }
def Preds.putState (s : Preds) (q : QScope) (t : TestSet 32) : Preds :=
  { s with state := fun r => if r = q then t else s.state r }

/-- `self.<field>.try_add(op, v)?`. -/
def Preds.addTo (dbg : Bool) (s : Preds) (f : VF) (op : TestOp) (v : BitVec f.width) : PRes Preds :=
  match (s.set f).tryAdd dbg op v with
  | .ok t => .ok (s.put f t)
  | .error e => .error e

/-- The bytes of a value for a field: `TryFrom<ABList>` of `U8`, `U16`, `U32`, `U64`
(`crates/byte-fmt/src/endian_types.rs:190-199`, `288-301`), of `Domain` (`crates/byte-fmt/src/lib.rs:279-288`) and of
`LkHash`, `GroupID`, `PubKey` (`crates/byte-fmt/src/lib.rs:427-440`), whose error arm unwraps the delimiter of the
second entry. -/
def exactOr (val : ABList) (f : Bytes → Option Bytes) : PRes Bytes :=
  match (asExactBytes val).bind f with
  | some b => .ok b
  | none => .error (.err ())
def readExact (n : Nat) (val : ABList) : PRes Bytes := exactOr val (fit n)
def readDomain (val : ABList) : PRes Bytes := exactOr val (fitBack 0 16)
def readB64 (val : ABList) : PRes Bytes :=
  match val with
  | (none, _) :: (none, _) :: _ => .error .panic
  | _ => exactOr val (b64Fit 32)
def VF.read (f : VF) (val : ABList) : PRes Bytes :=
  match f with
  | .domain => readDomain val
  | .hash => readB64 val
  | .group => readB64 val
  | .pubkey => readB64 val
  | f => readExact f.bytes val

/-- `space_depth`, `crates/pkt/src/rooted_space.rs:261-263`. -/
def Preds.preDepth (s : Preds) : UInt8 := s.rspace.headD 0

/-- `check_space`, `crates/core/src/predicate/pkt_predicates.rs:134-148`. -/
def Preds.checkSpace (dbg : Bool) (s : Preds) : PRes Preds :=
  match (if s.preDepth = 0 then .ok s else s.addTo dbg .depth .greater (BitVec.ofNat _ (s.preDepth.toNat - 1))) with
  | .error e => .error e
  | .ok s =>
    match (s.set .depth).info dbg (BitVec.ofNat _ s.preDepth.toNat) with
    | .error e => .error e
    | .ok i => if i.val.isSome then .ok s else .error (.err ())

/-- `SpaceBuf::try_from` and `try_into_rooted` in this monad. -/
def readSpace (val : ABList) : PRes Bytes :=
  match Eval.spaceOfAblist val with
  | .ok b => .ok b
  | .err => .error (.err ())
  | .abort => .error .panic
def root (dbg : Bool) (sp : Bytes) : PRes Bytes :=
  match Rooted.tryIntoRooted dbg sp with
  | .ok b => .ok b
  | .error (.err _) => .error (.err ())
  | .error .panic => .error .panic

/-- `PktPredicates::prefix`, `crates/core/src/predicate/builder.rs:38-53`. -/
def Preds.addPrefix (dbg : Bool) (s : Preds) (sp : Bytes) : PRes Preds :=
  if Space.startsWith (spaceOf s.rspace) sp then .ok s
  else if Space.startsWith sp (spaceOf s.rspace) then
    match root dbg sp with
    | .error e => .error e
    | .ok r => Preds.checkSpace dbg { s with rspace := r }
  else .error (.err ())

/-- `StatePredicates::is_valid`, `crates/core/src/predicate/pkt_predicates.rs:71-79`, with its short circuits. -/
def Preds.isValid (dbg : Bool) (s : Preds) : PRes Unit :=
  match (s.state .query).hasAny dbg with
  | .error e => .error e
  | .ok false => .error (.err ())
  | .ok true =>
    match (s.state .new).hasAny dbg with
    | .error e => .error e
    | .ok true => .ok ()
    | .ok false =>
      match (s.state .index).hasAny dbg with
      | .error e => .error e
      | .ok false => .error (.err ())
      | .ok true =>
        match (s.state .branch).hasAny dbg with
        | .error e => .error e
        | .ok false => .error (.err ())
        | .ok true => .ok ()

/-- `Predicate`, `crates/core/src/predicate/exprs.rs:176-180`. -/
structure Stmt where
  kind : Kind
  op : TestOp
  val : ABList
deriving DecidableEq, Repr

/-- What follows the `try_add` of a field: `hash` 256-261, `depth` 276-279, and nothing for the others. -/
def Preds.after (dbg : Bool) (s : Preds) (f : VF) (op : TestOp) : PRes Preds :=
  match f with
  | .hash =>
    if op = .equal then
      match (s.state .query).tryAdd dbg .equal 0#32 with
      | .ok t => .ok (s.putState .query t)
      | .error e => .error e
    else .ok s
  | .depth => s.checkSpace dbg
  | _ => .ok s

/-- The arm of a field with a set, 252-315. -/
def Preds.andField (dbg : Bool) (s : Preds) (f : VF) (op : TestOp) (val : ABList) : PRes Preds :=
  match s.addTo dbg .type .mask1 f.pkts with
  | .error e => .error e
  | .ok s =>
    match f.read val with
    | .error e => .error e
    | .ok b =>
      match s.addTo dbg f op (BitVec.ofNat _ (beNat b)) with
      | .error e => .error e
      | .ok s => s.after dbg f op

/-- The arm of `spacename`, 265-275. -/
def Preds.andSpacename (dbg : Bool) (s : Preds) (op : TestOp) (val : ABList) : PRes Preds :=
  match s.addTo dbg .type .mask1 2#8 with
  | .error e => .error e
  | .ok s =>
    if op ≠ .equal then .error (.err ())
    else match readSpace val with
      | .error e => .error e
      | .ok sp =>
        match root dbg sp with
        | .error e => .error e
        | .ok r =>
          match s.addTo dbg .depth .equal (BitVec.ofNat _ (r.headD 0).toNat) with
          | .error e => .error e
          | .ok s =>
            if Space.startsWith (spaceOf r) (spaceOf s.rspace) then Preds.checkSpace dbg { s with rspace := r }
            else .error (.err ())

/-- `PktPredicates::and`, `crates/core/src/predicate/pkt_predicates.rs:238-331`. -/
def Preds.and (dbg : Bool) (s : Preds) (r : Stmt) : PRes Preds :=
  match r.kind with
  | .field f => s.andField dbg f r.op r.val
  | .spacename => s.andSpacename dbg r.op r.val
  | .todo pkts =>
    match s.addTo dbg .type .mask1 pkts with
    | .error e => .error e
    | .ok _ => .error .panic
  | .recv =>
    match readExact 8 r.val with
    | .error e => .error e
    | .ok b =>
      match s.recv.tryAdd r.op (BitVec.ofNat 64 (beNat b)) with
      | some t => .ok { s with recv := t }
      | none => .error (.err ())
  | .pre =>
    if r.op ≠ .equal then .error (.err ())
    else match readSpace r.val with
      | .error e => .error e
      | .ok sp => s.addPrefix dbg sp
  | .limit q =>
    match readExact 4 r.val with
    | .error e => .error e
    | .ok b =>
      let s := s.putState q ((s.state q).add r.op (BitVec.ofNat 32 (beNat b)))
      match s.isValid dbg with
      | .error e => .error e
      | .ok _ => .ok s

/-- Adding statements one after the other, stopping at the first failure: the loop of `Query::parse`,
`crates/core/src/query.rs:145-154`, and of `add_ext_predicate`, `pkt_predicates.rs:224-229`. -/
def Preds.run (dbg : Bool) (s : Preds) : List Stmt → PRes Preds
  | [] => .ok s
  | r :: rs =>
    match s.and dbg r with
    | .error e => .error e
    | .ok s => Preds.run dbg s rs

/-! ### compiled tests -/

/-- The test of a field, `into_tests`, `crates/core/src/predicate/test_pkt.rs:177-188`. -/
def Preds.fieldTest (s : Preds) (f : VF) : List (NetParts → Bool) :=
  match compileTest (s.set f) with
  | none => []
  | some t => [fun p => t (f.val p)]

/-- `SpacePrefix::test`, `crates/core/src/predicate/test_pkt.rs:62-72`. -/
def prefixTest (sp : Bytes) (p : NetParts) : Bool :=
  match p.space? with
  | some s => Space.startsWith s sp
  | none => false

/-- `compile_predicates`, `crates/core/src/predicate/test_pkt.rs:103-154`: the tests in the order of the code. -/
def VF.order : List VF :=
  [.type, .netflags, .hop, .stamp, .ubits 0, .ubits 1, .ubits 2, .ubits 3, .hash, .group, .pubkey, .domain, .create,
    .size, .dataSize, .linksLen, .depth]
def Preds.compile (s : Preds) : List (NetParts → Bool) :=
  VF.order.flatMap s.fieldTest ++ (if s.rspace = [] then [] else [prefixTest (spaceOf s.rspace)])

/-- The test of a list of tests, `crates/core/src/predicate/test_pkt.rs:42-48`. -/
def Preds.test (s : Preds) (p : NetParts) : Bool := s.compile.all (fun t => t p)

/-! ### extended operators -/

/-- `u8_be::add_one`, `crates/core/src/predicate/uint.rs:469-486`: the bytes after the carry and whether the carry
went out at the front.  On no bytes `len() - 1` overflows. -/
def addOne (b : Bytes) : PRes (Option Bytes) :=
  if b = [] then .error .panic
  else
    let r := b.foldr (fun x (acc : Bytes × Bool) =>
      let s := x.toNat + (if acc.2 then 1 else 0)
      (UInt8.ofNat s :: acc.1, decide (s ≥ 256))) ([], true)
    .ok (if r.2 then none else some r.1)
/-- `u8_be::sub_one`, 487-504. -/
def subOne (b : Bytes) : PRes (Option Bytes) :=
  if b = [] then .error .panic
  else
    let r := b.foldr (fun x (acc : Bytes × Bool) =>
      let k := if acc.2 then 1 else 0
      (UInt8.ofNat (x.toNat + 256 - k) :: acc.1, decide (x.toNat < k))) ([], true)
    .ok (if r.2 then none else some r.1)

/-- `ExtendedTestOp`, `crates/core/src/predicate/exprs.rs:71-87`. -/
inductive ExtOp
  | greaterEq | lessEq | headMask | tailMask
  | op (o : TestOp)
deriving DecidableEq, Repr

/-- `ExtPredicate`, 89-94. -/
structure ExtStmt where
  kind : Kind
  op : ExtOp
  val : ABList
deriving DecidableEq, Repr

/-- `RuleType::fixed_size`, `crates/core/src/predicate/exprs.rs:273-280`.  `signature` has 64 bytes and is the `todo`
kind with bit 4. -/
def Kind.fixedSize : Kind → Option Nat
  | .field f => some f.bytes
  | .spacename => none
  | .todo pkts => if pkts = 4#8 then some 64 else none
  | .recv => some 8
  | .pre => none
  | .limit _ => some 4

/-- `ExtPredicate::try_iter`, `crates/core/src/predicate/exprs.rs:105-171`. -/
def ExtStmt.stmts (e : ExtStmt) : PRes (List Stmt) :=
  match e.op with
  | .greaterEq =>
    match e.val with
    | [(c, b)] =>
      match subOne b with
      | .error f => .error f
      | .ok none => .ok []
      | .ok (some b) => .ok [⟨e.kind, .greater, [(c, b)]⟩]
    | _ => .error (.err ())
  | .lessEq =>
    match e.val with
    | [(c, b)] =>
      match addOne b with
      | .error f => .error f
      | .ok none => .ok []
      | .ok (some b) => .ok [⟨e.kind, .less, [(c, b)]⟩]
    | _ => .error (.err ())
  | .op o => .ok [⟨e.kind, o, e.val⟩]
  | o =>
    match e.kind.fixedSize with
    | none => .error (.err ())
    | some size =>
      match asExactBytes e.val with
      | none => .error (.err ())
      | some b =>
        if b.length > size then .error (.err ())
        else
          let m := size - b.length
          let zeros := if o = .tailMask then List.replicate m 255 ++ b else b ++ List.replicate m 255
          let ones := if o = .tailMask then List.replicate m 0 ++ b else b ++ List.replicate m 0
          .ok [⟨e.kind, .mask0, ofBytes zeros⟩, ⟨e.kind, .mask1, ofBytes ones⟩]

/-- `add_ext_predicate`, `crates/core/src/predicate/pkt_predicates.rs:224-229`. -/
def Preds.addExt (dbg : Bool) (s : Preds) (e : ExtStmt) : PRes Preds :=
  match e.stmts with
  | .error f => .error f
  | .ok rs => s.run dbg rs

/-! ### printing -/

/-- `as_rules_it2`, `crates/core/src/predicate/pkt_predicates.rs:121-131`, on the rules of a set; the conversions
`U8::new`, `U16::new`, ..., `Domain::from` write the number in the size of the field. -/
def ruleStmts (k : Kind) (n : Nat) {w : Nat} (rs : List (TestOp × BitVec w)) : List Stmt :=
  rs.map fun r => ⟨k, r.1, ofBytes (beBytes n r.2.toNat)⟩

/-- `Space::ablist`, `crates/pkt/src/space_fmt.rs:26-30`, of a component list. -/
def ablistOf (cs : List Bytes) : ABList := cs.foldl (fun l c => pushBytes (pushCtr l .fslash) c) []

/-- `PktPredicates::iter`, `crates/core/src/predicate/pkt_predicates.rs:155-221`. -/
def Preds.fieldRules (dbg : Bool) (s : Preds) (f : VF) : PRes (List Stmt) :=
  match (s.set f).rules dbg with
  | .ok rs => .ok (ruleStmts (.field f) f.bytes rs)
  | .error e => .error e
def Preds.prefixRules (s : Preds) : PRes (List Stmt) :=
  if s.preDepth = 0 then .ok []
  else match Space.iter (spaceOf s.rspace) with
    | .ok cs => .ok [⟨.pre, .equal, ablistOf cs⟩]
    | .error _ => .error .panic
def Preds.limitRules (dbg : Bool) (s : Preds) (q : QScope) : PRes (List Stmt) :=
  match (s.state q).rules dbg with
  | .ok rs => .ok (ruleStmts (.limit q) 4 rs)
  | .error e => .error e
def concatRules : List (PRes (List Stmt)) → PRes (List Stmt)
  | [] => .ok []
  | r :: rs =>
    match r with
    | .error e => .error e
    | .ok a =>
      match concatRules rs with
      | .error e => .error e
      | .ok b => .ok (a ++ b)
def Preds.iter (dbg : Bool) (s : Preds) : PRes (List Stmt) :=
  concatRules
    (([.type, .netflags, .hop, .stamp, .ubits 0, .ubits 1, .ubits 2, .ubits 3, .domain, .group, .pubkey] : List VF).map
        (s.fieldRules dbg)
      ++ [s.prefixRules]
      ++ ([.hash, .size, .dataSize, .linksLen, .depth] : List VF).map (s.fieldRules dbg)
      ++ [.ok (ruleStmts .recv 8 s.recv.iter), s.fieldRules dbg .create]
      ++ ([.query, .new, .index, .branch] : List QScope).map (s.limitRules dbg))

end Verif.Pred
