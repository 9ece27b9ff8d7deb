import Verif.Model.Options
import Verif.Model.Scopes
/-!
# A query as text

Models `crates/core/src/query.rs`, the text of statements in `crates/core/src/predicate/exprs.rs`, the table of
`crates/core/src/predicate/predicate_type.rs`, `try_to_abe` of `crates/pkt/src/field_ids.rs` and the query functions of
`crates/linkspace/src/lib.rs`.
-/
namespace Verif.QText
open Verif Verif.Ast Verif.Abl Verif.Abe Verif.Pkt Verif.Pred Verif.Opt Verif.Eval Verif.Num Verif.Fit

/-! ### names -/

/-- `predty!`, `crates/core/src/predicate/predicate_type.rs:72-97`, with the `RuleType` of the same name. -/
def kindTable : List (Bytes × Kind) := [
  (ascii "hash", .field .hash), (ascii "group", .field .group), (ascii "domain", .field .domain), (ascii "prefix", .pre),
  (ascii "spacename", .spacename), (ascii "pubkey", .field .pubkey), (ascii "create", .field .create),
  (ascii "depth", .field .depth), (ascii "links_len", .field .linksLen), (ascii "data_size", .field .dataSize),
  (ascii "recv", .recv), (ascii "i_branch", .limit .branch), (ascii "i_db", .limit .index), (ascii "i_new", .limit .new),
  (ascii "i", .limit .query), (ascii "hop", .field .hop), (ascii "stamp", .field .stamp), (ascii "ubits0", .field (.ubits 0)),
  (ascii "ubits1", .field (.ubits 1)), (ascii "ubits2", .field (.ubits 2)), (ascii "ubits3", .field (.ubits 3)),
  (ascii "type", .field .type), (ascii "netflags", .field .netflags), (ascii "size", .field .size)]
/-- `try_from_id`, 36-43. -/
def kindOf (id : Bytes) : Option Kind := (kindTable.find? fun e => e.1 == id).map Prod.snd

/-- `FromStr for RuleType`, `crates/core/src/predicate/exprs.rs:238-248`, which also knows the fields without a set,
`crates/pkt/src/field_ids.rs:164-194`. -/
def ruleTable : List (Bytes × Kind) := kindTable ++ [
  (ascii "signature", .todo 4#8), (ascii "data", .todo 1#8), (ascii "rspacename", .todo 2#8),
  (ascii "comp0", .todo 2#8), (ascii "comp1", .todo 2#8), (ascii "comp2", .todo 2#8), (ascii "comp3", .todo 2#8),
  (ascii "comp4", .todo 2#8), (ascii "comp5", .todo 2#8), (ascii "comp6", .todo 2#8), (ascii "comp7", .todo 2#8)]
def ruleOf (id : Bytes) : Option Kind := (ruleTable.find? fun e => e.1 == id).map Prod.snd

/-- `Display for RuleType`, 238-248.  The fields without a set are not told apart here; they are never printed. -/
def kindName : Kind → Bytes
  | .field .hash => ascii "hash"
  | .field .group => ascii "group"
  | .field .domain => ascii "domain"
  | .pre => ascii "prefix"
  | .spacename => ascii "spacename"
  | .field .pubkey => ascii "pubkey"
  | .field .create => ascii "create"
  | .field .depth => ascii "depth"
  | .field .linksLen => ascii "links_len"
  | .field .dataSize => ascii "data_size"
  | .recv => ascii "recv"
  | .limit .branch => ascii "i_branch"
  | .limit .index => ascii "i_db"
  | .limit .new => ascii "i_new"
  | .limit .query => ascii "i"
  | .field .hop => ascii "hop"
  | .field .stamp => ascii "stamp"
  | .field (.ubits i) => ascii "ubits" ++ dec i.val
  | .field .type => ascii "type"
  | .field .netflags => ascii "netflags"
  | .field .size => ascii "size"
  | .todo _ => ascii "data"

/-- The tokens of `top!`, `crates/core/src/predicate/value_test.rs:157-179`. -/
def opByte : TestOp → UInt8
  | .nop => 0x3f
  | .equal => 0x3d
  | .less => 0x3c
  | .greater => 0x3e
  | .mask0 => 0x30
  | .mask1 => 0x31
/-- `TryFrom<&[u8]> for TestOp`, 121-129. -/
def opOf : Bytes → Option TestOp
  | [0x3f] => some .nop
  | [0x3d] => some .equal
  | [0x3c] => some .less
  | [0x3e] => some .greater
  | [0x30] => some .mask0
  | [0x31] => some .mask1
  | _ => none
/-- `FromStr for ExtendedTestOp`, `crates/core/src/predicate/exprs.rs:71-86`: the variants in order. -/
def extOpOf (s : Bytes) : Option ExtOp :=
  if s = ascii ">=" then some .greaterEq
  else if s = ascii "<=" then some .lessEq
  else if s = ascii "=*" then some .headMask
  else if s = ascii "*=" then some .tailMask
  else (opOf s).map .op

/-! ### reading statements -/

/-- `TryFrom<ABList> for ExtPredicate`, `crates/core/src/predicate/exprs.rs:38-69`.  `pop_front`,
`crates/abe/src/eval.rs:272-274`, splices the range `0..1`, which panics on an empty list. -/
def extOf : ABList → PRes ExtStmt
  | [] => .error .panic
  | [_] => .error .panic
  | (c0, kind) :: (c1, op) :: val =>
    if c0.isSome || c1 != some .colon || Abl.isEmpty val || (val.head?.bind (·.1)) != some .colon then .error (.err ())
    else match kindOf kind with
      | none => .error (.err ())
      | some k =>
        match extOpOf op with
        | none => .error (.err ())
        | some o => .ok ⟨k, o, match val with
          | (_, b) :: r => (none, b) :: r
          | [] => []⟩

/-- `Query`, `crates/core/src/query.rs:44-48`. -/
structure Query where
  preds : Preds
  conf : Conf

/-- `DEFAULT`, 81-84. -/
def Query.empty : Query := ⟨.default, []⟩

/-- `add_stmt`, 136-144; `stmt[0]` panics on an empty list. -/
def Query.addStmt (dbg : Bool) (q : Query) (stmt : ABList) : PRes Query :=
  match stmt with
  | [] => .error .panic
  | (some _, _) :: _ =>
    match addOptionAbl q.conf stmt with
    | .ok c => .ok { q with conf := c }
    | .error e => .error e
  | (none, _) :: _ =>
    match extOf stmt with
    | .error e => .error e
    | .ok e =>
      match q.preds.addExt dbg e with
      | .ok p => .ok { q with preds := p }
      | .error e => .error e

/-- The result of evaluating one line, `abe::parse_abe_strict_b` and `eval`, 150. -/
def evalLine (dbg : Bool) (sc : Scope) (n : Nat) (line : Bytes) : PRes ABList :=
  match parseStrict line with
  | .error _ => .error (.err ())
  | .ok abe =>
    match eval dbg sc n abe with
    | .ok l => .ok l
    | .err => .error (.err ())
    | .abort => .error .panic

/-- The loop of `parse`, 146-152. -/
def Query.addLines (dbg : Bool) (sc : Scope) (n : Nat) (q : Query) : List Bytes → PRes Query
  | [] => .ok q
  | line :: r =>
    if line = [] then Query.addLines dbg sc n q r
    else match evalLine dbg sc n line with
      | .error e => .error e
      | .ok l =>
        match q.addStmt dbg l with
        | .error e => .error e
        | .ok q => Query.addLines dbg sc n q r
/-- `parse`, 145-154. -/
def Query.parse (dbg : Bool) (sc : Scope) (n : Nat) (q : Query) (s : Bytes) : PRes Query :=
  Query.addLines dbg sc n q (splitLines s)

/-- `lk_query_push`, `crates/linkspace/src/lib.rs:636-648`. -/
def Query.push (dbg : Bool) (q : Query) (field test val : Bytes) : PRes Query :=
  if field = [] then .ok { q with conf := addOption q.conf test [val] }
  else match ruleOf field with
    | none => .error (.err ())
    | some k =>
      match extOpOf test with
      | none => .error (.err ())
      | some o =>
        match q.preds.addExt dbg ⟨k, o, ofBytes val⟩ with
        | .ok p => .ok { q with preds := p }
        | .error e => .error e

/-! ### printing statements -/

/-- `{ name : (text) }`. -/
def callAbe (name text : Bytes) : List ABE := [.lst [.bytes name, .ctr .colon, .bytes text]]
/-- `to_abe` of the number types, `crates/byte-fmt/src/endian_types.rs:140-145,318-322`. -/
def uintAbe (name : Bytes) (b : Bytes) : List ABE := callAbe name (dec (beNat b))
/-- `abe_bits`, `crates/byte-fmt/src/endian_types.rs:284-286`, of one byte. -/
def bitsAbe (b : Bytes) : List ABE := callAbe (ascii "b2") (encDigits 2 b)

/-- `FieldEnum::try_to_abe`, `crates/pkt/src/field_ids.rs:98-133`, on the bytes of the value. -/
def fieldAbe : VF → Bytes → List ABE
  | .depth, b => uintAbe (ascii "u8") b
  | .type, b => bitsAbe b
  | .netflags, b => bitsAbe b
  | .create, b => uintAbe (ascii "u64") b
  | .stamp, b => uintAbe (ascii "u64") b
  | .hop, b => uintAbe (ascii "u32") b
  | .ubits _, b => uintAbe (ascii "u32") b
  | .hash, b => b64ToAbe b
  | .group, b => b64ToAbe b
  | .pubkey, b => b64ToAbe b
  | .linksLen, b => uintAbe (ascii "u16") b
  | .dataSize, b => uintAbe (ascii "u16") b
  | .size, b => uintAbe (ascii "u16") b
  | .domain, b => abToAbe b

/-- `canonical`, `crates/core/src/predicate/exprs.rs:258-269`: the value as it is if it cannot be read. -/
def orRaw (val : ABList) (r : PRes Bytes) (f : Bytes → PRes (List ABE)) : PRes (List ABE) :=
  match r with
  | .ok b => f b
  | .error (.err _) => .ok (toAbe val)
  | .error .panic => .error .panic
/-- `SpaceBuf::to_abe`; walking an invalid space panics. -/
def spaceAbe (sp : Bytes) : PRes (List ABE) :=
  match Space.iter sp with
  | .ok cs => .ok (compsToAbe cs)
  | .error _ => .error .panic
def canonical (k : Kind) (val : ABList) : PRes (List ABE) :=
  match k with
  | .field f => orRaw val (f.read val) fun b => .ok (fieldAbe f b)
  | .spacename => orRaw val (readSpace val) spaceAbe
  | .pre => orRaw val (readSpace val) spaceAbe
  | .recv => orRaw val (readExact 8 val) fun b => .ok (uintAbe (ascii "u64") b)
  | .limit _ => orRaw val (readExact 4 val) fun b => .ok (uintAbe (ascii "u32") b)
  | .todo _ => .ok (toAbe val)

/-- `abe!( (kind) : (op) : +(val) )`. -/
def stmtAbe (r : Stmt) (val : List ABE) : List ABE :=
  .bytes (kindName r.kind) :: .ctr .colon :: .bytes [opByte r.op] :: .ctr .colon :: val
/-- `Predicate::to_str`, `crates/core/src/predicate/exprs.rs:187-196`. -/
def stmtText (canon : Bool) (r : Stmt) : PRes Bytes :=
  if canon then
    match canonical r.kind r.val with
    | .ok v => .ok (printAbe (stmtAbe r v))
    | .error e => .error e
  else .ok (printAbe (stmtAbe r (toAbe r.val)))

def stmtLines (canon : Bool) : List Stmt → PRes Bytes
  | [] => .ok []
  | r :: rs =>
    match stmtText canon r with
    | .error e => .error e
    | .ok t =>
      match stmtLines canon rs with
      | .error e => .error e
      | .ok ts => .ok (t ++ 0x0a :: ts)

/-- `to_str`, `crates/core/src/query.rs:85-93`. -/
def Query.toStr (dbg canon : Bool) (q : Query) : PRes Bytes :=
  match q.preds.iter dbg with
  | .error e => .error e
  | .ok rs =>
    match stmtLines canon rs with
    | .error e => .error e
    | .ok t => .ok (displayConf q.conf ++ 0x0a :: t)

/-- `hash_eq`, 156-169. -/
def Query.hashEq (h : Bytes) : Query where
  preds := (Preds.default.put .hash ((Preds.default.set .hash).add .equal (BitVec.ofNat _ (beNat h)))).putState .query
    ((Preds.default.state .query).add .equal 0#32)
  conf := addOption [] (ascii "mode") [modeText ⟨.hash, true⟩]

end Verif.QText
