import Verif.Model.Abtxt
/-!
# ABE syntax trees, parser and printer

Models `crates/abe/src/ast.rs`.
-/
namespace Verif.Ast
open Verif Verif.Abtxt

/-- `Ctr`, crates/abe/src/ast.rs (the two internal delimiters `:` and `/`). -/
inductive Ctr | colon | fslash
  deriving DecidableEq, Repr

/-- `*self as u8`, the character printed by `Display for Ctr`, crates/abe/src/ast.rs:325-329. -/
def Ctr.asChar : Ctr → UInt8
  | .colon => 0x3a
  | .fslash => 0x2f

/-- `ABE` with `Expr` inlined (`ABE::Ctr`, `ABE::Expr(Expr::Bytes)`, `ABE::Expr(Expr::Lst)`),
crates/abe/src/ast.rs. -/
inductive ABE
  | ctr (c : Ctr)
  | bytes (b : Bytes)
  | lst (l : List ABE)
  deriving Repr

/-- `escape_default` of every byte, crates/abe/src/ast.rs:357-361. -/
def printBytes (b : Bytes) : Bytes := b.flatMap escapeDefault

mutual
/-- `Display for ABE`/`Expr`/`Ctr`, crates/abe/src/ast.rs:312-370. -/
def printOne : ABE → Bytes
  | .ctr c => [c.asChar]
  | .bytes b => printBytes b
  | .lst l => 0x5b :: (printAbe l ++ [0x5d])
/-- `print_abe`, crates/abe/src/ast.rs:626-628 (and the inner loop of line 365). -/
def printAbe : List ABE → Bytes
  | [] => []
  | e :: es => printOne e ++ printAbe es
end

/-- `ASTParseError`, crates/abe/src/ast.rs:376-385, plus `panic` for the `todo!` at line 410. -/
inductive ParseErr
  | ab (e : TxtErr)
  | unmatchedClose
  | unmatchedOpen
  | panic
  deriving DecidableEq, Repr

/-- `ABTok`, crates/abe/src/ast.rs:395-398. -/
inductive ABTok
  | bytes (b : Bytes)
  | ctr (c : CtrChar)
  deriving DecidableEq, Repr

/-- Merge the `Bytes` tokens that directly follow, crates/abe/src/ast.rs:411-417. -/
def takeBytes (b : Bytes) : List ABTok → Bytes × List ABTok
  | .bytes o :: ts => takeBytes (b ++ o) ts
  | ts => (b, ts)

/-- `from_fn(|| collect(tokens)).collect()`, crates/abe/src/ast.rs:400-420 and 408/453.
Returns the collected list and the remaining tokens; `none` stands for the `todo!` panic of line 410
(a newline token) - or for running out of `fuel`, which `collect_toks` shows cannot happen when
`fuel` exceeds the number of tokens. -/
def collectMany : Nat → List ABTok → Option (List ABE × List ABTok)
  | 0, _ => none
  | _ + 1, [] => some ([], [])
  | n + 1, .ctr k :: ts =>
    match k with
    | .cbr => some ([], ts)
    | .colon => (collectMany n ts).map fun (r, rest) => (.ctr .colon :: r, rest)
    | .fslash => (collectMany n ts).map fun (r, rest) => (.ctr .fslash :: r, rest)
    | .obr =>
      match collectMany n ts with
      | none => none
      | some (inner, ts') => (collectMany n ts').map fun (r, rest) => (.lst inner :: r, rest)
    | .newline => none
  | n + 1, .bytes b :: ts =>
    let (b', ts') := takeBytes b ts
    (collectMany n ts').map fun (r, rest) => (.bytes b' :: r, rest)

/-- Pushing the pending bytes before a control token or at the end,
crates/abe/src/ast.rs:449-451, 466-468. -/
def flush (acc : Bytes) (r : List ABTok) : List ABTok :=
  if acc.isEmpty then r else .bytes acc :: r

/-- The depth bookkeeping of crates/abe/src/ast.rs:458-465. -/
def stepDepth (depth : Nat) : CtrChar → Except ParseErr Nat
  | .obr => .ok (depth + 1)
  | .cbr => if depth = 0 then .error .unmatchedClose else .ok (depth - 1)
  | _ => .ok depth

/-- The tokenizing loop shared by `parse_abe_strict_b` (`loose = false`),
crates/abe/src/ast.rs:437-477, and `parse_abe_with_unencoded_b` (`loose = true`), 480-530.
The Rust code pushes to a vector `r`; here the tokens still to come are returned. -/
def tokLoop (loose : Bool) (depth : Nat) (acc : Bytes) (todo : Bytes) :
    Except ParseErr (List ABTok) :=
  match h : nextByte stdPlain stdErr todo with
  | .error e =>
    match loose, e, todo with
    | true, .parse b, _ :: rest => tokLoop loose depth (acc ++ [b]) rest
    | _, e, _ => .error (.ab e)
  | .ok .finished => if depth ≠ 0 then .error .unmatchedOpen else .ok (flush acc [])
  | .ok (.ctr kind rest) =>
    have : rest.length < todo.length := nextByte_ctr_lt h
    match stepDepth depth kind with
    | .error e => .error e
    | .ok d => (tokLoop loose d [] rest).map fun r => flush acc (.ctr kind :: r)
  | .ok (.byte b rest) =>
    have : rest.length < todo.length := nextByte_byte_lt h
    tokLoop loose depth (acc ++ [b]) rest
termination_by todo.length

/-- `parse_abe_b`, crates/abe/src/ast.rs:428-530. -/
def parse (loose : Bool) (s : Bytes) : Except ParseErr (List ABE) :=
  match tokLoop loose 0 [] s with
  | .error e => .error e
  | .ok toks =>
    match collectMany (toks.length + 1) toks with
    | some (r, _) => .ok r
    | none => .error .panic

/-- `parse_abe_strict_b`, crates/abe/src/ast.rs:437-477. -/
def parseStrict (s : Bytes) : Except ParseErr (List ABE) := parse false s

/-- One call of the iterator closure of `tokenize_abe_b`, crates/abe/src/ast.rs:575-623.
The Rust closure keeps `todo`, `start_comp`, `head_ctr`, `with_inner`, `depth` and slices
`st[start_comp..at]`; here `comp` is that slice, accumulated.
Returns the component and, if a separator ended it, the separator and the remaining text. -/
def tokenizeStep (plain err : UInt32) (depth : Nat) (inner : Bool) (comp : Bytes) (todo : Bytes) :
    Except ParseErr (Bool × Bytes × Option (UInt8 × Bytes)) :=
  match h : nextByte plain err todo with
  | .error e => .error (.ab e)
  | .ok .finished => if depth ≠ 0 then .error .unmatchedOpen else .ok (inner, comp, none)
  | .ok (.ctr kind rest) =>
    have : rest.length < todo.length := nextByte_ctr_lt h
    if depth = 0 ∧ !kind.isBracket then .ok (inner, comp, some (kind.asChar, rest))
    else
      match stepDepth depth kind with
      | .error e => .error e
      | .ok d => tokenizeStep plain err d true (comp ++ todo.take (todo.length - rest.length)) rest
  | .ok (.byte _ rest) =>
    have : rest.length < todo.length := nextByte_byte_lt h
    tokenizeStep plain err depth inner (comp ++ todo.take (todo.length - rest.length)) rest
termination_by todo.length

theorem tokenizeStep_lt {p e d i c t} {i' : Bool} {c' : Bytes} {k : UInt8} {rest : Bytes}
    (h : tokenizeStep p e d i c t = .ok (i', c', some (k, rest))) : rest.length < t.length := by
  fun_induction tokenizeStep p e d i c t <;> try cases h
  · assumption
  · rename_i ih; have := ih h; omega
  · rename_i ih; have := ih h; omega

/-- `tokenize_abe_b(..).try_collect()`, crates/abe/src/ast.rs:564-624 and 534-542.
Each item is (separator before the component or 0, contains brackets, component). -/
def tokenize (plain err : UInt32) (head : UInt8) (todo : Bytes) :
    Except ParseErr (List (UInt8 × Bool × Bytes)) :=
  if todo.isEmpty then .ok []
  else
    match h : tokenizeStep plain err 0 false [] todo with
    | .error e => .error e
    | .ok (inner, comp, none) => .ok [(head, inner, comp)]
    | .ok (inner, comp, some (k, rest)) =>
      have : rest.length < todo.length := tokenizeStep_lt h
      (tokenize plain err k rest).map ((head, inner, comp) :: ·)
termination_by todo.length

/-- The `plain_cset` computed by `lk_tokenize_abe`, crates/linkspace/src/lib.rs:320-323 (a xor fold). -/
def excludeCset (excl : Bytes) : UInt32 :=
  (excl.filterMap CtrChar.tryFromChar).foldl (fun a c => a ^^^ c.bit) 0

/-- `lk_tokenize_abe`, crates/linkspace/src/lib.rs:315-330, with a callback that always continues. -/
def lkTokenize (s : Bytes) (excl : Bytes) : Except ParseErr (List (UInt8 × Bool × Bytes)) :=
  tokenize (excludeCset excl) 0 0 s

end Verif.Ast
