import Verif.Model.ReadHash
import Verif.Model.CliData
/-!
# The command `eval`

Models `cli/linkspace/src/eval.rs`, with the part of `serde_json` it prints with.  The scope of the
command is a parameter; standard output does not fail.
-/
namespace Verif.EvalCmd
open Verif Verif.Ast Verif.Abl Verif.Eval Verif.Pred Verif.Num Verif.Tpl Verif.Rd

/-- What expressions are evaluated with: `common.eval_scope()`, `crates/common/src/cli/opts.rs:65-73`,
and the depth of the stack. -/
structure Where where
  dbg : Bool
  k : PktParams
  base : Ev → Dyn → Scope
  depth : Nat

/-- Evaluation in the scope of the command with these arguments behind it, the pairs of
`cli/linkspace/src/eval.rs:51,61`. -/
def Where.eval (w : Where) (args : List Bytes) (abe : List ABE) : ER ABList :=
  evalD w.dbg w.k (withArgs w.base (some (argList args))) w.depth ⟨[], []⟩ abe

/-- How an evaluation ends for the command: `?` passes an error on. -/
def ended {α : Type} : ER α → PRes α
  | .ok a => .ok a
  | .err => .error (.err ())
  | .abort => .error .panic

/-- `--data-eval`, `crates/common/src/cli/reader.rs:279-281`, in the scope with the arguments so far. -/
def recordEval (w : Where) (args : List Bytes) (b : Bytes) : PRes Bytes :=
  match parseStrict b with
  | .error _ => .error (.err ())
  | .ok ast => (ended (w.eval args ast)).map concat

/-- The loop over the data, `cli/linkspace/src/eval.rs:48-59`, for a number of rounds. -/
def readArgs (w : Where) : Nat → Reader → List Bytes → Except Ending (List Bytes)
  | 0, _, _ => .error .running
  | n + 1, r, args =>
    match readNext (recordEval w args) r (2 ^ 64 - 1) [] with
    | .error e => .error (.stop e)
    | .ok (false, _, _) => .ok args
    | .ok (true, r, bytes) => readArgs w n r (args ++ [bytes])

/-- The part of `serde_json::Value` that is used. -/
inductive JVal where
  | null
  | num (n : Nat)
  | str (b : Bytes)
  | arr (l : List JVal)

/-- `Serialize` of an optional `Ctr`, `crates/abe/src/ast.rs:27-34`. -/
def JVal.ofCtr : Option Ctr → JVal
  | none => .null
  | some .colon => .str (ascii ":")
  | some .fslash => .str (ascii "/")
/-- The value of bytes, `cli/linkspace/src/eval.rs:71-73`; `utf8` tells whether bytes are a valid string. -/
def JVal.ofBytes (utf8 : Bytes → Bool) (b : Bytes) : JVal :=
  if utf8 b then .str b else .arr (b.map fun x => .num x.toNat)
/-- The value of a list, 66-77. -/
def JVal.ofList (utf8 : Bytes → Bool) (l : ABList) : JVal :=
  .arr (l.map fun e => .arr [.ofCtr e.1, .ofBytes utf8 e.2])

/-- `format_escaped_str_contents` of `serde_json`: one byte of a string. -/
def jsonByte (b : UInt8) : Bytes :=
  if b = 0x22 then ascii "\\\""
  else if b = 0x5c then ascii "\\\\"
  else if b = 0x08 then ascii "\\b"
  else if b = 0x09 then ascii "\\t"
  else if b = 0x0a then ascii "\\n"
  else if b = 0x0c then ascii "\\f"
  else if b = 0x0d then ascii "\\r"
  else if b < 0x20 then ascii "\\u00" ++ [Abtxt.hexChar (b >>> 4), Abtxt.hexChar (b &&& 0xf)]
  else [b]

mutual
/-- `Display for Value`: the compact text. -/
def JVal.text : JVal → Bytes
  | .null => ascii "null"
  | .num n => dec n
  | .str b => ascii "\"" ++ b.flatMap jsonByte ++ ascii "\""
  | .arr l => ascii "[" ++ JVal.texts l ++ ascii "]"
/-- The items of an array with commas between them. -/
def JVal.texts : List JVal → Bytes
  | [] => []
  | [v] => v.text
  | v :: u :: l => v.text ++ ascii "," ++ JVal.texts (u :: l)
end

/-- `EvalOpts`, `cli/linkspace/src/eval.rs:16-33`; the reader is `open_reader(true, ..)` where `argv`
is given. -/
structure Opts where
  json : Bool := false
  noLoose : Bool := false
  abe : Bytes
  data : Option Reader := none

/-- What is printed, 63-81. -/
def printed (utf8 : Bytes → Bool) (json : Bool) (val : ABList) : Bytes :=
  if json then (JVal.ofList utf8 val).text ++ ascii "\n" else concat val

/-- The arguments, 46-59: none without `argv`. -/
def argsFor (w : Where) (data : Option Reader) (rounds : Nat) : Except Ending (List Bytes) :=
  match data with
  | none => .ok []
  | some r => readArgs w rounds r []

/-- `eval_cmd`, 35-82, for a number of rounds of the loop: what it prints or how it ends without. -/
def evalCmd (utf8 : Bytes → Bool) (w : Where) (o : Opts) (rounds : Nat) : Except Ending Bytes :=
  match parse (!o.noLoose) o.abe with
  | .error .panic => .error (.stop .panic)
  | .error _ => .error (.stop (.err ()))
  | .ok abe =>
    match argsFor w o.data rounds with
    | .error e => .error e
    | .ok args =>
      match ended (w.eval args abe) with
      | .error e => .error (.stop e)
      | .ok val => .ok (printed utf8 o.json val)

end Verif.EvalCmd
