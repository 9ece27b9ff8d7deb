import Verif.Model.AbList
import Verif.Model.Base64
/-!
# The ABE evaluator and encoder

Models the second half of `crates/abe/src/eval.rs`.  Error values are not kept.  Scope functions may evaluate text
again (`eval`, `?`, `/e`, ..): the evaluator they are given has one unit less `fuel`, and running out of fuel is an
abort.  Fuel stands for the stack.
-/
namespace Verif.Eval
open Verif Verif.Ast Verif.Abl Verif.Abe Verif.Abtxt

/-- `Result<_, EvalError>` plus `abort` for a panic, an endless loop or stack overflow. -/
inductive ER (α : Type)
  | ok (v : α)
  | err
  | abort
  deriving DecidableEq, Repr

def ER.bind {α β : Type} : ER α → (α → ER β) → ER β
  | .ok v, f => f v
  | .err, _ => .err
  | .abort, _ => .abort
def ER.map {α β : Type} (f : α → β) : ER α → ER β
  | .ok v => .ok (f v)
  | .err => .err
  | .abort => .abort
/-- `From<Result<V, ApplyErr>> for ApplyResult<V>`, `crates/abe/src/eval.rs:408-415`. -/
def ER.toAR {α : Type} : ER α → AR α
  | .ok v => .value v
  | .err => .err
  | .abort => .abort

/-- What a scope function can do with the `scope` argument: evaluate and encode.  `dbg` is
`cfg!(debug_assertions)`. -/
structure Top where
  eval : List ABE → ER ABList
  enc : Bytes → List ABE → Bytes → AR Bytes
  dbg : Bool

/-- `trait Scope`, 445-462 (without `describe`). -/
structure Scope where
  func : Top → Bytes → List Bytes → Bool → AR Bytes
  mac : Top → Bytes → List ABE → AR Bytes
  enc : Bytes → List ABE → Bytes → AR Bytes

/-- `Scope for ()`, 549-571. -/
def Scope.unit : Scope := ⟨fun _ _ _ _ => .noValue, fun _ _ _ => .noValue, fun _ _ _ => .noValue⟩
/-- `Scope for (A, B)`, 693-720.  The triple of 721-746 is `(a.pair b).pair c`. -/
def Scope.pair (a b : Scope) : Scope where
  func top id args init := (a.func top id args init).orElse fun _ => b.func top id args init
  mac top id abe := (a.mac top id abe).orElse fun _ => b.mac top id abe
  enc id opts bytes := (a.enc id opts bytes).orElse fun _ => b.enc id opts bytes

/-- `ScopeFunc` and `ScopeFuncInfo`, 526-538; `toAbe` is `none` when `info.to_abe` is false. -/
structure Fn where
  id : Bytes
  lo : Nat
  hi : Nat
  init : Option Bool := none
  apply : Top → List Bytes → Bool → AR Bytes
  toAbe : Option (Bytes → List ABE → AR Bytes) := none

/-- `EScope::try_apply_func`, 465-484. -/
def tableFunc (fns : List Fn) (top : Top) (id : Bytes) (inp : List Bytes) (init : Bool) : AR Bytes :=
  match fns.find? (fun f => f.id == id) with
  | none => .noValue
  | some f =>
    if f.init.isSome && f.init != some init then .err
    else if f.lo ≤ inp.length ∧ inp.length ≤ f.hi then f.apply top inp init
    else .err

/-- `EScope::try_encode`, 504-511. -/
def tableEnc (fns : List Fn) (id : Bytes) (opts : List ABE) (bytes : Bytes) : AR Bytes :=
  match fns.find? (fun f => f.toAbe.isSome && f.id == id) with
  | some { toAbe := some e, .. } => e bytes opts
  | _ => .noValue

/-- `EScope::try_apply_macro`, 492-502. -/
def tableMac (ms : List (Bytes × (Top → List ABE → AR Bytes))) (top : Top) (id : Bytes) (abe : List ABE) : AR Bytes :=
  match ms.find? (fun m => m.1 == id) with
  | some m => m.2 top abe
  | none => .noValue

/-- `EScope`, 462-512. -/
def table (fns : List Fn) (ms : List (Bytes × (Top → List ABE → AR Bytes))) : Scope :=
  ⟨tableFunc fns, tableMac ms, tableEnc fns⟩

mutual
/-- One item of `dump_abe_bytes`. -/
def dumpOne : ABE → Bytes
  | .ctr c => [c.asChar]
  | .bytes b => b
  | .lst l => 0x5b :: (dumpAbe l ++ [0x5d])
/-- `dump_abe_bytes`, 1076-1090. -/
def dumpAbe : List ABE → Bytes
  | [] => []
  | e :: es => dumpOne e ++ dumpAbe es
end

/-- The inner `call`, 856-872. -/
def call (sc : Scope) (top : Top) (id : Bytes) (args : List Bytes) (init : Bool) : ER Bytes :=
  match sc.func top id (if init then args.drop 1 else args) init with
  | .noValue => .err
  | .value b => .ok b
  | .err => .err
  | .abort => .abort

/-- The loop over `/` separated calls, 878-899. -/
def applySegs (sc : Scope) (top : Top) : Bytes → List ABList → ER Bytes
  | carry, [] => .ok carry
  | carry, seg :: r =>
    if seg.length > 16 then .err
    else
      match seg with
      | [] => .abort
      | (some .colon, b) :: t => applySegs sc top (b ++ t.flatMap (·.2)) r
      | (c, id) :: t => (call sc top id (carry :: t.map (·.2)) c.isNone).bind fun v => applySegs sc top v r

/-- The macro branch, 820-848, after the leading `/`. -/
def macroCall (sc : Scope) (top : Top) : List ABE → ER Bytes
  | [] => .err
  | .lst _ :: _ => .err
  | .ctr .colon :: rest => .ok (dumpAbe rest)
  | .ctr .fslash :: rest => run [] (.ctr .fslash :: rest)
  | .bytes id :: r => run id r
where
  run (id : Bytes) (rest : List ABE) : ER Bytes :=
    match sc.mac top id rest with
    | .noValue => .err
    | .value b => .ok b
    | .err => .err
    | .abort => .abort

/-- The three kinds of bracket the `match` of 818-852 tells apart. -/
inductive Shape
  | mac (tail : List ABE)
  | bad
  | plain
def shape : List ABE → Shape
  | .ctr .fslash :: tail => .mac tail
  | .lst _ :: _ => .bad
  | [.bytes _, .bytes _] => .bad
  | [.bytes _, .lst _] => .bad
  | _ => .plain

mutual
/-- `match_expr`, 807-901. -/
def matchExpr (sc : Scope) (top : Top) : ABE → ER ABItem
  | .ctr c => .ok (.ctr c)
  | .bytes b => .ok (.bytes b)
  | .lst ls =>
    match shape ls with
    | .mac tail => (macroCall sc top tail).map .bytes
    | .bad => .err
    | .plain =>
      (evalItems sc top ls).bind fun is => (applySegs sc top [] (splitFslash (fromItems is))).map .bytes
/-- The mapping of `_eval`, 916-924: the first failure ends it. -/
def evalItems (sc : Scope) (top : Top) : List ABE → ER (List ABItem)
  | [] => .ok []
  | e :: es => (matchExpr sc top e).bind fun i => (evalItems sc top es).map (i :: ·)
end

/-- `eval`, 903-924. -/
def eval (dbg : Bool) (sc : Scope) : Nat → List ABE → ER ABList
  | 0, _ => .abort
  | n + 1, abe => (evalItems sc ⟨eval dbg sc n, sc.enc, dbg⟩ abe).map fromItems

/-- The `scope` argument handed to functions by an evaluation with `n` units of fuel left. -/
def topAt (dbg : Bool) (sc : Scope) (n : Nat) : Top := ⟨eval dbg sc n, sc.enc, dbg⟩

/-- `slice::split`. -/
def splitBy {α : Type} (p : α → Bool) : List α → List (List α)
  | [] => [[]]
  | x :: xs =>
    if p x then [] :: splitBy p xs
    else match splitBy p xs with
      | h :: t => (x :: h) :: t
      | [] => [[x]]

def isFslash : ABE → Bool
  | .ctr .fslash => true
  | _ => false
def isColon : ABE → Bool
  | .ctr .colon => true
  | _ => false

/-- The check after encoding, 976-986: the text must evaluate to the same bytes. -/
def recheck (top : Top) (st bytes : Bytes) : Bool :=
  match parseStrict st with
  | .ok abe =>
    match top.eval abe with
    | .ok l => asExactBytes l == some bytes
    | _ => false
  | .error _ => false

/-- The `match scope_opts` of 961-974. -/
inductive Opt
  | text
  | bad
  | fn (id : Bytes) (args : List ABE)
def optOf : List ABE → Opt
  | [.ctr .colon] => .fn [] []
  | [] => .text
  | [.bytes b] => .fn b []
  | .bytes b :: .ctr .colon :: rest => .fn b rest
  | _ => .bad

/-- The loop of `encode_abe`, 960-999. -/
def encLoop (top : Top) (bytes : Bytes) (ignore : Bool) : List (List ABE) → ER Bytes
  | [] => .err
  | seg :: r =>
    match optOf seg with
    | .text => .ok (asAbtxt bytes)
    | .bad => .err
    | .fn id args =>
      match top.enc id args bytes with
      | .noValue => encLoop top bytes ignore r
      | .value st => if top.dbg && !recheck top st bytes then .abort else .ok st
      | .err => if ignore then encLoop top bytes ignore r else .err
      | .abort => .abort

/-- `encode_abe`, 950-1000. -/
def encodeAbe (top : Top) (bytes : Bytes) (opts : List ABE) (ignore : Bool) : ER Bytes :=
  encLoop top bytes ignore (if opts.isEmpty then [] else splitBy isFslash opts)

/-- `encode`, 941-949. -/
def encode (top : Top) (bytes opts : Bytes) (ignore : Bool) : ER Bytes :=
  match parseStrict opts with
  | .ok l => encodeAbe top bytes l ignore
  | .error _ => .err

/-- `lk_encode`, `crates/linkspace/src/lib.rs:366-370` with `varscope::lk_try_encode`, 1139-1151. -/
def lkEncode (dbg : Bool) (sc : Scope) (n : Nat) (bytes opts : Bytes) : ER Bytes :=
  match encode (topAt dbg sc n) bytes opts true with
  | .ok st => .ok st
  | .err => .ok (asAbtxt bytes)
  | .abort => .abort

/-- `lk_eval`, `crates/linkspace/src/lib.rs:1133-1137` (strict). -/
def lkEval (dbg : Bool) (sc : Scope) (n : Nat) (expr : Bytes) : ER Bytes :=
  match parseStrict expr with
  | .ok abe => (eval dbg sc n abe).map concat
  | .error _ => .err

end Verif.Eval
