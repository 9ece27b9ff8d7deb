import Verif.Model.PktScope
import Verif.Model.Votes
import Verif.Model.Local
/-!
# Reading packets in expressions

Models `crates/common/src/eval/mod.rs` (not `file`) and `crates/abe/src/scope/argv.rs`.  Opening the instance (`lk()`) is
taken to succeed.
-/
namespace Verif.Tpl
open Verif Verif.Ast Verif.Abl Verif.Abe Verif.Abtxt Verif.Num Verif.Fit Verif.Pkt Verif.Eval Verif.Env Verif.Repr

/-- What the functions see of the world: the store, the clock and the variables of the process.  `lkPrivate` is
`LK_PRIVATE` parsed as a `bool`, `none` if it is unset or neither. -/
structure Outside where
  db : Db
  now : Nat
  lkPrivate : Option Bool
  vars : Bytes → Option Bytes

/-- The function `readhash`, `crates/common/src/eval/mod.rs:120-136`.  `&*pkt` is the packet without its stamp of arrival. -/
def readhashFn (k : PktParams) (ev : Ev) (d : Dyn) (o : Outside) (top : Top) (inp : List Bytes) : AR Bytes :=
  match fit 32 (inp.headD []) with
  | none => .err
  | some hash =>
    match o.db.read hash with
    | none => .err
    | some e =>
      let c := pktScope k ev d ⟨e.2, none, o.now⟩
      match inp.drop 1 with
      | [] => c.func top (ascii "pkt") [] true
      | id :: args => c.func top id args true

/-- The key of `read`, 89-93: an argument that may be absent. -/
def keyArg : Option Bytes → Option Bytes
  | none => some (List.replicate 32 0)
  | some v => b64Fit 32 v

/-- `Space::from_slice` and `try_into_rooted`, 88. -/
def rootArg (dbg : Bool) (sp : Bytes) : ER Bytes :=
  match Space.checkComponents sp with
  | .error _ => .err
  | .ok _ =>
    match Pred.root dbg sp with
    | .ok r => .ok r
    | .error (.err _) => .err
    | .error .panic => .abort

/-- `read_dgpk`, 72-109.  The group always is there: `read` takes at least two arguments. -/
def readFn (k : PktParams) (ev : Ev) (d : Dyn) (o : Outside) (top : Top) (inp : List Bytes) : AR Bytes :=
  match fitBack 0 16 (inp.headD []), b64Fit 32 (inp.getD 1 []) with
  | some domain, some group =>
    if group = privateGroup ∧ o.lkPrivate ≠ some true then .err
    else
      match rootArg top.dbg (inp.getD 2 []), keyArg inp[3]? with
      | .abort, _ => .abort
      | .ok rspace, some key =>
        match Query.queryFirst o.db false (Lns.dgsk domain group rspace key) with
        | .error _ => .abort
        | .ok none => .err
        | .ok (some e) =>
          match (pktScope k ev d ⟨e.2, none, o.now⟩).func top (inp.getD 4 (ascii "pkt")) (inp.drop 5) true with
          | .noValue => .err
          | r => r
      | _, _ => .err
  | _, _ => .err

/-- The functions of `ReadHash`, 118-147. -/
def readFns (k : PktParams) (ev : Ev) (d : Dyn) (o : Outside) : List Fn := [
  { id := ascii "readhash", lo := 1, hi := 16, apply := fun top i _ => readhashFn k ev d o top i },
  { id := ascii "read", lo := 2, hi := 16, apply := fun top i _ => readFn k ev d o top i }]

/-- The macro `readhash`, 149-181: the packet goes behind the scope, and stays with its stamp of arrival. -/
def readMac (ev : Ev) (d : Dyn) (o : Outside) (abe : List ABE) : AR Bytes :=
  match splitBy isColon abe with
  | [] :: h :: expr :: more =>
    (((ev d h).map concat).bind fun hash =>
      match fit 32 hash with
      | none => .err
      | some hash =>
        match o.db.read hash with
        | none =>
          match more with
          | alt :: _ :: _ => (ev d alt).map concat
          | _ => .err
        | some e => (ev { d with post := d.post ++ [.pkt ⟨e.2, some e.1, o.now⟩] } expr).map concat).toAR
  | _ => .err

/-- `ReadHash`, 111-182. -/
def readScope (k : PktParams) (ev : Ev) (d : Dyn) (o : Outside) : Scope :=
  table (readFns k ev d o) [(ascii "readhash", fun _ abe => readMac ev d o abe)]

/-- `OSEnv`, 187-210. -/
def envFns (o : Outside) : List Fn := [
  { id := ascii "env", lo := 1, hi := 1, apply := fun _ i _ => .ofOption (o.vars (i.headD [])) }]

/-- `ArgV`, `crates/abe/src/scope/argv.rs:13-72`. -/
def argvFns (args : List Bytes) : List Fn :=
  (List.range 8).map fun i => { id := dec i, lo := 0, hi := 0, init := some true, apply := fun _ _ _ => .ofOption args[i]? }
/-- `ArgV::try_fit`, 15-17. -/
def argvScope (args : List Bytes) : Option Scope := if args.length ≤ 8 then some (table (argvFns args) []) else none

/-- `ArgList`, 75-139. -/
def argList (lst : List Bytes) : Scope where
  func _ id args init :=
    if id = ascii "argv" then
      match slice lst args with
      | .value r => .value r.flatten
      | .err => .err
      | .noValue => .noValue
      | .abort => .abort
    else
      match parseUsize id with
      | none => .noValue
      | some i => if args ≠ [] ∨ init = false then .err else .ofOption lst[i]?
  mac _ _ _ := .noValue
  enc _ _ _ := .noValue

/-- `lk_scope`, `crates/common/src/eval/mod.rs:49-67`.  `names` stands for the two scopes of names, `files` for `FileEnv`. -/
def lkBase (k : PktParams) (p : Params) (names : Ev → Dyn → Scope) (files : Scope) (enableEnv : Bool) (o : Outside) (ev : Ev) (d : Dyn) : Scope :=
  (coreScope p).pair ((names ev d).pair ((files.pair (readScope k ev d o)).pair (if enableEnv then table (envFns o) [] else .unit)))

/-- The scope of `lk_eval` but for the packet, `crates/linkspace/src/lib.rs:509-534`: the arguments come last. -/
def withArgs (base : Ev → Dyn → Scope) : Option Scope → Ev → Dyn → Scope
  | none, ev, d => (base ev d).pair .unit
  | some a, ev, d => (base ev d).pair a

/-- `eval` of a text in a stack of frames. -/
def evalText (dbg : Bool) (k : PktParams) (base : Ev → Dyn → Scope) (n : Nat) (d : Dyn) (expr : Bytes) : ER Bytes :=
  match parseStrict expr with
  | .ok abe => (evalD dbg k base n d abe).map concat
  | .error _ => .err

end Verif.Tpl
