import Verif.Model.Name
import Verif.Model.CliData
/-!
# Opening databases, and the defaults of a thread

Models `crates/common/src/static_env.rs`, `crates/common/src/thread_local.rs` and `lk_open`.  Paths are byte strings.
-/
namespace Verif.Defs
open Verif Verif.Pred

abbrev Path := Bytes

/-- What `LK_GROUP` or `LK_DOMAIN` holds, `crates/common/src/thread_local.rs:28-45` and 76-93: nothing, no UTF-8, an expression that needs no linkspace with its value (`none` if it cannot be
parsed or evaluated), or one that needs a linkspace with its value by the session it is read from. -/
inductive LkVar where
  | absent
  | notUtf8
  | plain (v : Option Bytes)
  | named (v : Nat → Option Bytes)

/-- What a process meets: its variables, which databases can be opened, and what `create_dir_all` makes of the directories that there are. -/
structure World where
  lkDir : Option Path
  home : Option Path
  opens : Path → Bool → Bool
  creates : (Path → Option Nat) → Path → Option (Path → Option Nat)
  group : LkVar
  domain : LkVar

/-- A process: the directories that the paths lead to (`same_file::Handle`, a number), `ENVS`, `crates/common/src/static_env.rs:17`, and the numbers of sessions and runtimes so far. -/
structure Proc where
  fs : Path → Option Nat
  envs : List (Nat × Nat) := []
  sessions : Nat := 0
  runtimes : Nat := 0

/-- A runtime (`Linkspace`) and the session it uses. -/
structure Runtime where
  id : Nat
  session : Nat
  deriving DecidableEq

/-- The thread locals `GROUP` and `DOMAIN`, `crates/common/src/thread_local.rs:7` and 53, `LINKSPACE`, `crates/common/src/static_env.rs:20`, and `LK_EVAL_SCOPE_RT`, `crates/linkspace/src/lib.rs:394-396`. -/
structure Thread where
  group : Option Bytes := none
  domain : Option Bytes := none
  lk : Option Runtime := none
  scope : Option Runtime := none

/-! ### sessions -/

/-- The handle of a directory, `crates/common/src/static_env.rs:24-31`. -/
def handleOf (w : World) (p : Proc) (path : Path) (mkdir : Bool) : PRes Nat × Proc :=
  match p.fs path with
  | some h => (.ok h, p)
  | none =>
    if mkdir then
      match w.creates p.fs path with
      | none => (.error (.err ()), p)
      | some fs =>
        match fs path with
        | none => (.error (.err ()), { p with fs })
        | some h => (.ok h, { p with fs })
    else (.error (.err ()), p)

/-- Whether `ENVS` has the handle, 32-39. -/
def lookEnv (p : Proc) (h : Nat) : Option Nat := (p.envs.find? (·.1 == h)).map (·.2)
/-- `BTreeEnv::open`, 40, as a new session. -/
def openEnv (w : World) (p : Proc) (path : Path) (mkdir : Bool) : PRes Nat × Proc :=
  if w.opens path mkdir then (.ok p.sessions, { p with sessions := p.sessions + 1 }) else (.error (.err ()), p)
/-- The insertion, 41-44, which replaces what the handle had. -/
def insertEnv (p : Proc) (h e : Nat) : Proc := { p with envs := (h, e) :: p.envs.filter (·.1 != h) }

/-- `get_env`, 22-46, when no other thread is in it. -/
def getEnv (w : World) (p : Proc) (path : Path) (mkdir : Bool) : PRes Nat × Proc :=
  match handleOf w p path mkdir with
  | (.error e, p) => (.error e, p)
  | (.ok h, p) =>
    match lookEnv p h with
    | some e => (.ok e, p)
    | none =>
      match openEnv w p path mkdir with
      | (.error e, p) => (.error e, p)
      | (.ok e, p) => (.ok e, insertEnv p h e)

/-- Where a thread is in `get_env`: outside, after the table did not have the handle, or after opening. -/
inductive At where
  | out
  | looked (h : Nat) (path : Path) (mkdir : Bool)
  | opened (h e : Nat)

/-- What the next step of a thread is: it enters with these arguments and goes on until the table was read; it opens; or it inserts. -/
inductive Move where
  | enter (path : Path) (mkdir : Bool)
  | go

/-- One step of `get_env` on a thread: the process, where the thread is then, and the handle and the session if it returns one. -/
def moveEnv (w : World) (p : Proc) : At → Move → Proc × At × Option (Nat × Nat)
  | .out, .enter path mkdir =>
    match handleOf w p path mkdir with
    | (.error _, p) => (p, .out, none)
    | (.ok h, p) =>
      match lookEnv p h with
      | some e => (p, .out, some (h, e))
      | none => (p, .looked h path mkdir, none)
  | .looked h path mkdir, .go =>
    match openEnv w p path mkdir with
    | (.error _, p) => (p, .out, none)
    | (.ok e, p) => (p, .opened h e, none)
  | .opened h e, .go => (insertEnv p h e, .out, some (h, e))
  | a, _ => (p, a, none)

/-- The steps of threads in any order: what the calls returned. -/
def moves (w : World) : Proc → (Nat → At) → List (Nat × Move) → List (Nat × Nat)
  | _, _, [] => []
  | p, a, (n, m) :: l =>
    let (p, b, r) := moveEnv w p (a n) m
    r.toList ++ moves w p (fun k => if k = n then b else a k) l

/-! ### directories and runtimes -/

/-- `PathBuf::join` with a relative path. -/
def joinPath (a b : Path) : Path := if a = [] ∨ a.getLast? = some 47 then a ++ b else a ++ 47 :: b

/-- `lk_dir`, `crates/common/src/static_env.rs:48-59`. -/
def lkDirOf (w : World) (root : Option Path) : PRes Path :=
  match (root.or w.lkDir).or (w.home.map (joinPath · (ascii "linkspace"))) with
  | some p => .ok p
  | none => .error (.err ())

/-- The path of `open_linkspace_dir`, 63-71. -/
def dirArg (w : World) : Option Path → PRes Path
  | some q => .ok q
  | none => lkDirOf w none

/-- `open_linkspace_dir`, 62-75; `new_opt_rt` makes a runtime. -/
def openDir (w : World) (p : Proc) (t : Thread) (path : Option Path) (create : Bool) : PRes Runtime × Proc × Thread :=
  match dirArg w path with
  | .error e => (.error e, p, t)
  | .ok q =>
    match getEnv w p q create with
    | (.error e, p) => (.error e, p, t)
    | (.ok e, p) =>
      let r : Runtime := ⟨p.runtimes, e⟩
      (.ok r, { p with runtimes := p.runtimes + 1 }, { t with lk := t.lk.or (some r) })

/-- `get_lk`, 78-84; also `runtime_io` of a command line, `crates/common/src/cli/opts.rs:58-60`. -/
def getLk (w : World) (p : Proc) (t : Thread) (path : Option Path) (create : Bool) : PRes Runtime × Proc × Thread :=
  match t.lk with
  | some r => (.ok r, p, t)
  | none => openDir w p t path create

/-- `lk_open`, `crates/linkspace/src/lib.rs:780-787`. -/
def lkOpen (w : World) (p : Proc) (t : Thread) (path : Option Path) (create : Bool) : PRes Runtime × Proc × Thread :=
  match openDir w p t path create with
  | (.error e, p, t) => (.error e, p, t)
  | (.ok r, p, t) => (.ok r, p, { t with scope := t.scope.or (some r) })

/-! ### the group and the domain -/

/-- `set_group`, `crates/common/src/thread_local.rs:8-14`. -/
def setGroup (t : Thread) (g : Bytes) : PRes Unit × Thread :=
  match t.group with
  | none => (.ok (), { t with group := some g })
  | some x => (if x = g then .ok () else .error .panic, t)
/-- `set_domain`, 56-62. -/
def setDomain (t : Thread) (d : Bytes) : PRes Unit × Thread :=
  match t.domain with
  | none => (.ok (), { t with domain := some d })
  | some x => (if x = d then .ok () else .error .panic, t)

/-- The closures of `group`, 28-45, and `domain`, 76-93: the value of the variable, or the default. -/
def evalVar (w : World) (p : Proc) (t : Thread) (v : LkVar) (dflt : Bytes) : PRes Bytes × Proc × Thread :=
  match v with
  | .absent => (.ok dflt, p, t)
  | .notUtf8 => (.error .panic, p, t)
  | .plain none => (.error .panic, p, t)
  | .plain (some b) => (.ok b, p, t)
  | .named f =>
    match t.lk with
    | some r => ((match f r.session with | some b => .ok b | none => .error .panic), p, t)
    | none =>
      match openDir w p t none false with
      | (.error _, p, t) => (.error .panic, p, t)
      | (.ok r, p, t) => ((match f r.session with | some b => .ok b | none => .error .panic), p, t)

/-- `group`, 19-46.  If the closure panics the cell stays empty. -/
def group (w : World) (p : Proc) (t : Thread) : PRes Bytes × Proc × Thread :=
  match t.group with
  | some g => (.ok g, p, t)
  | none =>
    match evalVar w p t w.group Lns.publicGroup with
    | (.error e, p, t) => (.error e, p, t)
    | (.ok g, p, t) => (.ok g, p, { t with group := some g })
/-- `domain`, 67-94. -/
def domain (w : World) (p : Proc) (t : Thread) : PRes Bytes × Proc × Thread :=
  match t.domain with
  | some d => (.ok d, p, t)
  | none =>
    match evalVar w p t w.domain (List.replicate 16 0) with
    | (.error e, p, t) => (.error e, p, t)
    | (.ok d, p, t) => (.ok d, p, { t with domain := some d })

/-! ### the calls of the threads of a process, one at a time -/

inductive Op where
  | setGroup (g : Bytes)
  | group
  | setDomain (d : Bytes)
  | domain
  | openDir (path : Option Path) (create : Bool)
  | getLk (path : Option Path) (create : Bool)
  | lkOpen (path : Option Path) (create : Bool)

/-- A call on a thread, or someone changes which directories there are. -/
inductive Ev where
  | call (n : Nat) (op : Op)
  | files (fs : Path → Option Nat)

inductive Out where
  | done
  | bytes (b : Bytes)
  | runtime (r : Runtime)
  | fail (e : Fault Unit)

structure State where
  proc : Proc
  thread : Nat → Thread

def Out.ofBytes : PRes Bytes → Out
  | .ok b => .bytes b
  | .error e => .fail e
def Out.ofUnit : PRes Unit → Out
  | .ok _ => .done
  | .error e => .fail e
def Out.ofRt : PRes Runtime → Out
  | .ok r => .runtime r
  | .error e => .fail e

/-- A call on a thread. -/
def callOp (w : World) (p : Proc) (t : Thread) : Op → Out × Proc × Thread
  | .setGroup g => let (r, t) := Defs.setGroup t g; (.ofUnit r, p, t)
  | .setDomain d => let (r, t) := Defs.setDomain t d; (.ofUnit r, p, t)
  | .group => let (r, p, t) := Defs.group w p t; (.ofBytes r, p, t)
  | .domain => let (r, p, t) := Defs.domain w p t; (.ofBytes r, p, t)
  | .openDir q c => let (r, p, t) := Defs.openDir w p t q c; (.ofRt r, p, t)
  | .getLk q c => let (r, p, t) := Defs.getLk w p t q c; (.ofRt r, p, t)
  | .lkOpen q c => let (r, p, t) := Defs.lkOpen w p t q c; (.ofRt r, p, t)

def stepEv (w : World) (s : State) : Ev → Out × State
  | .files fs => (.done, { s with proc := { s.proc with fs } })
  | .call n op =>
    let (o, p, t) := callOp w s.proc (s.thread n) op
    (o, ⟨p, fun k => if k = n then t else s.thread k⟩)

/-- What happens, with the output of each call and the state after it. -/
def history (w : World) : State → List Ev → List (Ev × Out × State)
  | _, [] => []
  | s, e :: l => (e, stepEv w s e) :: history w (stepEv w s e).2 l

/-- A process at its start. -/
def fresh (fs : Path → Option Nat) : State := ⟨{ fs }, fun _ => {}⟩

end Verif.Defs
