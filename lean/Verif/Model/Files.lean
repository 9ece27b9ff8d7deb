import Verif.Model.Eval
import Verif.Model.Packet
/-!
# The files directory (`crates/common/src/eval/file.rs`)

The file system has no symbolic links, mounts or other processes.  Every call on it may fail for any other reason (`Io`); a failed call
changes nothing, but a failed write may have written a part.  Paths are those of Unix.
-/
namespace Verif.Files
open Verif

inductive Entry where
  | file (data : Bytes)
  | dir
deriving DecidableEq

/-- What is at a list of names from the root. -/
abbrev Fs := List Bytes → Option Entry

def Fs.put (fs : Fs) (p : List Bytes) (e : Entry) : Fs := fun q => if q = p then some e else fs q

/-- `std::path::Component`. -/
inductive Comp where
  | root
  | cur
  | parent
  | normal (name : Bytes)
deriving DecidableEq

/-- The errors; `refused` is the one of `check_path`. -/
inductive FsErr where
  | notFound
  | found
  | notDir
  | isDir
  | other
  | refused
deriving DecidableEq

/-- `Components::parse_single_component` of the standard library. -/
def single (s : Bytes) : Option Comp :=
  if s = [] then none
  else if s = ascii "." then none
  else if s = ascii ".." then some .parent
  else some (.normal s)

/-- The parts between slashes. -/
def segments (p : Bytes) : List Bytes := Eval.splitBy (· == 0x2f) p

/-- `Path::components` of the standard library: the root, or a leading `.` (`include_cur_dir`), and the parts. -/
def components (p : Bytes) : List Comp :=
  if p.head? = some 0x2f then .root :: (segments (p.drop 1)).filterMap single
  else if p.head? = some 0x2e ∧ ((p.drop 1).head? = none ∨ (p.drop 1).head? = some 0x2f) then .cur :: (segments (p.drop 1)).filterMap single
  else (segments p).filterMap single

/-- `Path::join` of the standard library: an absolute path replaces. -/
def join (a b : Bytes) : Bytes :=
  if b.head? = some 0x2f then b
  else if a = [] ∨ a.getLast? = some 0x2f then a ++ b
  else a ++ 0x2f :: b

def Comp.isNormal : Comp → Bool
  | .normal _ => true
  | _ => false

/-- `check_path`, `file.rs:87-95`. -/
def checkPath (p : Bytes) : Except FsErr Bytes :=
  match (components p).find? (fun c => !c.isNormal) with
  | some _ => .error .refused
  | none => .ok p

/-- What the kernel makes of one part of a path. -/
def raw (s : Bytes) : Comp := (single s).getD .cur
def rawComps (p : Bytes) : List Comp := (if p.head? = some 0x2f then [.root] else []) ++ (segments p).map raw

/-- One step of the kernel from a directory. -/
def step (p : List Bytes) : Comp → List Bytes
  | .root => []
  | .cur => p
  | .parent => p.dropLast
  | .normal n => p ++ [n]

/-- Path resolution of the kernel: all but the last must be directories. -/
def walk (fs : Fs) : List Bytes → List Comp → Except FsErr (List Bytes)
  | p, [] => .ok p
  | p, c :: cs =>
    if c = .root then walk fs [] cs
    else match fs p with
      | none => .error .notFound
      | some (.file _) => .error .notDir
      | some .dir => walk fs (step p c) cs

/-- The calls that fail for other reasons: to create a directory, the first or second time; to open; to write, after how many bytes; to read. -/
structure Io where
  mkdir : Bool → List Comp → Bool := fun _ _ => false
  openFile : Bool := false
  write : Option Nat := none
  read : Bool := false

def Comp.hasNul : Comp → Bool
  | .normal n => n.contains 0
  | _ => false

/-- `mkdir`.  The standard library refuses a path with a zero byte. -/
def mkdir (io : Io) (again : Bool) (cwd : List Bytes) (fs : Fs) (cs : List Comp) : Fs × Except FsErr Unit :=
  if io.mkdir again cs || cs.any Comp.hasNul then (fs, .error .other)
  else match walk fs cwd cs with
    | .error e => (fs, .error e)
    | .ok p =>
      match fs p with
      | some _ => (fs, .error .found)
      | none => (fs.put p .dir, .ok ())

/-- `Path::is_dir`. -/
def isDir (cwd : List Bytes) (fs : Fs) (cs : List Comp) : Bool :=
  !cs.any Comp.hasNul && (match walk fs cwd cs with
    | .error _ => false
    | .ok p => fs p == some .dir)

/-- `create_dir_all` of the standard library (`DirBuilder::create_dir_all`), on the reversed components; a path without a parent is empty or
the root. -/
def createDirAll (io : Io) (cwd : List Bytes) (fs : Fs) : List Comp → Fs × Except FsErr Unit
  | [] => (fs, .ok ())
  | c :: up =>
    match mkdir io false cwd fs (c :: up).reverse with
    | (fs, .ok ()) => (fs, .ok ())
    | (fs, .error .notFound) =>
      if c = .root then (fs, .error .other)
      else match createDirAll io cwd fs up with
        | (fs, .error e) => (fs, .error e)
        | (fs, .ok ()) =>
          match mkdir io true cwd fs (c :: up).reverse with
          | (fs, .ok ()) => (fs, .ok ())
          | (fs, .error e) => if isDir cwd fs (c :: up).reverse then (fs, .ok ()) else (fs, .error e)
    | (fs, .error e) => if isDir cwd fs (c :: up).reverse then (fs, .ok ()) else (fs, .error e)

/-- `Path::parent` of the standard library, on the components; what remains is the same path to the kernel. -/
def parentOf (cs : List Comp) : Option (List Comp) :=
  match cs.getLast? with
  | none => none
  | some .root => none
  | some _ => some cs.dropLast

/-- Opening for writing, `file.rs:54-65`: `create` and `truncate`, or `create_new`. -/
def openWrite (io : Io) (cwd : List Bytes) (fs : Fs) (path : Bytes) (overwrite : Bool) : Fs × Except FsErr (List Bytes) :=
  if io.openFile || path.contains 0 || path.isEmpty then (fs, .error .other)
  else match walk fs cwd (rawComps path) with
    | .error e => (fs, .error e)
    | .ok p =>
      match fs p with
      | some .dir => (fs, .error .isDir)
      | some (.file _) => if overwrite then (fs.put p (.file []), .ok p) else (fs, .error .found)
      | none => (fs.put p (.file []), .ok p)

/-- `files`, `crates/common/src/runtime/rx.rs:70-72` and 87: always set. -/
def filesDir (loc : Bytes) : Bytes := join loc (ascii "files")

/-- `Linkspace::set_files_data`, `file.rs:46-70`; `loc` is the path of the database. -/
def setFiles (io : Io) (cwd : List Bytes) (loc : Bytes) (fs : Fs) (path bytes : Bytes) (overwrite : Bool) : Fs × Except (Fault FsErr) Unit :=
  match checkPath path with
  | .error e => (fs, .error (.err e))
  | .ok path =>
    let path := join (filesDir loc) path
    match parentOf (components path) with
    | none => (fs, .error .panic)
    | some up =>
      match createDirAll io cwd fs up.reverse with
      | (fs, .error e) => (fs, .error (.err e))
      | (fs, .ok ()) =>
        match openWrite io cwd fs path overwrite with
        | (fs, .error e) => (fs, .error (.err e))
        | (fs, .ok p) =>
          match io.write with
          | none => (fs.put p (.file bytes), .ok ())
          | some k => (fs.put p (.file (bytes.take k)), .error (.err .other))

/-- `std::fs::read`. -/
def readFile (io : Io) (cwd : List Bytes) (fs : Fs) (path : Bytes) : Except FsErr Bytes :=
  if io.read || path.contains 0 then .error .other
  else if path.isEmpty then .error .notFound
  else match walk fs cwd (rawComps path) with
    | .error e => .error e
    | .ok p =>
      match fs p with
      | none => .error .notFound
      | some .dir => .error .isDir
      | some (.file b) => .ok b

/-- `Linkspace::files_data`, `file.rs:73-86`. -/
def filesData (io : Io) (cwd : List Bytes) (loc : Bytes) (fs : Fs) (path : Bytes) (notfoundErr : Bool) : Except FsErr (Option Bytes) :=
  match checkPath path with
  | .error e => .error e
  | .ok path =>
    match readFile io cwd fs (join (filesDir loc) path) with
    | .ok b => .ok (some b)
    | .error e => if !notfoundErr && e == .notFound then .ok none else .error e

/-- The function `files`, `file.rs:28-31`; `utf8` tells whether bytes are a valid string. -/
def filesFunc (utf8 : Bytes → Bool) (io : Io) (cwd : List Bytes) (loc : Bytes) (fs : Fs) (arg : Bytes) : Except (Fault FsErr) Bytes :=
  if ¬ utf8 arg then .error (.err .refused)
  else match filesData io cwd loc fs arg true with
    | .error e => .error (.err e)
    | .ok none => .error .panic
    | .ok (some b) => .ok b

end Verif.Files
