import Verif.Model.Query
/-!
# The options of a query

Models `crates/abe/src/abconf.rs` and the options of `crates/core/src/query.rs`.
-/
namespace Verif.Opt
open Verif Verif.Ast Verif.Abl Verif.Pkt Verif.Pred Verif.Query

/-- `ABConf`, `crates/abe/src/abconf.rs:19`: the lists in the order they were added. -/
abbrev Conf := List ABList

/-- The filter of `get_inner`, 88-97. -/
def startsWith (sw : List Bytes) (a : ABList) : Bool :=
  decide (sw.length ≤ a.length) && (sw.zip (iterBytes a)).all fun p => p.1 == p.2
/-- `get_inner`, 84-98: the newest first. -/
def getInner (c : Conf) (sw : List Bytes) : List ABList := c.reverse.filter (startsWith sw)

/-- `get_checked`, 69-83; an entry with a `/` among the first is an error. -/
def checked (n : Nat) (o : ABList) : Except ABList ABList :=
  if (o.take n).all (fun e => e.1 == none || e.1 == some .colon) then .ok o else .error o
def getChecked (c : Conf) (sw : List Bytes) : List (Except ABList ABList) := (getInner c sw).map (checked sw.length)

/-- `has_optional_value`, 55-67, with the `Option` inside the `Result` as after `transpose` in `get_option`.
`starts_with.len() - 1` overflows when there is nothing to look for. -/
def hasOptionalValue (c : Conf) (sw : List Bytes) : Except (Fault ABList) (Option (Option Bytes)) :=
  match (getChecked c sw).head? with
  | none => .ok none
  | some (.error l) => .error (.err l)
  | some (.ok l) =>
    if sw = [] then .error .panic
    else match l.drop (sw.length - 1) with
      | [(some .colon, b)] => .ok (some (some b))
      | [] => .ok (some none)
      | _ => .error (.err l)

/-- `get_option`, `crates/core/src/query.rs:118-123`. -/
def getOption (c : Conf) (name : Bytes) : Except (Fault ABList) (Option (Option Bytes)) := hasOptionalValue c [[], name]

/-- `add_option`, 94-101. -/
def addOption (c : Conf) (name : Bytes) (values : List Bytes) : Conf :=
  c ++ [(some .colon, name) :: values.map fun v => (some .colon, v)]

/-- `add_option_abl`, 103-110; `opt[0]` panics on an empty list. -/
def addOptionAbl (c : Conf) (opt : ABList) : PRes Conf :=
  match opt with
  | [] => .error .panic
  | (some _, _) :: _ => .ok (c ++ [opt])
  | (none, _) :: _ => .error (.err ())

/-- The result of the function `opt` of the scope of a query, 198-208; `none` is the error. -/
def optFn (c : Conf) (name : Bytes) : Except (Fault Unit) Bytes :=
  match getOption c name with
  | .error .panic => .error .panic
  | .error (.err _) => .error (.err ())
  | .ok none => .error (.err ())
  | .ok (some v) => .ok (v.getD [])

/-- `Display for ABConf`, `crates/abe/src/abconf.rs:111-118`: the newest first, one on each line. -/
def displayConf (c : Conf) : Bytes := c.reverse.flatMap fun l => display l ++ [0x0a]

/-- `[u8]::split` at newlines. -/
def splitLines : Bytes → List Bytes
  | [] => [[]]
  | c :: r => if c = 0x0a then [] :: splitLines r else match splitLines r with
    | l :: ls => (c :: l) :: ls
    | [] => [[c]]

/-- `try_from`, 99-109; the texts of the errors are not kept. -/
def stripPrefix (p s : Bytes) : Option Bytes := if p.isPrefixOf s then some (s.drop p.length) else none
def confOf (s : Bytes) : Option Conf :=
  let body := match stripPrefix (ascii ":%") s with
    | some r => stripPrefix (ascii "abctxt\n") r
    | none => some s
  match body with
  | none => none
  | some b => ((splitLines b).mapM parseAblist).map List.reverse

/-! ### the mode -/

/-- `Display` in lower case and `{table}-{order}`. -/
def tableText : TableName → Bytes
  | .hash => ascii "hash"
  | .tree => ascii "tree"
  | .log => ascii "log"
def orderText (asc : Bool) : Bytes := if asc then ascii "asc" else ascii "desc"
def modeText (m : Mode) : Bytes := tableText m.table ++ 0x2d :: orderText m.asc

/-- `FromStr` of `parse_display`: the text is cut at the first `-`.  The names have no `-`, so the place where the
macro's regular expression cuts does not matter. -/
def tableOf (s : Bytes) : Option TableName :=
  if s = ascii "hash" then some .hash else if s = ascii "tree" then some .tree else if s = ascii "log" then some .log else none
def orderOf (s : Bytes) : Option Bool := if s = ascii "asc" then some true else if s = ascii "desc" then some false else none
def modeOf (s : Bytes) : Option Mode :=
  match (s.takeWhile (· != 0x2d), s.dropWhile (· != 0x2d)) with
  | (a, _ :: b) => (tableOf a).bind fun t => (orderOf b).map fun o => ⟨t, o⟩
  | (_, []) => none

/-- `mode` and `get_mode`, `crates/core/src/query.rs:127-135`; the default is the tree, newest first. -/
def mode (c : Conf) : PRes (Option Mode) :=
  match getOption c (ascii "mode") with
  | .error .panic => .error .panic
  | .error (.err _) => .error (.err ())
  | .ok (some (some v)) =>
    match modeOf v with
    | some m => .ok (some m)
    | none => .error (.err ())
  | .ok _ => .ok none
def getMode (c : Conf) : PRes Mode :=
  match mode c with
  | .ok o => .ok (o.getD Mode.default)
  | .error e => .error e

end Verif.Opt
