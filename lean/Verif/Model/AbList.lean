import Verif.Model.Ast
/-!
# Evaluated lists

Models the `ABList` half of `crates/abe/src/eval.rs` and `parse_ablist_b` of `crates/abe/src/abconf.rs`.
-/
namespace Verif.Abl
open Verif Verif.Ast Verif.Abtxt

/-- `ABLV`, `crates/abe/src/eval.rs:52`. -/
abbrev ABLV := Option Ctr × Bytes
/-- `ABList`, 50-51.  The Rust comment asks every entry but the first to have a delimiter; nothing enforces it. -/
abbrev ABList := List ABLV

/-- `ABItem`, 28-31. -/
inductive ABItem
  | ctr (c : Ctr)
  | bytes (b : Bytes)
  deriving DecidableEq, Repr

/-- `From<ABItem> for ABE`, 32-39. -/
def ABItem.toAbe : ABItem → ABE
  | .ctr c => .ctr c
  | .bytes b => .bytes b

/-- `as_str`, 20-26. -/
def asStr : Option Ctr → Bytes
  | some c => [c.asChar]
  | none => []

/-- `From<Vec<u8>> for ABList`, 59-63. -/
def ofBytes (b : Bytes) : ABList := [(none, b)]

/-- `push_bytes`, 181-187. -/
def pushBytes (l : ABList) (b : Bytes) : ABList :=
  match l.getLast? with
  | some (c, v) => l.dropLast ++ [(c, v ++ b)]
  | none => [(none, b)]
/-- `push_ctr`, 188-191. -/
def pushCtr (l : ABList) (c : Ctr) : ABList := l ++ [(some c, [])]
/-- `push`, 175-180. -/
def push (l : ABList) : ABItem → ABList
  | .ctr c => pushCtr l c
  | .bytes b => pushBytes l b
/-- `FromIterator<ABItem>`, 90-94. -/
def fromItems (is : List ABItem) : ABList := is.foldl push []
/-- `items`/`item_refs`, 154-171. -/
def items (l : ABList) : List ABItem :=
  l.flatMap fun e => (e.1.map ABItem.ctr).toList ++ (if e.2.isEmpty then [] else [.bytes e.2])
/-- `From<ABList> for Vec<ABE>`, 64-68. -/
def toAbe (l : ABList) : List ABE := (items l).map ABItem.toAbe

/-- `delmited_ablist`, 101-113. -/
def delimited (es : List Bytes) (d : Ctr) : ABList :=
  match es.map (fun b => ((some d : Option Ctr), b)) with
  | [] => []
  | (_, b) :: r => (none, b) :: r
/-- `clist`, 95-97. -/
def clist (es : List Bytes) : ABList := delimited es .colon
/-- `flist`, 98-100. -/
def flist (es : List Bytes) : ABList := delimited es .fslash

/-- `Display for ABList`, 115-123. -/
def display (l : ABList) : Bytes := l.flatMap fun e => asStr e.1 ++ asAbtxt e.2

/-- `into_exact_bytes`/`as_exact_bytes`, 192-205. -/
def asExactBytes : ABList → Option Bytes
  | [] => some []
  | [(none, b)] => some b
  | _ => none
/-- `concat`, 213-227. -/
def concat : ABList → Bytes
  | [] => []
  | (c, b) :: r => (asStr c ++ b) ++ r.flatMap (fun e => asStr e.1 ++ e.2)
/-- `is_empty`, 229-231. -/
def isEmpty (l : ABList) : Bool := List.isEmpty l || ((asExactBytes l).map List.isEmpty).getD false

/-- One step of `split_fslash` on a non-empty slice: the segment and the rest, 244-251. -/
def segRest (e : ABLV) (r : ABList) : ABList × ABList :=
  (e :: r.takeWhile (fun v => v.1 != some .fslash), r.dropWhile (fun v => v.1 != some .fslash))
/-- `split_fslash`, 238-253. -/
def splitFslash : ABList → List ABList
  | [] => []
  | e :: r => (segRest e r).1 :: splitFslash (segRest e r).2
termination_by l => l.length
decreasing_by
  simp only [segRest, List.length_cons]
  have := (List.dropWhile_sublist (fun v : ABLV => v.1 != some .fslash) (l := r)).length_le
  omega

/-- `iter_bytes`, 256-260. -/
def iterBytes (l : ABList) : List Bytes :=
  (match l.head? with
   | some (some _, _) => [[]]
   | _ => []) ++ l.map (·.2)

/-- The item of a node, and the error on a bracket, 281-294. -/
def itemOf : ABE → Option ABItem
  | .ctr c => some (.ctr c)
  | .bytes b => some (.bytes b)
  | .lst _ => none
/-- `TryFrom<&[ABE]> for ABList`, 278-295; `none` is the error. -/
def ofAbe (abe : List ABE) : Option ABList := (abe.mapM itemOf).map fromItems

/-- `parse_ablist_b`, `crates/abe/src/abconf.rs:21-26`; which of the two errors is not kept. -/
def parseAblist (s : Bytes) : Option ABList :=
  match parseStrict s with
  | .ok abe => ofAbe abe
  | .error _ => none

end Verif.Abl
