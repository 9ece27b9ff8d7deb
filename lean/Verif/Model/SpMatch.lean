import Verif.Model.Space
/-!
# Space patterns (`crates/pkt/src/space_macro.rs`)
-/
namespace Verif.Space

/-- An element of a pattern: an expression, whose bytes the component has to equal, or a type, with its `TryFrom<&[u8]>` as a function. -/
inductive PatElem (V : Type) where
  | is (b : Bytes)
  | take (conv : Bytes → Option V)

/-- What an element makes of a component, `v == AsRef::<[u8]>::as_ref($s)` and `<$s>::try_from(v).ok()?`, `crates/pkt/src/space_macro.rs:22`, 31, 41, 50. -/
def PatElem.on {V : Type} (c : Bytes) : PatElem V → Option (List V)
  | .is b => if c = b then some [] else none
  | .take conv => (conv c).map ([·])

/-- `sp_iter_match!`, `crates/pkt/src/space_macro.rs:7-56`, arm by arm on the bytes of the iterator; `dots` if the pattern ends in `..`.  The values are listed
in order in place of the nested tuples; with `..` the space that is left comes with them. -/
def patIter {V : Type} (dots : Bool) : List (PatElem V) → Bytes → Res (Option (List V × Option Bytes))
  | [], sp =>
    if dots then .ok (some ([], some sp))
    else match iterNext sp with
      | .done => .ok (some ([], none))
      | .panic => .error .panic
      | .item _ _ => .ok none
  | [e], sp =>
    match iterNext sp with
    | .done => .ok none
    | .panic => .error .panic
    | .item c rest =>
      if dots then .ok ((e.on c).map fun vs => (vs, some rest))
      else match iterNext rest with
        | .panic => .error .panic
        | .item _ _ => .ok none
        | .done => .ok ((e.on c).map fun vs => (vs, none))
  | e :: es, sp =>
    match iterNext sp with
    | .done => .ok none
    | .panic => .error .panic
    | .item c rest =>
      match e.on c with
      | none => .ok none
      | some vs =>
        match patIter dots es rest with
        | .error f => .error f
        | .ok none => .ok none
        | .ok (some (ws, r)) => .ok (some (vs ++ ws, r))

/-- `sp_match!`, `crates/pkt/src/space_macro.rs:59-70`. -/
def spMatch {V : Type} (sp : Bytes) (es : List (PatElem V)) (dots : Bool) : Res (Option (List V × Option Bytes)) := patIter dots es sp

end Verif.Space
