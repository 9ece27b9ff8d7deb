import Verif.Model.PyPkt
import Verif.Model.Base64
import Verif.Model.Name
/-!
# Building points from the arguments of a Python or JavaScript call

`ffi/linkspace-py/src/lib.rs:118-243`, `ffi/linkspace-js/src/lib.rs:101-231` and `utils.rs:92-108`.
-/
namespace Verif.Ffi
open Verif Verif.Pkt Verif.Fit
open Verif.Abe (b64Fit)
open Verif.Lns (publicGroup)
open Verif.Pred (PRes)

/-- Either an exception or the value. -/
def orErr {α : Type} : Option α → PRes α
  | some a => .ok a
  | none => .error (.err ())

/-! ### Python -/

/-- The Python objects that the functions tell apart: `bytes`, `str` as its characters in UTF-8, other iterables, anything else. -/
inductive PyVal
  | bytes (b : Bytes)
  | str (chars : List Bytes)
  | seq (items : List PyVal)
  | other

/-- `bytelike`, `linkspace-py/src/lib.rs:389-392`. -/
def PyVal.bytelike : PyVal → Option Bytes
  | .bytes b => some b
  | .str cs => some cs.flatten
  | _ => none
/-- What `extract::<&[u8]>` of `pyo3` takes: `bytes` only. -/
def PyVal.exact : PyVal → Option Bytes
  | .bytes b => some b
  | _ => none
/-- `PyAny::iter`: a `str` gives its characters as `str`, `bytes` give numbers. -/
def PyVal.iter : PyVal → Option (List PyVal)
  | .seq l => some l
  | .str cs => some (cs.map fun c => .str [c])
  | .bytes b => some (b.map fun _ => .other)
  | .other => none

/-- `Space::from_slice` or `SpaceBuf::try_from_inner` and `try_into_rooted`, `crates/pkt/src/space.rs:24-28`, 117-123 and 693-727. -/
def rootedOfBytes (dbg : Bool) (b : Bytes) : PRes Bytes :=
  match Space.checkComponents b with
  | .error _ => .error (.err ())
  | .ok _ => forget (Rooted.tryIntoRooted dbg b)

/-- The space argument of `common_args`, `linkspace-py/src/lib.rs:139-154`. -/
def pySpace (dbg : Bool) : Option PyVal → PRes Bytes
  | none => .ok []
  | some v =>
    match v.exact with
    | some b => rootedOfBytes dbg b
    | none =>
      match v.iter with
      | none => .error (.err ())
      | some l =>
        match l.mapM PyVal.bytelike with
        | none => .error (.err ())
        | some cs => forget (Rooted.tryFromIter cs)

/-- `Link::new`, `pynetpkt.rs:326-333`. -/
def pyLink (tag ptr : PyVal) : PRes Link :=
  match tag.bytelike, ptr.bytelike with
  | some t, some p =>
    match fitBack 0 16 t, b64Fit 32 p with
    | some t, some p => .ok ⟨t, p⟩
    | _, _ => .error (.err ())
  | _, _ => .error (.err ())

/-- The arguments of `lk_linkpoint` and `lk_keypoint`; the links are `Link` objects. -/
structure PyArgs where
  data : Option PyVal
  group : Option PyVal
  domain : Option PyVal
  space : Option PyVal
  links : Option (List Link)
  create : Option PyVal

/-- A number from the eight bytes of a stamp, `crates/byte-fmt/src/endian_types.rs:79-84`. -/
def stampOf (b : Bytes) : PRes Nat := if b.length = 8 then .ok (beNat b) else .error (.err ())

/-- `grp_arg`, 118-123; `grp` is the group of the thread. -/
def pyGroup (grp : Bytes) : Option PyVal → PRes Bytes
  | none => .ok grp
  | some v => orErr (v.exact.bind (b64Fit 32))
/-- `domain_arg`, 124-129. -/
def pyDomain (dom : Bytes) : Option PyVal → PRes Bytes
  | none => .ok dom
  | some v => orErr (v.exact.bind (fitBack 0 16))
/-- The stamp, 163, and `lk_linkpoint_ref`, `crates/linkspace/src/lib.rs:119-136`, where it is the time unless given. -/
def pyStamp (now : Nat) : Option PyVal → PRes Nat
  | none => .ok now
  | some v => (orErr v.exact).bind stampOf
/-- The data, 208 and 232. -/
def pyData : Option PyVal → PRes Bytes
  | none => .ok []
  | some v => orErr v.bytelike

/-- `lk_linkpoint`, 200-214, and with a key `lk_keypoint`, 215-231; `nh` is the header of `NetOpts::Default` and `now` the clock. -/
def pyPoint (C : Crypto) (dbg : Bool) (grp dom nh : Bytes) (now : Nat) (key : Option C.Key) (a : PyArgs) : PRes PyPkt := do
  let data ← pyData a.data
  let group ← pyGroup grp a.group
  let domain ← pyDomain dom a.domain
  let rspace ← pySpace dbg a.space
  let stamp ← pyStamp now a.create
  let p ← forget (tryPoint C group domain rspace (a.links.getD []) data stamp key nh)
  PyPkt.ofParts C dbg now p

/-- `lk_datapoint`, 194-199. -/
def pyDatapoint (C : Crypto) (dbg : Bool) (nh : Bytes) (now : Nat) (data : PyVal) : PRes PyPkt := do
  let data ← orErr data.bytelike
  let p ← orErr (tryDatapoint C data nh).toOption
  PyPkt.ofParts C dbg now p

/-! ### JavaScript -/

/-- The JavaScript values that the functions tell apart: `undefined`, `null`, `false`, `0`, a string as its characters in UTF-8, a `Uint8Array`, another iterable
object, an object with `ptr` and `tag`, any other value.  An object that is iterable and has those two properties is left out. -/
inductive JsVal
  | falsy
  | str (chars : List Bytes)
  | u8 (b : Bytes)
  | iter (items : List JsVal)
  | obj (ptr tag : JsVal)
  | other

/-- `JsValue::is_falsy`; the empty string is. -/
def JsVal.isFalsy : JsVal → Bool
  | .falsy => true
  | .str cs => cs.flatten.isEmpty
  | _ => false
/-- `bytelike`, `utils.rs:92-102`. -/
def JsVal.bytelike : JsVal → Option Bytes
  | .str cs => some cs.flatten
  | .u8 b => some b
  | _ => none
/-- `opt_bytelike`, `utils.rs:103-108`; `none` is an error. -/
def JsVal.optBytelike (v : JsVal) : Option (Option Bytes) := if v.isFalsy then some none else v.bytelike.map some
/-- `js_sys::try_iter`: a primitive string throws, and for an object that is not iterable there is no iterator, which the callers make an error. -/
def JsVal.tryIter : JsVal → Option (List JsVal)
  | .iter l => some l
  | .u8 b => some (b.map fun _ => .other)
  | _ => none

/-- `as_byte_array`, `linkspace-js/src/lib.rs:185-195`. -/
def byteArray (n : Nat) : JsVal → Option Bytes
  | .u8 b => if b.length = n then some b else none
  | _ => none
/-- `Reflect::get` of a property: it throws for a primitive, and gives `undefined` if there is no such property. -/
def reflect (get : JsVal → JsVal → JsVal) : JsVal → Option JsVal
  | .obj p t => some (get p t)
  | .u8 _ => some .falsy
  | .iter _ => some .falsy
  | _ => none
/-- `try_as_link`, 167-184. -/
def tryAsLink (v : JsVal) : Option Link :=
  match reflect (fun p _ => p) v with
  | some ptr =>
    match byteArray 32 ptr with
    | none => none
    | some p =>
      match reflect (fun _ t => t) v with
      | some tag =>
        match byteArray 16 tag with
        | some t => some ⟨t, p⟩
        | none => none
      | none => none
  | none =>
    match byteArray 48 v with
    | some b => some ⟨b.take 16, b.drop 16⟩
    | none => none

/-- `Fields`, 85-100. -/
structure JsFields where
  group : JsVal
  domain : JsVal
  space : JsVal
  links : JsVal
  create : JsVal

/-- The group of `common_args`, 102-110. -/
def jsGroup (v : JsVal) : Option Bytes :=
  match v.optBytelike with
  | none => none
  | some none => some publicGroup
  | some (some b) => b64Fit 32 b
/-- The domain, 111-119. -/
def jsDomain (v : JsVal) : Option Bytes :=
  match v.optBytelike with
  | none => none
  | some none => some (List.replicate 16 0)
  | some (some b) => fitBack 0 16 b
/-- The space, 120-135. -/
def jsSpace (dbg : Bool) (v : JsVal) : PRes Bytes :=
  if v.isFalsy then .ok []
  else
    match v with
    | .u8 b => rootedOfBytes dbg b
    | v =>
      match v.tryIter with
      | none => .error (.err ())
      | some l =>
        match l.mapM JsVal.bytelike with
        | none => .error (.err ())
        | some cs => forget (Rooted.tryFromIter cs)
/-- Links from raw bytes. -/
def rawLinks : Nat → Bytes → List Link
  | 0, _ => []
  | n + 1, b => ⟨b.take 16, (b.drop 16).take 32⟩ :: rawLinks n (b.drop 48)
/-- The links, 136-155. -/
def jsLinkArgs (v : JsVal) : Option (List Link) :=
  if v.isFalsy then some []
  else
    match v with
    | .u8 b => if b.length % 48 = 0 then some (rawLinks (b.length / 48) b) else none
    | v =>
      match v.tryIter with
      | none => none
      | some l => l.mapM tryAsLink
/-- The stamp, 156-164. -/
def jsStamp (now : Nat) (v : JsVal) : PRes Nat :=
  if v.isFalsy then .ok now
  else
    match v with
    | .u8 b => stampOf b
    | _ => .error (.err ())

/-- `lk_linkpoint`, 196-211, and with a key `lk_keypoint`, 213-231.  The variables for the first two results of `common_args` have each other's names, but group and
domain are passed on in the right order (their types differ). -/
def jsPoint (C : Crypto) (dbg : Bool) (nh : Bytes) (now : Nat) (key : Option C.Key) (data : JsVal) (f : JsFields) : PRes NetPkt := do
  let data ← orErr data.bytelike
  let group ← orErr (jsGroup f.group)
  let domain ← orErr (jsDomain f.domain)
  let rspace ← jsSpace dbg f.space
  let links ← orErr (jsLinkArgs f.links)
  let stamp ← jsStamp now f.create
  let p ← forget (tryPoint C group domain rspace links data stamp key nh)
  arcOfParts C dbg p

end Verif.Ffi
