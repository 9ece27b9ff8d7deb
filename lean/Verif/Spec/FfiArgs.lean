import Verif.Model.FfiArgs
import Verif.Spec.PyPkt
import Verif.Spec.Base64
/-!
# Specification of the arguments of the bindings

What each argument of a call means, as relations between the value and the field of the point.
-/
namespace Verif.Spec
open Verif Verif.Pkt Verif.Ffi

/-- Bytes that name 32 bytes: themselves, or their base64 text. -/
def Names32 (s b : Bytes) : Prop := b.length = 32 ∧ (s = b ∨ Base64 b64UrlSafe s b)
/-- A short name, filled up with zeros in front. -/
def Names16 (s b : Bytes) : Prop := b.length = 16 ∧ ∃ k, b = List.replicate k 0 ++ s

inductive PyText : PyVal → Bytes → Prop
  | bytes (b) : PyText (.bytes b) b
  | str (cs) : PyText (.str cs) cs.flatten
inductive PyGroup (thread : Bytes) : Option PyVal → Bytes → Prop
  | none : PyGroup thread none thread
  | given (s b) : Names32 s b → PyGroup thread (some (.bytes s)) b
inductive PyDomain (thread : Bytes) : Option PyVal → Bytes → Prop
  | none : PyDomain thread none thread
  | given (s b) : Names16 s b → PyDomain thread (some (.bytes s)) b
/-- The components of a space argument.  The bytes of a space give its first eight components; a list of names gives these; a text gives its characters. -/
inductive PySpace : Option PyVal → List Bytes → Prop
  | none : PySpace none []
  | bytes (b cs) : IsSpace b cs → PySpace (some (.bytes b)) (cs.take 8)
  | list (l cs) : l.length = cs.length → (∀ (i : Nat) v c, l[i]? = some v → cs[i]? = some c → PyText v c) → PySpace (some (.seq l)) cs
  | chars (cs) : PySpace (some (.str cs)) cs
inductive PyStamp (now : Nat) : Option PyVal → Nat → Prop
  | none : PyStamp now none now
  | given (b) : b.length = 8 → PyStamp now (some (.bytes b)) (beNat b)
inductive PyData : Option PyVal → Bytes → Prop
  | none : PyData none []
  | given (v b) : PyText v b → PyData (some v) b

/-- The content the arguments of a Python call ask for. -/
structure PyMeans (grp dom : Bytes) (now : Nat) (a : PyArgs) (c : LinkContent) : Prop where
  data : PyData a.data c.data
  group : PyGroup grp a.group c.group
  domain : PyDomain dom a.domain c.domain
  space : ∃ cs, PySpace a.space cs ∧ IsSpace (encodeSpace cs) cs ∧ cs.length ≤ 8 ∧ c.rspace = rootedOf cs
  links : c.links = a.links.getD []
  stamp : PyStamp now a.create c.stamp

/-- The bytes a point with these fields takes, signed or not. -/
def pointBytes (c : LinkContent) (signed : Bool) : Nat := 64 + 48 * c.links.length + c.rspace.length + c.data.length + if signed then 96 else 0

/-- A packet with these fields and, if there is a key, signed with it. -/
def HasFields (C : Crypto) (key : Option C.Key) (q : NetPkt) (c : LinkContent) : Prop :=
  match key with
  | none => Holds C q (.link c)
  | some k => ∃ sig, Holds C q (.key c (C.pubkey k) sig)

inductive JsText : JsVal → Bytes → Prop
  | u8 (b) : JsText (.u8 b) b
  | str (cs) : JsText (.str cs) cs.flatten
/-- Values for which an argument counts as left out. -/
inductive JsAbsent : JsVal → Prop
  | falsy : JsAbsent .falsy
  | empty (cs) : (∀ c ∈ cs, c = []) → JsAbsent (.str cs)
inductive JsGroup : JsVal → Bytes → Prop
  | none (v) : JsAbsent v → JsGroup v Lns.publicGroup
  | given (v s b) : ¬ JsAbsent v → JsText v s → Names32 s b → JsGroup v b
inductive JsDomain : JsVal → Bytes → Prop
  | none (v) : JsAbsent v → JsDomain v (List.replicate 16 0)
  | given (v s b) : ¬ JsAbsent v → JsText v s → Names16 s b → JsDomain v b
inductive JsSpace : JsVal → List Bytes → Prop
  | none (v) : JsAbsent v → JsSpace v []
  | bytes (b cs) : IsSpace b cs → JsSpace (.u8 b) (cs.take 8)
  | list (l cs) : l.length = cs.length → (∀ (i : Nat) v c, l[i]? = some v → cs[i]? = some c → JsText v c) → JsSpace (.iter l) cs
inductive JsLinks : JsVal → List Link → Prop
  | none (v) : JsAbsent v → JsLinks v []
  | raw (ls) : LinksSized ls → JsLinks (.u8 (ls.map fun l => l.tag ++ l.ptr).flatten) ls
  | list (ls) : LinksSized ls → JsLinks (.iter (ls.map fun l => .obj (.u8 l.ptr) (.u8 l.tag))) ls
inductive JsStamp (now : Nat) : JsVal → Nat → Prop
  | none (v) : JsAbsent v → JsStamp now v now
  | given (b) : b.length = 8 → JsStamp now (.u8 b) (beNat b)

/-- The content the arguments of a JavaScript call ask for. -/
structure JsMeans (now : Nat) (data : JsVal) (f : JsFields) (c : LinkContent) : Prop where
  data : JsText data c.data
  group : JsGroup f.group c.group
  domain : JsDomain f.domain c.domain
  space : ∃ cs, JsSpace f.space cs ∧ IsSpace (encodeSpace cs) cs ∧ cs.length ≤ 8 ∧ c.rspace = rootedOf cs
  links : JsLinks f.links c.links
  stamp : JsStamp now f.create c.stamp

end Verif.Spec
