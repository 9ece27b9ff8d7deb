import Verif.Model.Ast
/-!
# Specification of the ABE text format

A declarative grammar, written down independently of the parser and printer:
which texts spell which bytes, and which texts spell which syntax trees.
-/
namespace Verif.Spec
open Verif Verif.Ast

/-- `c` is a hexadecimal digit with value `v`. -/
def HexVal (c v : UInt8) : Prop :=
  ("0123456789abcdef".toList.map (fun c => UInt8.ofNat c.toNat))[v.toNat]? = some c ∨
  ("0123456789ABCDEF".toList.map (fun c => UInt8.ofNat c.toNat))[v.toNat]? = some c

/-- The two-character escapes: character after the backslash, byte meant. -/
def escapeTable : List (Char × UInt8) :=
  [(']', 93), ('[', 91), ('n', 10), ('r', 13), (':', 58), ('t', 9), ('\\', 92), ('/', 47),
   ('0', 0), ('f', 255)]

/-- Characters that may not appear unescaped as text. -/
def special : List Char := ['/', '[', ']', ':', '\\']

/-- One byte and a text that spells it. -/
inductive Spells1 : Bytes → UInt8 → Prop
  | plain (b : UInt8) : 0x20 ≤ b → b ≤ 0x7e → (∀ c ∈ special, b ≠ UInt8.ofNat c.toNat) → Spells1 [b] b
  | esc (c : Char) (b : UInt8) : (c, b) ∈ escapeTable →
      Spells1 [UInt8.ofNat '\\'.toNat, UInt8.ofNat c.toNat] b
  | hex (h l x y : UInt8) : HexVal h x → HexVal l y →
      Spells1 [UInt8.ofNat '\\'.toNat, UInt8.ofNat 'x'.toNat, h, l] (16 * x + y)

/-- A text spelling a byte string. -/
inductive Spells : Bytes → Bytes → Prop
  | nil : Spells [] []
  | cons {w b s bs} : Spells1 w b → Spells s bs → Spells (w ++ s) (b :: bs)

/-- The tree does not start with a byte string. -/
def NoBytesHead : List ABE → Prop
  | .bytes _ :: _ => False
  | _ => True

/-- A text spelling a list of syntax trees: `:` and `/` are control characters, brackets nest,
and maximal runs of spelled bytes form one node. -/
inductive AbeText : Bytes → List ABE → Prop
  | nil : AbeText [] []
  | colon {s t} : AbeText s t → AbeText (UInt8.ofNat ':'.toNat :: s) (.ctr .colon :: t)
  | fslash {s t} : AbeText s t → AbeText (UInt8.ofNat '/'.toNat :: s) (.ctr .fslash :: t)
  | lst {i l s t} : AbeText i l → AbeText s t →
      AbeText (UInt8.ofNat '['.toNat :: (i ++ UInt8.ofNat ']'.toNat :: s)) (.lst l :: t)
  | bytes {w b s t} : Spells w b → b ≠ [] → NoBytesHead t → AbeText s t → AbeText (w ++ s) (.bytes b :: t)

mutual
/-- Trees in normal form: byte nodes are non-empty and never adjacent, at every level. -/
def NormOne : ABE → Prop
  | .ctr _ => True
  | .bytes b => b ≠ []
  | .lst l => Norm l
def Norm : List ABE → Prop
  | [] => True
  | e :: es => NormOne e ∧ Norm es ∧ (∀ b, e = .bytes b → NoBytesHead es)
end

/-- `k` is one of the characters the caller excludes as separators. -/
def Excluded (excl : Bytes) (k : Abtxt.CtrChar) : Prop := k.asChar ∈ excl

/-- Text inside brackets for the component splitter: spelled bytes, excluded control characters,
other non-bracket control characters and nested balanced groups. -/
inductive Inner (excl : Abtxt.CtrChar → Prop) : Bytes → Prop
  | nil : Inner excl []
  | byte {w b s} : Spells1 w b → Inner excl s → Inner excl (w ++ s)
  | plain {k s} : excl k → Inner excl s → Inner excl (k.asChar :: s)
  | ctr {k s} : ¬ excl k → k.isBracket = false → Inner excl s → Inner excl (k.asChar :: s)
  | grp {i s} : ¬ excl .obr → ¬ excl .cbr → Inner excl i → Inner excl s →
      Inner excl (UInt8.ofNat '['.toNat :: (i ++ UInt8.ofNat ']'.toNat :: s))

/-- One top-level component and whether it contains a bracket group. -/
inductive Comp (excl : Abtxt.CtrChar → Prop) : Bool → Bytes → Prop
  | nil : Comp excl false []
  | byte {w b s f} : Spells1 w b → Comp excl f s → Comp excl f (w ++ s)
  | plain {k s f} : excl k → Comp excl f s → Comp excl f (k.asChar :: s)
  | grp {i s f} : ¬ excl .obr → ¬ excl .cbr → Inner excl i → Comp excl f s →
      Comp excl true (UInt8.ofNat '['.toNat :: (i ++ UInt8.ofNat ']'.toNat :: s))

/-- A separator: a non-bracket control character that is not excluded. -/
def Sep (excl : Abtxt.CtrChar → Prop) (k : Abtxt.CtrChar) : Prop := ¬ excl k ∧ k.isBracket = false

/-- The components of a text, each with the separator in front of it (`head` for the first), its
bracket flag and its text.  A text that ends right after a separator has no final empty component. -/
inductive Split (excl : Abtxt.CtrChar → Prop) : UInt8 → Bytes → List (UInt8 × Bool × Bytes) → Prop
  | empty {h} : Split excl h [] []
  | last {h f c} : Comp excl f c → c ≠ [] → Split excl h c [(h, f, c)]
  | more {h f c k s ts} : Comp excl f c → Sep excl k → Split excl k.asChar s ts →
      Split excl h (c ++ k.asChar :: s) ((h, f, c) :: ts)

/-- Gluing components back together with their separators (0 = no separator). -/
def rejoin : List (UInt8 × Bool × Bytes) → Bytes
  | [] => []
  | (h, _, c) :: ts => (if h = 0 then c else h :: c) ++ rejoin ts

/-- bracket depth of a text, reading escapes as units; `none` when a bracket closes too early -/
inductive Depth : Nat → Bytes → Nat → Prop
  | nil {d} : Depth d [] d
  | byte {d w b s d'} : Spells1 w b → Depth d s d' → Depth d (w ++ s) d'
  | delim {d c s d'} : (c = UInt8.ofNat ':'.toNat ∨ c = UInt8.ofNat '/'.toNat) → Depth d s d' → Depth d (c :: s) d'
  | opn {d s d'} : Depth (d + 1) s d' → Depth d (UInt8.ofNat '['.toNat :: s) d'
  | cls {d s d'} : Depth d s d' → Depth (d + 1) (UInt8.ofNat ']'.toNat :: s) d'

/-- Printable ASCII. -/
def Printable (c : UInt8) : Prop := 32 ≤ c.toNat ∧ c.toNat ≤ 126

end Verif.Spec
