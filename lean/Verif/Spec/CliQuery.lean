import Verif.Spec.Api
import Verif.Spec.Query
import Verif.Spec.QueryText
import Verif.Spec.Stamp
import Verif.Model.CliQuery
/-!
# What command line arguments ask for
-/
namespace Verif.Spec
open Verif Verif.Ast Verif.Pkt Verif.Pred Verif.QText Verif.Eval Verif.Abl Verif.Opt Verif.Cli

/-- The expressions, evaluated with the functions of `sc`, say these statements and these options. -/
inductive AsksFor (sc : Scope) (n : Nat) : List (List ABE) → List Stmt → List ABList → Prop
  | nil : AsksFor sc n [] [] []
  | option {e c b l es rs os} : eval true sc n e = .ok ((some c, b) :: l) → AsksFor sc n es rs os →
      AsksFor sc n (e :: es) rs (((some c, b) :: l) :: os)
  | stmt {e b l x rs1 es rs os} : eval true sc n e = .ok ((none, b) :: l) → extOf ((none, b) :: l) = .ok x → x.stmts = .ok rs1 →
      AsksFor sc n es rs os → AsksFor sc n (e :: es) (rs1 ++ rs) os

/-- The expression stands for these bytes. -/
def IsValue (sc : Scope) (n : Nat) (e : List ABE) (b : Bytes) : Prop := eval true sc n e = .ok [(none, b)]

/-- Text or brackets, no delimiter. -/
def IsExpr (e : ABE) : Prop := ∀ c, e ≠ .ctr c

/-- A part of the argument: expressions standing for `b`, or nothing for the default. -/
def PartIs (sc : Scope) (n : Nat) (e : List ABE) (dflt b : Bytes) : Prop :=
  (∀ x ∈ e, IsExpr x) ∧ (e ≠ [] → IsValue sc n e b) ∧ (e = [] → b = dflt)

/-- How the depth is written: nothing, a digit up to 8, `*` or `**`. -/
def DepthText : Option Bytes → Nat → Prop
  | none, k => k = 0
  | some w, k => (k ≤ 8 ∧ w = [UInt8.ofNat (0x30 + k)]) ∨ (k = 1 ∧ w = [0x2a]) ∨ (k = 8 ∧ w = [0x2a, 0x2a])

/-- `domain:group/a/b:depth` with a colon after the group: the components of the space follow slashes. -/
def placeArg (domain group : List ABE) (comps : List ABE) (depth : Option Bytes) : List ABE :=
  domain ++ .ctr .colon :: (group ++ .ctr .colon :: ((comps.flatMap fun c => [.ctr .fslash, c]) ++
    match depth with
    | none => []
    | some w => [.ctr .colon, .bytes w]))

/-- The components stand for these bytes. -/
inductive PartsAre (sc : Scope) (n : Nat) : List ABE → List Bytes → Prop
  | nil : PartsAre sc n [] []
  | cons {c b cs bs} : IsExpr c → IsValue sc n [c] b → PartsAre sc n cs bs → PartsAre sc n (c :: cs) (b :: bs)

/-- Empty parts name no component. -/
def named (bs : List Bytes) : List Bytes := bs.filter fun b => !b.isEmpty

/-- The components that a place allows: those written and `k` more, up to eight; 8 stands for any number. -/
def most (slashes k : Nat) : Nat := if k < 8 then min (slashes + k) 8 else 8

/-- The packet has this domain and group, and a space that starts with `cs` and has at most `most` components. -/
def InPlace (d g : Nat) (cs : List Bytes) (most : Nat) (x : Seen) : Prop :=
  ∃ xs, x.space = some xs ∧ x.num .domain = d ∧ x.num .group = g ∧ cs <+: xs ∧ xs.length ≤ most

/-- The flags allow this position in a count. -/
def FlagCount (a : Aliases) (q : QScope) (n : Nat) : Prop :=
  match q with
  | .query => ∀ m ∈ a.max, n < m.toNat
  | .new => (∀ m ∈ a.maxNew, n < m.toNat) ∧ a.dbOnly = false
  | .index => (∀ m ∈ a.maxIndex, n < m.toNat) ∧ a.newOnly = false
  | .branch => ∀ m ∈ a.maxBranch, n < m.toNat

/-- The flags allow this packet.  A keypoint has bit 4 and an error point lacks bit 1. -/
def FlagType (a : Aliases) (x : Seen) : Prop :=
  (a.signed = true → HasType x 4) ∧ (a.unsigned = true → ¬ HasType x 4 ∧ HasType x 1)

/-- The moment that `--until` gives with the clock at `now`: no flag, or a duration from now on. -/
def UntilIs (a : Aliases) (now : Bytes) : Option Nat → Prop
  | none => a.until_ = none
  | some u => ∃ v d, a.until_ = some v ∧ DurText unitMicros v d ∧ u = beNat now + d ∧ u < 2 ^ 64

/-- The id that the flags give: `--qid`, or the default with `--watch`. -/
def QidIs (sc : Scope) (n : Nat) (a : Aliases) : Option Bytes → Prop
  | none => a.qid = none ∧ a.watch = false
  | some b => (∃ v, a.qid = some v ∧ (∀ x ∈ v, IsExpr x) ∧ IsValue sc n v b) ∨ (a.qid = none ∧ a.watch = true ∧ b = ascii "default")

/-- Where, which flags and which further expressions. -/
structure CliLine where
  domain : List ABE
  group : List ABE
  comps : List ABE
  depth : Option Bytes
  flags : Aliases
  exprs : List (List ABE)

/-- The numbers, names, statements and options meant. -/
structure CliMeaning where
  domain : Nat
  group : Nat
  parts : List Bytes
  depth : Nat
  until_ : Option Nat
  qid : Option Bytes
  stmts : List Stmt
  options : List ABList

/-- Evaluated with the functions of `sc`, the line has this meaning.  The default domain is plain text (C62 has what is
otherwise read). -/
structure CliMeans (sc : Scope) (n : Nat) (dflt : Defaults) (now : Bytes) (l : CliLine) (m : CliMeaning) : Prop where
  domain : ∃ b, PartIs sc n l.domain dflt.domain b ∧ ValueIs .domain [(none, b)] m.domain
  text : l.domain = [] → dflt.domain.length = 16 ∧ PlainFilled dflt.domain
  group : ∃ b, PartIs sc n l.group dflt.group b ∧ ValueIs .group [(none, b)] m.group
  parts : PartsAre sc n l.comps m.parts
  space : IsSpace (encodeSpace (named m.parts)) (named m.parts)
  eight : (named m.parts).length ≤ 8
  depth : DepthText l.depth m.depth
  until_ : UntilIs l.flags now m.until_
  qid : QidIs sc n l.flags m.qid
  rest : AsksFor sc n l.exprs m.stmts m.options

/-- The packet is one that the line asks for. -/
def CliMeaning.Wants (m : CliMeaning) (a : Aliases) (x : Seen) : Prop :=
  InPlace m.domain m.group (named m.parts) (most m.parts.length m.depth) x ∧ FlagType a x ∧ ∀ r ∈ m.stmts, Sat r x
/-- The receive stamp is one that the line asks for. -/
def CliMeaning.Recv (m : CliMeaning) (t : Nat) : Prop := (∀ u ∈ m.until_, t < u) ∧ ∀ r ∈ m.stmts, RecvOk r t
/-- The position in a count is one that the line asks for. -/
def CliMeaning.Count (m : CliMeaning) (a : Aliases) (q : QScope) (i : Nat) : Prop := FlagCount a q i ∧ ∀ r ∈ m.stmts, CountOk q r i

/-- Of the stored packets that the line asks for, in some order `sel`, those whose positions it asks for. -/
def CliMeaning.Chosen (m : CliMeaning) (a : Aliases) (nth : Nat) (sel out : List (Nat × NetParts)) : Prop :=
  ∃ mid, Picks (fun i => m.Count a .index (position i)) 0 sel mid ∧ Picks (fun i => m.Count a .query (position i)) nth mid out

/-- The options that the flags give, oldest first. -/
def flagOptions (a : Aliases) (qid : Option Bytes) : List ABList :=
  (qid.map fun b => [(some .colon, ascii "qid"), (some .colon, b)]).toList ++ if a.follow then [[(some .colon, ascii "follow")]] else []

end Verif.Spec
