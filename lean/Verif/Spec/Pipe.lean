import Verif.Spec.Eval
/-!
# Meaning of a bracket

`[f:a:b/g:c]` is `g(f(a,b),c)`, `[:text/g]` is `g(text)`. Arguments are text and brackets next to each other. What comes
after `[/` is given to a macro without evaluating it.
-/
namespace Verif.Spec
open Verif Verif.Ast Verif.Eval

/-- Text or a bracket. -/
def IsPart : ABE → Prop
  | .ctr _ => False
  | _ => True

/-- `:a:b:c`. -/
def argsOf (args : List (List ABE)) : List ABE := args.flatMap fun a => .ctr .colon :: a
/-- `/f:a:b/g:c`. -/
def callsOf (cs : List (List ABE × List (List ABE))) : List ABE := cs.flatMap fun c => .ctr .fslash :: (c.1 ++ argsOf c.2)

mutual
/-- The text of an expression with nothing escaped. -/
inductive RawText : List ABE → Bytes → Prop
  | nil : RawText [] []
  | cons {e : ABE} {l : List ABE} {u v : Bytes} : RawOne e u → RawText l v → RawText (e :: l) (u ++ v)
inductive RawOne : ABE → Bytes → Prop
  | colon : RawOne (.ctr .colon) [0x3a]
  | slash : RawOne (.ctr .fslash) [0x2f]
  | bytes (b : Bytes) : RawOne (.bytes b) b
  | lst {l : List ABE} {u : Bytes} : RawText l u → RawOne (.lst l) (0x5b :: (u ++ [0x5d]))
end

/-- What a macro bracket gives, by what follows `[/`. -/
inductive MacVal (sc : Scope) (top : Top) : List ABE → Bytes → Prop
  | named {id : Bytes} {l : List ABE} {v : Bytes} : sc.mac top id l = .value v → MacVal sc top (.bytes id :: l) v
  | unnamed {l : List ABE} {v : Bytes} : sc.mac top [] (.ctr .fslash :: l) = .value v → MacVal sc top (.ctr .fslash :: l) v
  | raw {l : List ABE} {v : Bytes} : RawText l v → MacVal sc top (.ctr .colon :: l) v

mutual
/-- The bracket with this content has this value. -/
inductive Br (sc : Scope) (top : Top) : List ABE → Bytes → Prop
  | empty : Br sc top [] []
  | mac {l : List ABE} {v : Bytes} : MacVal sc top l v → Br sc top (.ctr .fslash :: l) v
  | text {args : List (List ABE)} {vs : List Bytes} {cs : List (List ABE × List (List ABE))} {out : Bytes} : args ≠ [] →
      Args sc top args vs → vs.length ≤ 16 → Calls sc top vs.flatten cs out → Br sc top (argsOf args ++ callsOf cs) out
  | call {b : Bytes} {more : List ABE} {args : List (List ABE)} {i : Bytes} {vs : List Bytes} {cs : List (List ABE × List (List ABE))} {r out : Bytes} :
      Arg sc top (.bytes b :: more) i → ¬ (more.length = 1 ∧ args = [] ∧ cs = []) → Args sc top args vs → vs.length ≤ 15 →
      sc.func top i vs true = .value r → Calls sc top r cs out → Br sc top (.bytes b :: more ++ argsOf args ++ callsOf cs) out
/-- The parts of an argument next to each other. -/
inductive Arg (sc : Scope) (top : Top) : List ABE → Bytes → Prop
  | nil : Arg sc top [] []
  | bytes {b : Bytes} {l : List ABE} {v : Bytes} : Arg sc top l v → Arg sc top (.bytes b :: l) (b ++ v)
  | lst {k : List ABE} {l : List ABE} {u v : Bytes} : Br sc top k u → Arg sc top l v → Arg sc top (.lst k :: l) (u ++ v)
inductive Args (sc : Scope) (top : Top) : List (List ABE) → List Bytes → Prop
  | nil : Args sc top [] []
  | cons {a : List ABE} {as : List (List ABE)} {v : Bytes} {vs : List Bytes} : Arg sc top a v → Args sc top as vs → Args sc top (a :: as) (v :: vs)
/-- The calls after the first, each with the result of the one before as its first argument. -/
inductive Calls (sc : Scope) (top : Top) : Bytes → List (List ABE × List (List ABE)) → Bytes → Prop
  | done {c : Bytes} : Calls sc top c [] c
  | call {c i r out : Bytes} {id : List ABE} {args : List (List ABE)} {vs : List Bytes} {cs : List (List ABE × List (List ABE))} :
      Arg sc top id i → Args sc top args vs → vs.length ≤ 15 → sc.func top i (c :: vs) false = .value r → Calls sc top r cs out →
      Calls sc top c ((id, args) :: cs) out
end

end Verif.Spec
