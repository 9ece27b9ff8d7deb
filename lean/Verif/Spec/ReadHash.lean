import Verif.Spec.Template
import Verif.Model.Env
/-!
# What it means to follow links in an expression
-/
namespace Verif.Spec
open Verif Verif.Ast Verif.Abe Verif.Abtxt Verif.Num Verif.Fit Verif.Pkt Verif.Eval Verif.Env

/-- The first link whose tag ends in `suffix`. -/
def Shown.FirstLink (s : Shown) (suffix : Bytes) (l : Link) : Prop :=
  ∃ a b, s.c.linked.links = a ++ l :: b ∧ suffix <:+ l.tag ∧ ∀ x ∈ a, ¬ suffix <:+ x.tag

/-- The point is in the store. -/
def Stored (db : Db) (s : Shown) : Prop := ∃ i, (i, s.pkt) ∈ db.log

/-- From `s` along links with these tags, each the first of its kind and leading to a stored point. -/
inductive LinkPath (db : Db) : Shown → List Bytes → Shown → Prop
  | nil (s : Shown) : LinkPath db s [] s
  | cons {s t u : Shown} {suffix : Bytes} {ts : List Bytes} {l : Link} : s.FirstLink suffix l → Stored db t → l.ptr = t.hash → LinkPath db t ts u →
      LinkPath db s (suffix :: ts) u

/-- `:a:b`. -/
def tailText (args : List Bytes) : Bytes := args.flatMap fun a => ascii ":" ++ asAbtxt a
/-- `[readhash:H:f:a]`, with the expression `h` for the hash. -/
def hashText (h : Bytes) (args : List Bytes) : Bytes := ascii "[readhash:" ++ h ++ tailText args ++ ascii "]"
/-- `[link:a/readhash:link:b/readhash:name:form]`. -/
def pathText (t : Bytes) (ts : List Bytes) (name : Bytes) (f : Form) : Bytes :=
  ascii "[link:" ++ asAbtxt t ++ ts.flatMap (fun t => ascii "/readhash:link:" ++ asAbtxt t) ++ ascii "/readhash:" ++ name ++ f.text ++ ascii "]"
/-- `[/readhash:H:x:y]`, with the texts as they are. -/
def macText (h : Bytes) (xs : List Bytes) : Bytes := ascii "[/readhash:" ++ h ++ xs.flatMap (fun x => ascii ":" ++ x) ++ ascii "]"

end Verif.Spec
