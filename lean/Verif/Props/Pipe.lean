import Verif.Spec.Pipe
import Verif.Props.Eval
import Verif.Props.AbList
/-!
# Evaluating a bracket
-/
namespace Verif.Props
open Verif Verif.Ast Verif.Abl Verif.Abe Verif.Eval Verif.Spec

/-! ### The entries of a list of calls -/

def argEntries (vs : List Bytes) : ABList := vs.map fun v => (some .colon, v)
def callSegs (ivs : List (Bytes × List Bytes)) : List ABList := ivs.map fun x => (some .fslash, x.1) :: argEntries x.2

theorem ER.bind_ok {α β : Type} {x : ER α} {f : α → ER β} {b : β} : x.bind f = .ok b ↔ ∃ a, x = .ok a ∧ f a = .ok b := by
  cases x <;> simp [ER.bind]
theorem ER.map_ok {α β : Type} {x : ER α} {f : α → β} {b : β} : x.map f = .ok b ↔ ∃ a, x = .ok a ∧ f a = b := by
  cases x <;> simp [ER.map]

theorem push_bytes (us : List Bytes) (acc : ABList) (c : Option Ctr) (v : Bytes) :
    (us.map ABItem.bytes).foldl push (acc ++ [(c, v)]) = acc ++ [(c, v ++ us.flatten)] := by
  induction us generalizing v with
  | nil => simp
  | cons u us ih =>
    rw [List.map_cons, List.foldl_cons]
    have : push (acc ++ [(c, v)]) (.bytes u) = acc ++ [(c, v ++ u)] := pushBytes_snoc acc c v u
    rw [this, ih, List.flatten_cons, List.append_assoc]

theorem push_ctr (us : List Bytes) (acc : ABList) (c : Ctr) :
    (ABItem.ctr c :: us.map ABItem.bytes).foldl push acc = acc ++ [(some c, us.flatten)] := by
  rw [List.foldl_cons]
  have : push acc (.ctr c) = acc ++ [(some c, [])] := rfl
  rw [this, push_bytes, List.nil_append]

theorem push_first (us : List Bytes) (h : us ≠ []) : (us.map ABItem.bytes).foldl push [] = [(none, us.flatten)] := by
  cases us with
  | nil => exact absurd rfl h
  | cons u us =>
    rw [List.map_cons, List.foldl_cons]
    have : push [] (.bytes u) = [] ++ [(none, u)] := rfl
    rw [this, push_bytes, List.nil_append, List.flatten_cons]

theorem split_seg (e : ABLV) (vs : List Bytes) (ivs : List (Bytes × List Bytes)) :
    splitFslash (e :: argEntries vs ++ (callSegs ivs).flatten) = (e :: argEntries vs) :: callSegs ivs := by
  induction ivs generalizing e vs with
  | nil =>
    rw [callSegs, List.map_nil, List.flatten_nil, List.append_nil, splitFslash, segRest]
    have h1 := takeWhile_colon vs
    have h2 := dropWhile_colon vs
    unfold argEntries
    rw [h1, h2, splitFslash]
  | cons x ivs ih =>
    have hx : (callSegs (x :: ivs)).flatten = (some .fslash, x.1) :: argEntries x.2 ++ (callSegs ivs).flatten := rfl
    rw [List.cons_append, splitFslash, segRest]
    have key : ∀ vs : List Bytes, (argEntries vs ++ (callSegs (x :: ivs)).flatten).takeWhile (fun v => v.1 != some .fslash) = argEntries vs ∧
        (argEntries vs ++ (callSegs (x :: ivs)).flatten).dropWhile (fun v => v.1 != some .fslash) = (callSegs (x :: ivs)).flatten := by
      intro vs
      induction vs with
      | nil => rw [hx]; exact ⟨rfl, rfl⟩
      | cons v vs ihv =>
        show List.takeWhile _ ((some .colon, v) :: (argEntries vs ++ _)) = (some .colon, v) :: argEntries vs ∧ List.dropWhile _ ((some .colon, v) :: (argEntries vs ++ _)) = _
        rw [List.takeWhile_cons, List.dropWhile_cons]
        simp only [show ((some Ctr.colon : Option Ctr) != some Ctr.fslash) = true from rfl, if_true]
        exact ⟨by rw [ihv.1], ihv.2⟩
    rw [(key vs).1, (key vs).2, hx, ih]
    rfl

/-! ### Evaluating parts -/

variable {sc : Scope} {top : Top}

theorem evalItems_cons {e : ABE} {l : List ABE} {is : List ABItem} :
    evalItems sc top (e :: l) = .ok is ↔ ∃ i js, matchExpr sc top e = .ok i ∧ evalItems sc top l = .ok js ∧ is = i :: js := by
  rw [evalItems, ER.bind_ok]
  constructor
  · rintro ⟨i, h1, h2⟩
    obtain ⟨js, h3, h4⟩ := ER.map_ok.1 h2
    exact ⟨i, js, h1, h3, h4.symm⟩
  · rintro ⟨i, js, h1, h2, rfl⟩
    exact ⟨i, h1, ER.map_ok.2 ⟨js, h2, rfl⟩⟩

theorem evalItems_app {a b : List ABE} {is : List ABItem} :
    evalItems sc top (a ++ b) = .ok is ↔ ∃ x y, evalItems sc top a = .ok x ∧ evalItems sc top b = .ok y ∧ is = x ++ y := by
  rw [evalItems_append, ER.bind_ok]
  constructor
  · rintro ⟨x, h1, h2⟩
    obtain ⟨y, h3, h4⟩ := ER.map_ok.1 h2
    exact ⟨x, y, h1, h3, h4.symm⟩
  · rintro ⟨x, y, h1, h2, rfl⟩
    exact ⟨x, h1, ER.map_ok.2 ⟨y, h2, rfl⟩⟩

theorem match_ctr {c : Ctr} {i : ABItem} : matchExpr sc top (.ctr c) = .ok i ↔ i = .ctr c := by
  rw [matchExpr]
  exact ⟨fun h => by cases h; rfl, fun h => by rw [h]⟩

theorem match_bytes {b : Bytes} {i : ABItem} : matchExpr sc top (.bytes b) = .ok i ↔ i = .bytes b := by
  rw [matchExpr]
  exact ⟨fun h => by cases h; rfl, fun h => by rw [h]⟩

theorem match_lst {l : List ABE} {i : ABItem} (h : matchExpr sc top (.lst l) = .ok i) : ∃ u, i = .bytes u := by
  rw [matchExpr] at h
  split at h
  · obtain ⟨u, -, h2⟩ := ER.map_ok.1 h; exact ⟨u, h2.symm⟩
  · cases h
  · obtain ⟨x, -, h2⟩ := ER.bind_ok.1 h
    obtain ⟨u, -, h2⟩ := ER.map_ok.1 h2
    exact ⟨u, h2.symm⟩

/-- The values of the parts, when the brackets in them have the values that `V` says. -/
inductive ArgV (V : List ABE → Bytes → Prop) : List ABE → Bytes → Prop
  | nil : ArgV V [] []
  | bytes {b : Bytes} {l : List ABE} {v : Bytes} : ArgV V l v → ArgV V (.bytes b :: l) (b ++ v)
  | lst {k : List ABE} {l : List ABE} {u v : Bytes} : V k u → ArgV V l v → ArgV V (.lst k :: l) (u ++ v)

inductive ArgsV (V : List ABE → Bytes → Prop) : List (List ABE) → List Bytes → Prop
  | nil : ArgsV V [] []
  | cons {a : List ABE} {as : List (List ABE)} {v : Bytes} {vs : List Bytes} : ArgV V a v → ArgsV V as vs → ArgsV V (a :: as) (v :: vs)

inductive CallsV (V : List ABE → Bytes → Prop) : List (List ABE × List (List ABE)) → List (Bytes × List Bytes) → Prop
  | nil : CallsV V [] []
  | cons {id : List ABE} {args : List (List ABE)} {i : Bytes} {vs : List Bytes} {cs : List (List ABE × List (List ABE))} {ivs : List (Bytes × List Bytes)} :
      ArgV V id i → ArgsV V args vs → CallsV V cs ivs → CallsV V ((id, args) :: cs) ((i, vs) :: ivs)

/-- Evaluation gives the bracket this value. -/
def MV (sc : Scope) (top : Top) (k : List ABE) (u : Bytes) : Prop := matchExpr sc top (.lst k) = .ok (.bytes u)

theorem arg_items {a : List ABE} {v : Bytes} (h : ArgV (MV sc top) a v) :
    ∃ us : List Bytes, evalItems sc top a = .ok (us.map .bytes) ∧ us.flatten = v ∧ us.length = a.length := by
  induction h with
  | nil => exact ⟨[], rfl, rfl, rfl⟩
  | @bytes b l v _ ih =>
    obtain ⟨us, h1, h2, h3⟩ := ih
    exact ⟨b :: us, evalItems_cons.2 ⟨_, _, match_bytes.2 rfl, h1, rfl⟩, by rw [List.flatten_cons, h2], by simp [h3]⟩
  | @lst k l u v hk _ ih =>
    obtain ⟨us, h1, h2, h3⟩ := ih
    exact ⟨u :: us, evalItems_cons.2 ⟨_, _, hk, h1, rfl⟩, by rw [List.flatten_cons, h2], by simp [h3]⟩

theorem items_arg {a : List ABE} (hp : ∀ e ∈ a, IsPart e) {is : List ABItem} (h : evalItems sc top a = .ok is) :
    ∃ us : List Bytes, is = us.map .bytes ∧ ArgV (MV sc top) a us.flatten ∧ us.length = a.length := by
  induction a generalizing is with
  | nil => rw [evalItems] at h; cases h; exact ⟨[], rfl, .nil, rfl⟩
  | cons e a ih =>
    obtain ⟨i, js, h1, h2, rfl⟩ := evalItems_cons.1 h
    obtain ⟨us, rfl, h4, h5⟩ := ih (fun e he => hp e (by simp [he])) h2
    cases e with
    | ctr c => exact absurd (hp _ List.mem_cons_self) id
    | bytes b =>
      rw [match_bytes.1 h1]
      exact ⟨b :: us, rfl, .bytes h4, by simp [h5]⟩
    | lst k =>
      obtain ⟨u, rfl⟩ := match_lst h1
      exact ⟨u :: us, rfl, .lst h1 h4, by simp [h5]⟩

theorem args_items {args : List (List ABE)} {vs : List Bytes} (h : ArgsV (MV sc top) args vs) :
    ∃ is, evalItems sc top (argsOf args) = .ok is ∧ ∀ acc, is.foldl push acc = acc ++ argEntries vs := by
  induction h with
  | nil => exact ⟨[], rfl, fun acc => by simp [argEntries]⟩
  | @cons a as v vs ha _ ih =>
    obtain ⟨us, h1, h2, -⟩ := arg_items ha
    obtain ⟨is, h3, h4⟩ := ih
    refine ⟨(.ctr .colon :: us.map .bytes) ++ is, ?_, fun acc => ?_⟩
    · have : argsOf (a :: as) = (.ctr .colon :: a) ++ argsOf as := rfl
      rw [this]
      exact evalItems_app.2 ⟨_, _, evalItems_cons.2 ⟨_, _, match_ctr.2 rfl, h1, rfl⟩, h3, rfl⟩
    · rw [List.foldl_append, push_ctr, h4, h2]
      simp [argEntries]

theorem items_args {args : List (List ABE)} (hp : ∀ a ∈ args, ∀ e ∈ a, IsPart e) {is : List ABItem}
    (h : evalItems sc top (argsOf args) = .ok is) : ∃ vs, ArgsV (MV sc top) args vs ∧ ∀ acc, is.foldl push acc = acc ++ argEntries vs := by
  induction args generalizing is with
  | nil =>
    have : argsOf [] = [] := rfl
    rw [this, evalItems] at h; cases h
    exact ⟨[], .nil, fun acc => by simp [argEntries]⟩
  | cons a as ih =>
    have : argsOf (a :: as) = (.ctr .colon :: a) ++ argsOf as := rfl
    rw [this] at h
    obtain ⟨x, y, h1, h2, rfl⟩ := evalItems_app.1 h
    obtain ⟨i, js, h3, h4, rfl⟩ := evalItems_cons.1 h1
    rw [match_ctr.1 h3]
    obtain ⟨us, rfl, h5, -⟩ := items_arg (hp a List.mem_cons_self) h4
    obtain ⟨vs, h6, h7⟩ := ih (fun b hb => hp b (by simp [hb])) h2
    refine ⟨us.flatten :: vs, .cons h5 h6, fun acc => ?_⟩
    rw [List.foldl_append, push_ctr, h7]
    simp [argEntries]

theorem calls_items {cs : List (List ABE × List (List ABE))} {ivs : List (Bytes × List Bytes)} (h : CallsV (MV sc top) cs ivs) :
    ∃ is, evalItems sc top (callsOf cs) = .ok is ∧ ∀ acc, is.foldl push acc = acc ++ (callSegs ivs).flatten := by
  induction h with
  | nil => exact ⟨[], rfl, fun acc => by simp [callSegs]⟩
  | @cons id args i vs cs ivs hi ha _ ih =>
    obtain ⟨us, h1, h2, -⟩ := arg_items hi
    obtain ⟨js, h3, h4⟩ := args_items ha
    obtain ⟨ks, h5, h6⟩ := ih
    refine ⟨((.ctr .fslash :: us.map .bytes) ++ js) ++ ks, ?_, fun acc => ?_⟩
    · have : callsOf ((id, args) :: cs) = ((.ctr .fslash :: id) ++ argsOf args) ++ callsOf cs := rfl
      rw [this]
      exact evalItems_app.2 ⟨_, _, evalItems_app.2 ⟨_, _, evalItems_cons.2 ⟨_, _, match_ctr.2 rfl, h1, rfl⟩, h3, rfl⟩, h5, rfl⟩
    · rw [List.foldl_append, List.foldl_append, push_ctr, h4, h6, h2]
      simp [callSegs]

theorem items_calls {cs : List (List ABE × List (List ABE))} (hp : ∀ c ∈ cs, (∀ e ∈ c.1, IsPart e) ∧ ∀ a ∈ c.2, ∀ e ∈ a, IsPart e) {is : List ABItem}
    (h : evalItems sc top (callsOf cs) = .ok is) :
    ∃ ivs, CallsV (MV sc top) cs ivs ∧ ∀ acc, is.foldl push acc = acc ++ (callSegs ivs).flatten := by
  induction cs generalizing is with
  | nil =>
    have : callsOf [] = [] := rfl
    rw [this, evalItems] at h; cases h
    exact ⟨[], .nil, fun acc => by simp [callSegs]⟩
  | cons c cs ih =>
    obtain ⟨id, args⟩ := c
    have : callsOf ((id, args) :: cs) = ((.ctr .fslash :: id) ++ argsOf args) ++ callsOf cs := rfl
    rw [this] at h
    obtain ⟨x, y, h1, h2, rfl⟩ := evalItems_app.1 h
    obtain ⟨x, z, h3, h4, rfl⟩ := evalItems_app.1 h1
    obtain ⟨i, js, h5, h6, rfl⟩ := evalItems_cons.1 h3
    rw [match_ctr.1 h5]
    have hp0 := hp _ List.mem_cons_self
    obtain ⟨us, rfl, h7, -⟩ := items_arg hp0.1 h6
    obtain ⟨vs, h8, h9⟩ := items_args hp0.2 h4
    obtain ⟨ivs, h10, h11⟩ := ih (fun b hb => hp b (by simp [hb])) h2
    refine ⟨(us.flatten, vs) :: ivs, .cons h7 h8 h10, fun acc => ?_⟩
    rw [List.foldl_append, List.foldl_append, push_ctr, h9, h11]
    simp [callSegs]

/-! ### Applying the calls -/

/-- The calls on values. -/
inductive Run (sc : Scope) (top : Top) : Bytes → List (Bytes × List Bytes) → Bytes → Prop
  | done {c : Bytes} : Run sc top c [] c
  | call {c i r out : Bytes} {vs : List Bytes} {ivs : List (Bytes × List Bytes)} : vs.length ≤ 15 → sc.func top i (c :: vs) false = .value r →
      Run sc top r ivs out → Run sc top c ((i, vs) :: ivs) out

theorem call_ok {id : Bytes} {args : List Bytes} {init : Bool} {r : Bytes} :
    call sc top id args init = .ok r ↔ sc.func top id (if init then args.drop 1 else args) init = .value r := by
  unfold call
  split <;> simp_all

theorem entries_vals (vs : List Bytes) : (argEntries vs).map (·.2) = vs := by
  simp [argEntries, Function.comp_def]

theorem run_iff {c : Bytes} {ivs : List (Bytes × List Bytes)} {out : Bytes} : applySegs sc top c (callSegs ivs) = .ok out ↔ Run sc top c ivs out := by
  induction ivs generalizing c with
  | nil =>
    show ER.ok c = .ok out ↔ _
    constructor
    · intro h; cases h; exact .done
    · intro h; cases h; rfl
  | cons x ivs ih =>
    obtain ⟨i, vs⟩ := x
    show applySegs sc top c (((some .fslash, i) :: argEntries vs) :: callSegs ivs) = .ok out ↔ _
    rw [applySegs.eq_def]
    simp only
    have hlen : ((some Ctr.fslash, i) :: argEntries vs : ABList).length = vs.length + 1 := by simp [argEntries]
    by_cases hl : vs.length ≤ 15
    · rw [if_neg (by rw [hlen]; omega), ER.bind_ok, entries_vals]
      constructor
      · rintro ⟨r, h1, h2⟩
        exact .call hl (call_ok.1 h1) (ih.1 h2)
      · intro h
        cases h with
        | call _ h1 h2 => exact ⟨_, call_ok.2 h1, ih.2 h2⟩
    · rw [if_pos (by rw [hlen]; omega)]
      constructor
      · intro h; cases h
      · intro h
        cases h with
        | call h0 => exact absurd h0 hl

theorem seg_text {vs : List Bytes} (hv : vs ≠ []) {ivs : List (Bytes × List Bytes)} {out : Bytes} :
    applySegs sc top [] (splitFslash (argEntries vs ++ (callSegs ivs).flatten)) = .ok out ↔ vs.length ≤ 16 ∧ Run sc top vs.flatten ivs out := by
  obtain ⟨v, vs, rfl⟩ := List.exists_cons_of_ne_nil hv
  have : argEntries (v :: vs) = (some .colon, v) :: argEntries vs := rfl
  rw [this, split_seg, applySegs.eq_def]
  simp only
  have hlen : ((some Ctr.colon, v) :: argEntries vs : ABList).length = vs.length + 1 := by simp [argEntries]
  have hf : (argEntries vs).flatMap (·.2) = vs.flatten := by rw [List.flatMap_def, entries_vals]
  by_cases hl : vs.length ≤ 15
  · rw [if_neg (by rw [hlen]; omega), hf, run_iff]
    simp [hl]
  · rw [if_pos (by rw [hlen]; omega)]
    simp; omega

theorem seg_call {i : Bytes} {vs : List Bytes} {ivs : List (Bytes × List Bytes)} {out : Bytes} :
    applySegs sc top [] (splitFslash ((none, i) :: argEntries vs ++ (callSegs ivs).flatten)) = .ok out ↔
      vs.length ≤ 15 ∧ ∃ r, sc.func top i vs true = .value r ∧ Run sc top r ivs out := by
  rw [split_seg, applySegs.eq_def]
  simp only
  have hlen : ((none, i) :: argEntries vs : ABList).length = vs.length + 1 := by simp [argEntries]
  by_cases hl : vs.length ≤ 15
  · rw [if_neg (by rw [hlen]; omega), ER.bind_ok, entries_vals]
    constructor
    · rintro ⟨r, h1, h2⟩
      exact ⟨hl, r, call_ok.1 h1, run_iff.1 h2⟩
    · rintro ⟨-, r, h1, h2⟩
      exact ⟨r, call_ok.2 h1, run_iff.2 h2⟩
  · rw [if_pos (by rw [hlen]; omega)]
    constructor
    · intro h; cases h
    · rintro ⟨h, -⟩; exact absurd h hl

/-! ### Content of a bracket -/

/-- Every content is parts, then arguments, then calls. -/
theorem content_split (l : List ABE) : ∃ first args cs, l = first ++ argsOf args ++ callsOf cs ∧ (∀ e ∈ first, IsPart e) ∧
    (∀ a ∈ args, ∀ e ∈ a, IsPart e) ∧ ∀ c ∈ cs, (∀ e ∈ c.1, IsPart e) ∧ ∀ a ∈ c.2, ∀ e ∈ a, IsPart e := by
  induction l with
  | nil => exact ⟨[], [], [], rfl, by simp, by simp, by simp⟩
  | cons e l ih =>
    obtain ⟨first, args, cs, rfl, h1, h2, h3⟩ := ih
    cases e with
    | ctr c =>
      cases c with
      | colon =>
        refine ⟨[], first :: args, cs, rfl, by simp, ?_, h3⟩
        intro a ha
        rcases List.mem_cons.1 ha with rfl | ha
        · exact h1
        · exact h2 a ha
      | fslash =>
        refine ⟨[], [], (first, args) :: cs, ?_, by simp, by simp, ?_⟩
        · show _ = (.ctr .fslash :: (first ++ argsOf args)) ++ callsOf cs
          rfl
        · intro c hc
          rcases List.mem_cons.1 hc with rfl | hc
          · exact ⟨h1, h2⟩
          · exact h3 c hc
    | bytes b =>
      refine ⟨.bytes b :: first, args, cs, rfl, ?_, h2, h3⟩
      intro e he
      rcases List.mem_cons.1 he with rfl | he
      · exact trivial
      · exact h1 e he
    | lst k =>
      refine ⟨.lst k :: first, args, cs, rfl, ?_, h2, h3⟩
      intro e he
      rcases List.mem_cons.1 he with rfl | he
      · exact trivial
      · exact h1 e he

mutual
theorem raw_text (l : List ABE) : RawText l (dumpAbe l) := by
  cases l with
  | nil => exact .nil
  | cons e l => rw [dumpAbe]; exact .cons (raw_one e) (raw_text l)
theorem raw_one (e : ABE) : RawOne e (dumpOne e) := by
  cases e with
  | ctr c => cases c <;> first | exact .colon | exact .slash
  | bytes b => exact .bytes b
  | lst l => rw [dumpOne]; exact .lst (raw_text l)
end

mutual
theorem raw_unique {l : List ABE} {v : Bytes} (h : RawText l v) : v = dumpAbe l := by
  cases h with
  | nil => rfl
  | cons h1 h2 => rw [dumpAbe, raw_unique1 h1, raw_unique h2]
theorem raw_unique1 {e : ABE} {v : Bytes} (h : RawOne e v) : v = dumpOne e := by
  cases h with
  | colon => rfl
  | slash => rfl
  | bytes => rfl
  | lst h => rw [dumpOne, raw_unique h]
end

theorem mac_iff {l : List ABE} {v : Bytes} : macroCall sc top l = .ok v ↔ MacVal sc top l v := by
  have hrun : ∀ id rest, macroCall.run sc top id rest = .ok v ↔ sc.mac top id rest = .value v := by
    intro id rest
    unfold macroCall.run
    split <;> simp_all
  constructor
  · intro h
    unfold macroCall at h
    split at h
    · cases h
    · cases h
    · cases h; exact .raw (raw_text _)
    · exact .unnamed ((hrun _ _).1 h)
    · exact .named ((hrun _ _).1 h)
  · intro h
    cases h with
    | named h => exact (hrun _ _).2 h
    | unnamed h => exact (hrun _ _).2 h
    | raw h => rw [raw_unique h]; rfl

/-- The bracket has this value when its inner brackets have the values that `V` says. -/
inductive BrV (sc : Scope) (top : Top) (V : List ABE → Bytes → Prop) : List ABE → Bytes → Prop
  | empty : BrV sc top V [] []
  | mac {l : List ABE} {v : Bytes} : MacVal sc top l v → BrV sc top V (.ctr .fslash :: l) v
  | text {args : List (List ABE)} {vs : List Bytes} {cs : List (List ABE × List (List ABE))} {ivs : List (Bytes × List Bytes)} {out : Bytes} : args ≠ [] →
      ArgsV V args vs → CallsV V cs ivs → vs.length ≤ 16 → Run sc top vs.flatten ivs out → BrV sc top V (argsOf args ++ callsOf cs) out
  | call {b : Bytes} {more : List ABE} {args : List (List ABE)} {i : Bytes} {vs : List Bytes} {cs : List (List ABE × List (List ABE))}
      {ivs : List (Bytes × List Bytes)} {r out : Bytes} :
      ArgV V (.bytes b :: more) i → ¬ (more.length = 1 ∧ args = [] ∧ cs = []) → ArgsV V args vs → CallsV V cs ivs → vs.length ≤ 15 →
      sc.func top i vs true = .value r → Run sc top r ivs out → BrV sc top V (.bytes b :: more ++ argsOf args ++ callsOf cs) out

theorem argsV_ne {V : List ABE → Bytes → Prop} {args : List (List ABE)} {vs : List Bytes} (h : ArgsV V args vs) : args = [] ↔ vs = [] := by
  cases h <;> simp

theorem shape_call {b : Bytes} {more : List ABE} {args : List (List ABE)} {cs : List (List ABE × List (List ABE))} (hm : ∀ e ∈ more, IsPart e)
    (h : ¬ (more.length = 1 ∧ args = [] ∧ cs = [])) : shape (.bytes b :: more ++ argsOf args ++ callsOf cs) = .plain := by
  cases more with
  | nil =>
    cases args with
    | nil =>
      cases cs with
      | nil => rfl
      | cons c cs => rfl
    | cons a args => rfl
  | cons m more =>
    cases more with
    | nil =>
      cases args with
      | nil =>
        cases cs with
        | nil => exact absurd ⟨rfl, rfl, rfl⟩ h
        | cons c cs => cases m <;> rfl
      | cons a args => cases m <;> rfl
    | cons m' more => cases m <;> rfl

theorem match_iff (l : List ABE) (out : Bytes) : matchExpr sc top (.lst l) = .ok (.bytes out) ↔ BrV sc top (MV sc top) l out := by
  constructor
  · intro h
    rw [matchExpr] at h
    cases hs : shape l with
    | mac tail =>
      rw [hs] at h
      simp only at h
      obtain ⟨u, h1, h2⟩ := ER.map_ok.1 h
      cases h2
      unfold shape at hs
      split at hs
      · cases hs; exact .mac (mac_iff.1 h1)
      all_goals cases hs
    | bad => rw [hs] at h; cases h
    | plain =>
      rw [hs] at h
      simp only at h
      obtain ⟨is, h1, h2⟩ := ER.bind_ok.1 h
      obtain ⟨u, h3, h4⟩ := ER.map_ok.1 h2
      cases h4
      obtain ⟨first, args, cs, rfl, hp1, hp2, hp3⟩ := content_split l
      obtain ⟨x, y, h5, h6, rfl⟩ := evalItems_app.1 h1
      obtain ⟨x, z, h7, h8, rfl⟩ := evalItems_app.1 h5
      obtain ⟨us, rfl, g1, g2⟩ := items_arg hp1 h7
      obtain ⟨vs, g3, g4⟩ := items_args hp2 h8
      obtain ⟨ivs, g5, g6⟩ := items_calls hp3 h6
      unfold fromItems at h3
      rw [List.foldl_append, List.foldl_append, g6, g4] at h3
      cases first with
      | nil =>
        have : us = [] := List.eq_nil_of_length_eq_zero g2
        subst this
        simp only [List.map_nil, List.foldl_nil, List.nil_append] at h3 ⊢
        by_cases ha : args = []
        · subst ha
          have := (argsV_ne g3).1 rfl
          subst this
          cases cs with
          | nil =>
            cases g5
            simp [argEntries, callSegs, splitFslash, applySegs] at h3
            subst h3
            exact .empty
          | cons c cs => cases hs
        · obtain ⟨k1, k2⟩ := (seg_text (fun h => ha ((argsV_ne g3).2 h))).1 h3
          exact .text ha g3 g5 k1 k2
      | cons e first =>
        cases e with
        | ctr c => exact absurd (hp1 _ List.mem_cons_self) id
        | lst k => cases hs
        | bytes b =>
          have hus : us ≠ [] := by intro h; rw [h] at g2; cases g2
          rw [push_first us hus] at h3
          obtain ⟨k1, r, k2, k3⟩ := seg_call.1 h3
          refine .call g1 ?_ g3 g5 k1 k2 k3
          rintro ⟨q1, rfl, rfl⟩
          obtain ⟨m, rfl⟩ := List.length_eq_one_iff.1 q1
          cases m with
          | ctr c => exact absurd (hp1 (.ctr c) (by simp)) id
          | bytes b' => cases hs
          | lst k => cases hs
  · intro h
    cases h with
    | empty =>
      rw [matchExpr]
      simp [shape, evalItems, ER.bind, fromItems, splitFslash, applySegs, ER.map]
    | @mac l v h =>
      rw [matchExpr]
      exact ER.map_ok.2 ⟨_, mac_iff.2 h, rfl⟩
    | @text args vs cs ivs out hne h1 h2 h3 h4 =>
      obtain ⟨is, g1, g2⟩ := args_items h1
      obtain ⟨js, g3, g4⟩ := calls_items h2
      have hsh : shape (argsOf args ++ callsOf cs) = .plain := by
        obtain ⟨a, args, rfl⟩ := List.exists_cons_of_ne_nil hne
        rfl
      rw [matchExpr, hsh]
      refine ER.bind_ok.2 ⟨is ++ js, evalItems_app.2 ⟨_, _, g1, g3, rfl⟩, ER.map_ok.2 ⟨_, ?_, rfl⟩⟩
      unfold fromItems
      rw [List.foldl_append, g2, g4, List.nil_append]
      exact (seg_text (fun h => hne ((argsV_ne h1).2 h))).2 ⟨h3, h4⟩
    | @call b more args i vs cs ivs r out h0 hn h1 h2 h3 h4 h5 =>
      obtain ⟨us, f1, rfl, f3⟩ := arg_items h0
      obtain ⟨is, g1, g2⟩ := args_items h1
      obtain ⟨js, g3, g4⟩ := calls_items h2
      have hmore : ∀ e ∈ more, IsPart e := by
        have : ∀ {V : List ABE → Bytes → Prop} {a : List ABE} {v : Bytes}, ArgV V a v → ∀ e ∈ a, IsPart e := by
          intro V a v h
          induction h with
          | nil => simp
          | bytes _ ih => intro e he; rcases List.mem_cons.1 he with rfl | he; exact trivial; exact ih e he
          | lst _ _ ih => intro e he; rcases List.mem_cons.1 he with rfl | he; exact trivial; exact ih e he
        exact fun e he => this h0 e (List.mem_cons_of_mem _ he)
      rw [matchExpr, shape_call hmore hn]
      refine ER.bind_ok.2 ⟨us.map .bytes ++ is ++ js, evalItems_app.2 ⟨_, _, evalItems_app.2 ⟨_, _, f1, g1, rfl⟩, g3, rfl⟩, ER.map_ok.2 ⟨_, ?_, rfl⟩⟩
      unfold fromItems
      rw [List.foldl_append, List.foldl_append, g4, g2, push_first us (by intro h; rw [h] at f3; cases f3)]
      exact seg_call.2 ⟨h3, r, h4, h5⟩

/-! ### The two readings agree -/

theorem argV_mono {V W : List ABE → Bytes → Prop} {a : List ABE} {v : Bytes} (h : ArgV V a v) (hm : ∀ k u, .lst k ∈ a → V k u → W k u) : ArgV W a v := by
  induction h with
  | nil => exact .nil
  | bytes _ ih => exact .bytes (ih fun k u hk => hm k u (by simp [hk]))
  | lst hk _ ih => exact .lst (hm _ _ (by simp) hk) (ih fun k u hk => hm k u (by simp [hk]))

theorem arg_iff {a : List ABE} {v : Bytes} : Arg sc top a v ↔ ArgV (Br sc top) a v := by
  constructor
  · intro h
    induction a generalizing v with
    | nil => cases h; exact .nil
    | cons e a ih =>
      cases h with
      | bytes h => exact .bytes (ih h)
      | lst h1 h => exact .lst h1 (ih h)
  · intro h
    induction h with
    | nil => exact .nil
    | bytes _ ih => exact .bytes ih
    | lst h _ ih => exact .lst h ih

theorem args_iff {a : List (List ABE)} {vs : List Bytes} : Args sc top a vs ↔ ArgsV (Br sc top) a vs := by
  constructor
  · intro h
    induction a generalizing vs with
    | nil => cases h; exact .nil
    | cons e a ih =>
      cases h with
      | cons h1 h => exact .cons (arg_iff.1 h1) (ih h)
  · intro h
    induction h with
    | nil => exact .nil
    | cons h _ ih => exact .cons (arg_iff.2 h) ih

theorem calls_iff {c : Bytes} {cs : List (List ABE × List (List ABE))} {out : Bytes} :
    Calls sc top c cs out ↔ ∃ ivs, CallsV (Br sc top) cs ivs ∧ Run sc top c ivs out := by
  constructor
  · intro h
    induction cs generalizing c with
    | nil => cases h; exact ⟨[], .nil, .done⟩
    | cons x cs ih =>
      cases h with
      | call h1 h2 h3 h4 h5 =>
        obtain ⟨ivs, g1, g2⟩ := ih h5
        exact ⟨_, .cons (arg_iff.1 h1) (args_iff.1 h2) g1, .call h3 h4 g2⟩
  · rintro ⟨ivs, h1, h2⟩
    induction h1 generalizing c with
    | nil => cases h2; exact .done
    | cons ha hb _ ih =>
      cases h2 with
      | call h3 h4 h5 => exact .call (arg_iff.2 ha) (args_iff.2 hb) h3 h4 (ih h5)

theorem br_iff {l : List ABE} {out : Bytes} : Br sc top l out ↔ BrV sc top (Br sc top) l out := by
  constructor
  · intro h
    cases h with
    | empty => exact .empty
    | mac h => exact .mac h
    | text h1 h2 h3 h4 =>
      obtain ⟨ivs, g1, g2⟩ := calls_iff.1 h4
      exact .text h1 (args_iff.1 h2) g1 h3 g2
    | call h1 h2 h3 h4 h5 h6 =>
      obtain ⟨ivs, g1, g2⟩ := calls_iff.1 h6
      exact .call (arg_iff.1 h1) h2 (args_iff.1 h3) g1 h4 h5 g2
  · intro h
    cases h with
    | empty => exact .empty
    | mac h => exact .mac h
    | text h1 h2 h3 h4 h5 => exact .text h1 (args_iff.2 h2) h4 (calls_iff.2 ⟨_, h3, h5⟩)
    | call h1 h2 h3 h4 h5 h6 h7 => exact .call (arg_iff.2 h1) h2 (args_iff.2 h3) h5 h6 (calls_iff.2 ⟨_, h4, h7⟩)

/-- Two readings of inner brackets that agree on the smaller brackets give the same. -/
theorem brV_mono {V W : List ABE → Bytes → Prop} {l : List ABE} {out : Bytes} (h : BrV sc top V l out)
    (hm : ∀ k u, .lst k ∈ l → V k u → W k u) : BrV sc top W l out := by
  have hargs : ∀ {args : List (List ABE)} {vs : List Bytes}, ArgsV V args vs → (∀ k u, .lst k ∈ argsOf args → V k u → W k u) → ArgsV W args vs := by
    intro args vs h
    induction h with
    | nil => intro _; exact .nil
    | @cons a as v vs ha _ ih =>
      intro hm
      have he : argsOf (a :: as) = (.ctr .colon :: a) ++ argsOf as := rfl
      exact .cons (argV_mono ha fun k u hk => hm k u (by rw [he]; simp [hk])) (ih fun k u hk => hm k u (by rw [he]; simp [hk]))
  have hcalls : ∀ {cs : List (List ABE × List (List ABE))} {ivs : List (Bytes × List Bytes)}, CallsV V cs ivs → (∀ k u, .lst k ∈ callsOf cs → V k u → W k u) → CallsV W cs ivs := by
    intro cs ivs h
    induction h with
    | nil => intro _; exact .nil
    | @cons id args i vs cs ivs h1 h2 _ ih =>
      intro hm
      have he : callsOf ((id, args) :: cs) = ((.ctr .fslash :: id) ++ argsOf args) ++ callsOf cs := rfl
      exact .cons (argV_mono h1 fun k u hk => hm k u (by rw [he]; simp [hk])) (hargs h2 fun k u hk => hm k u (by rw [he]; simp [hk]))
        (ih fun k u hk => hm k u (by rw [he]; simp [hk]))
  cases h with
  | empty => exact .empty
  | mac h => exact .mac h
  | text h1 h2 h3 h4 h5 =>
    exact .text h1 (hargs h2 fun k u hk => hm k u (by simp [hk])) (hcalls h3 fun k u hk => hm k u (by simp [hk])) h4 h5
  | call h1 h2 h3 h4 h5 h6 h7 =>
    exact .call (argV_mono h1 fun k u hk => hm k u (by simp only [List.mem_append]; exact .inl (.inl hk))) h2
      (hargs h3 fun k u hk => hm k u (by simp [hk])) (hcalls h4 fun k u hk => hm k u (by simp [hk])) h5 h6 h7

/-- C57: a bracket has exactly the value its calls give: inner brackets are evaluated first and their values are
arguments as they are, whatever bytes they contain; each call gets the result of the one before as its first argument. -/
theorem bracket_value_iff (l : List ABE) (out : Bytes) : matchExpr sc top (.lst l) = .ok (.bytes out) ↔ Br sc top l out := by
  induction hl : sizeOf l using Nat.strongRecOn generalizing l out with
  | _ n ih =>
    have hsmall : ∀ k, .lst k ∈ l → sizeOf k < n := by
      intro k hk
      have := List.sizeOf_lt_of_mem hk
      have h2 : sizeOf (ABE.lst k) = 1 + sizeOf k := by simp
      omega
    rw [match_iff, br_iff]
    constructor
    · intro h
      exact brV_mono h fun k u hk hv => (ih _ (hsmall k hk) k u rfl).1 hv
    · intro h
      exact brV_mono h fun k u hk hv => (ih _ (hsmall k hk) k u rfl).2 hv

end Verif.Props
