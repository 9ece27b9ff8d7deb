import Verif.Spec.Eval
import Verif.Lemmas.AbList
import Verif.Props.Base64
import Verif.Props.Fit
import Verif.Props.Arith
/-!
# Lemmas about the evaluator
-/
namespace Verif.Eval
open Verif Verif.Ast Verif.Abl Verif.Abe Verif.Abtxt Verif.Num Verif.Fit Verif.Spec Verif.Props

@[simp] theorem orElse_ofOption {α : Type} (o : Option α) (f : Unit → AR α) : (AR.ofOption o).orElse f = AR.ofOption o := by
  cases o <;> rfl
@[simp] theorem orElse_value {α : Type} (v : α) (f : Unit → AR α) : (AR.value v).orElse f = .value v := rfl
@[simp] theorem orElse_err {α : Type} (f : Unit → AR α) : (AR.err).orElse f = .err := rfl
@[simp] theorem orElse_noValue {α : Type} (f : Unit → AR α) : (AR.noValue).orElse f = f () := rfl

theorem evalItems_append (sc : Scope) (top : Top) (a b : List ABE) :
    evalItems sc top (a ++ b) = (evalItems sc top a).bind fun x => (evalItems sc top b).map (x ++ ·) := by
  induction a with
  | nil =>
    rw [List.nil_append, evalItems]
    cases evalItems sc top b <;> rfl
  | cons e a ih =>
    rw [List.cons_append, evalItems, evalItems, ih]
    cases matchExpr sc top e <;> try rfl
    cases evalItems sc top a <;> try rfl
    cases evalItems sc top b <;> rfl

theorem evalItems_items (sc : Scope) (top : Top) (is : List ABItem) : evalItems sc top (is.map ABItem.toAbe) = .ok is := by
  induction is with
  | nil => rfl
  | cons i is ih =>
    rw [List.map_cons, evalItems, ih]
    cases i <;> rfl

theorem eval_toAbe (dbg : Bool) (sc : Scope) (n : Nat) (l : ABList) (h : Delimited l) :
    eval dbg sc (n + 1) (toAbe l) = .ok (dropLead l) := by
  rw [eval, toAbe, evalItems_items]
  show ER.ok (fromItems (items l)) = _
  rw [fromItems_items l h]

/-- A call `id:a:b` in brackets. -/
def callList (id : Bytes) (args : List Bytes) : ABList := (none, id) :: args.map fun a => (some .colon, a)

theorem callList_delimited (id : Bytes) (args : List Bytes) : Delimited (callList id args) := by
  intro e he
  simp [callList] at he
  obtain ⟨a, _, rfl⟩ := he
  simp

theorem takeWhile_colon (args : List Bytes) :
    (args.map fun a => ((some Ctr.colon : Option Ctr), a)).takeWhile (fun v => v.1 != some .fslash) =
      args.map fun a => (some .colon, a) := by
  induction args with
  | nil => rfl
  | cons a args ih =>
    rw [List.map_cons, List.takeWhile_cons, ih]; rfl

theorem dropWhile_colon (args : List Bytes) :
    (args.map fun a => ((some Ctr.colon : Option Ctr), a)).dropWhile (fun v => v.1 != some .fslash) = [] := by
  induction args with
  | nil => rfl
  | cons a args ih =>
    rw [List.map_cons, List.dropWhile_cons, ih]; rfl

theorem split_callList (id : Bytes) (args : List Bytes) : splitFslash (callList id args) = [callList id args] := by
  rw [callList, splitFslash, segRest, takeWhile_colon, dropWhile_colon, splitFslash]

theorem shape_callList (id : Bytes) (hid : id ≠ []) (args : List Bytes) : shape (toAbe (callList id args)) = .plain := by
  obtain ⟨x, xs, rfl⟩ := List.exists_cons_of_ne_nil hid
  cases args with
  | nil => rfl
  | cons a args => cases a <;> rfl

theorem match_callList (sc : Scope) (top : Top) (id : Bytes) (hid : id ≠ []) (args : List Bytes) (hl : args.length ≤ 15) :
    matchExpr sc top (.lst (toAbe (callList id args))) = (call sc top id ([] :: args) true).map .bytes := by
  rw [matchExpr, shape_callList id hid args]
  show (evalItems sc top (toAbe (callList id args))).bind _ = _
  rw [toAbe, evalItems_items]
  show (applySegs sc top [] (splitFslash (fromItems (items (callList id args))))).map _ = _
  rw [fromItems_items _ (callList_delimited id args), dropLead_of_not (by
    intro h; simp [SilentHead, callList] at h; exact hid h), split_callList]
  have h1 : applySegs sc top [] [callList id args] = call sc top id ([] :: args) true := by
    rw [applySegs.eq_def]
    simp only
    rw [if_neg (by simp [callList]; omega)]
    simp only [callList, List.map_map]
    have : args.map ((fun x : ABLV => x.2) ∘ fun a => ((some Ctr.colon : Option Ctr), a)) = args := by
      rw [← List.map_id args, List.map_map]; simp [Function.comp_def]
    show (call sc top id ([] :: args.map ((fun x : ABLV => x.2) ∘ fun a => ((some Ctr.colon : Option Ctr), a))) true).bind _ = _
    rw [this]
    cases call sc top id ([] :: args) true <;> rfl
  rw [h1]

/-- Text of a call. -/
theorem call_text {id : Bytes} (hid : id ≠ []) {w : Bytes} (hw : Spells w id) {s : Bytes} {args : List Bytes}
    (ht : AblTail s (args.map fun a => (some Ctr.colon, a))) {r : Bytes} {t : List ABE} (hr : AbeText r t) :
    AbeText (0x5b :: (w ++ s ++ 0x5d :: r)) (.lst (toAbe (callList id args)) :: t) :=
  AbeText.lst (abeText_of_ablText (AblText.head hw hid ht)) hr

theorem call_value (sc : Scope) (top : Top) (id : Bytes) (args : List Bytes) (b : Bytes)
    (h : sc.func top id args true = .value b) : call sc top id ([] :: args) true = .ok b := by
  simp only [call, if_true, List.drop_succ_cons, List.drop_zero, h]

theorem evalsTo_call (dbg : Bool) (sc : Scope) (n : Nat) {id : Bytes} (hid : id ≠ []) {w : Bytes} (hw : Spells w id)
    {s : Bytes} {args : List Bytes} (hl : args.length ≤ 15) (ht : AblTail s (args.map fun a => (some Ctr.colon, a)))
    {b : Bytes} (hf : sc.func (topAt dbg sc n) id args true = .value b) :
    EvalsTo dbg sc (n + 1) (0x5b :: (w ++ s ++ [0x5d])) b := by
  refine ⟨_, [(none, b)], parse_of_text (call_text hid hw ht .nil) false, ?_, .inl rfl⟩
  rw [eval, evalItems, evalItems, match_callList sc _ id hid args hl]
  have h := call_value sc (topAt dbg sc n) id args b hf
  rw [topAt] at h
  rw [h]
  rfl

/-- Characters that stand for themselves in text. -/
def Self (c : UInt8) : Prop := 0x20 ≤ c ∧ c ≤ 0x7e ∧ c ≠ 0x2f ∧ c ≠ 0x5b ∧ c ≠ 0x5d ∧ c ≠ 0x3a ∧ c ≠ 0x5c
instance (c : UInt8) : Decidable (Self c) := by unfold Self; infer_instance

theorem Self.spells {c : UInt8} (h : Self c) : Spells1 [c] c := by
  obtain ⟨h1, h2, h3, h4, h5, h6, h7⟩ := h
  refine .plain c h1 h2 ?_
  intro k hk
  simp only [special, List.mem_cons, List.not_mem_nil, or_false] at hk
  rcases hk with rfl | rfl | rfl | rfl | rfl
  · exact h3
  · exact h4
  · exact h5
  · exact h6
  · exact h7

theorem spells_self (s : Bytes) (h : ∀ c ∈ s, Self c) : Spells s s := by
  induction s with
  | nil => exact .nil
  | cons c s ih =>
    exact .cons (w := [c]) (h c (by simp)).spells (ih fun d hd => h d (by simp [hd]))

theorem spells_abtxt (b : Bytes) : Spells (asAbtxt b) b := by
  rw [asAbtxt_eq]; exact flatMap_escape_spells b

theorem dec_self (n : Nat) : ∀ c ∈ dec n, Self c := by
  intro c hc
  have h := mem_dec hc
  have key : ∀ c : UInt8, 0x30 ≤ c.toNat ∧ c.toNat ≤ 0x39 → Self c := by
    apply Abtxt.all_u8
    decide +kernel
  exact key c h

theorem urlSafe_self (b : Bytes) : ∀ c ∈ base64 b, Self c := by
  intro c hc
  rw [base64, b64Enc_sext] at hc
  obtain ⟨d, hd, rfl⟩ := List.mem_map.1 hc
  have key : ∀ d : Fin 64, Self (urlSafe.char d.1) := by decide +kernel
  exact key ⟨d, sext_lt b d hd⟩

theorem tail1 {w b : Bytes} (h : Spells w b) : AblTail (0x3a :: w) ([b].map fun a => (some Ctr.colon, a)) := by
  have := AblTail.colon h .nil
  rw [List.append_nil] at this
  exact this

theorem evalsTo_bracket (dbg : Bool) (sc : Scope) (n : Nat) {id : Bytes} (hid : id ≠ []) (hs : ∀ c ∈ id, Self c)
    {w x : Bytes} (hw : Spells w x) {b : Bytes} (hf : sc.func (topAt dbg sc n) id [x] true = .value b) :
    EvalsTo dbg sc (n + 1) (bracket id w) b := by
  have := evalsTo_call dbg sc n hid (spells_self id hs) (by simp) (tail1 hw) hf
  rw [List.append_assoc] at this
  exact this

theorem evalsTo_bracket2 (dbg : Bool) (sc : Scope) (n : Nat) {id : Bytes} (hid : id ≠ []) (hs : ∀ c ∈ id, Self c)
    {w x v y : Bytes} (hw : Spells w x) (hv : Spells v y) {b : Bytes}
    (hf : sc.func (topAt dbg sc n) id [x, y] true = .value b) :
    EvalsTo dbg sc (n + 1) (bracket id (w ++ 0x3a :: v)) b := by
  have h2 : AblTail (0x3a :: (w ++ 0x3a :: v)) ([x, y].map fun a => (some Ctr.colon, a)) := .colon hw (tail1 hv)
  have := evalsTo_call dbg sc n hid (spells_self id hs) (by simp) h2 hf
  rw [List.append_assoc] at this
  exact this

theorem evalsTo_abtxt (dbg : Bool) (sc : Scope) (n : Nat) (b : Bytes) : EvalsTo dbg sc (n + 1) (asAbtxt b) b := by
  cases b with
  | nil => 
    refine ⟨[], [], ?_, rfl, .inr ⟨rfl, rfl⟩⟩
    rw [asAbtxt_eq]
    exact parse_of_text .nil false
  | cons x b =>
    refine ⟨[.bytes (x :: b)], [(none, x :: b)], ?_, rfl, .inl rfl⟩
    have := AbeText.bytes (spells_abtxt (x :: b)) (by simp) (t := []) trivial .nil
    rw [List.append_nil] at this
    exact parse_of_text this false

theorem evalsTo_recheck (dbg : Bool) (sc : Scope) (n : Nat) (st b : Bytes) :
    EvalsTo dbg sc n st b ↔ recheck (topAt dbg sc n) st b = true := by
  unfold recheck EvalsTo
  cases hp : parseStrict st with
  | error e => simp
  | ok abe =>
    show _ ↔ (match eval dbg sc n abe with | .ok l => asExactBytes l == some b | _ => false) = true
    constructor
    · rintro ⟨abe', l, h1, h2, h3⟩
      cases h1
      rw [h2]
      rcases h3 with rfl | ⟨rfl, rfl⟩ <;> simp [asExactBytes]
    · intro h
      split at h
      · rename_i l hl
        refine ⟨abe, l, rfl, hl, ?_⟩
        simp at h
        unfold asExactBytes at h
        split at h
        · cases h; exact .inr ⟨rfl, rfl⟩
        · cases h; exact .inl rfl
        · cases h
      · cases h

/-! ### The option loop -/

theorem splitBy_mem {α : Type} (p : α → Bool) (l : List α) (seg : List α) (h : seg ∈ splitBy p l) (x : α) (hx : x ∈ seg) :
    x ∈ l := by
  induction l generalizing seg with
  | nil => simp [splitBy] at h; subst h; cases hx
  | cons y l ih =>
    rw [splitBy] at h
    split at h
    · rcases List.mem_cons.1 h with rfl | h
      · cases hx
      · exact List.mem_cons_of_mem _ (ih seg h hx)
    · split at h
      · rename_i a t hs
        rcases List.mem_cons.1 h with rfl | h
        · rcases List.mem_cons.1 hx with rfl | hx
          · simp
          · exact List.mem_cons_of_mem _ (ih a (by rw [hs]; simp) hx)
        · exact List.mem_cons_of_mem _ (ih seg (by rw [hs]; simp [h]) hx)
      · simp at h; subst h; simp at hx; subst hx; simp

theorem optOf_fn {seg : List ABE} {id : Bytes} {args : List ABE} (h : optOf seg = .fn id args) : id = [] ∨ .bytes id ∈ seg := by
  unfold optOf at h
  split at h <;> cases h
  · exact .inl rfl
  · exact .inr (by simp)
  · exact .inr (by simp)

theorem encLoop_sound (dbg : Bool) (sc : Scope) (n : Nat) (bytes : Bytes) (ignore : Bool) (segs : List (List ABE))
    (hs : ∀ seg ∈ segs, ∀ id args, optOf seg = .fn id args →
      sc.enc id args bytes ≠ .abort ∧ ∀ st, sc.enc id args bytes = .value st → EvalsTo dbg sc (n + 1) st bytes) :
    encLoop (topAt dbg sc (n + 1)) bytes ignore segs ≠ .abort ∧
      ∀ st, encLoop (topAt dbg sc (n + 1)) bytes ignore segs = .ok st → EvalsTo dbg sc (n + 1) st bytes := by
  induction segs with
  | nil => simp [encLoop]
  | cons seg segs ih =>
    have ih := ih fun s h => hs s (List.mem_cons_of_mem _ h)
    have h0 := hs seg (by simp)
    rw [encLoop]
    cases ho : optOf seg with
    | text =>
      refine ⟨by simp, fun st h => ?_⟩
      cases h
      exact evalsTo_abtxt dbg sc n bytes
    | bad => simp
    | fn id args =>
      obtain ⟨ha, hv⟩ := h0 id args ho
      simp only
      have he : (topAt dbg sc (n + 1)).enc id args bytes = sc.enc id args bytes := rfl
      rw [he]
      cases hr : sc.enc id args bytes with
      | noValue => exact ih
      | abort => exact absurd hr ha
      | err =>
        simp only
        split
        · exact ih
        · simp
      | value st =>
        have h1 := hv st hr
        rw [evalsTo_recheck] at h1
        simp only [h1, Bool.not_true, Bool.and_false, Bool.false_eq_true, if_false]
        refine ⟨by simp, fun st' h => ?_⟩
        cases h
        exact hv st hr

end Verif.Eval
