import Verif.Spec.SpMatch
import Verif.Lemmas.Space
/-!
# C106: space patterns
-/
namespace Verif.Props
open Verif Verif.Spec Verif.Space

variable {V : Type}

theorem encode_cons (c : Bytes) (cs : List Bytes) : encodeSpace (c :: cs) = (UInt8.ofNat c.length :: c) ++ encodeSpace cs := rfl

theorem next_cons {c : Bytes} {cs : List Bytes} (h : ValidComps (c :: cs)) : iterNext (encodeSpace (c :: cs)) = .item c (encodeSpace cs) := by
  rw [encode_cons]; exact iterNext_enc (h c (by simp))

theorem valid_tail {c : Bytes} {cs : List Bytes} (h : ValidComps (c :: cs)) : ValidComps cs := fun x hx => h x (by simp [hx])

theorem pat_nil (dots : Bool) {cs : List Bytes} (h : ValidComps cs) :
    patIter (V := V) dots [] (encodeSpace cs) = .ok (if dots then some ([], some (encodeSpace cs)) else if cs = [] then some ([], none) else none) := by
  rw [patIter]
  cases dots with
  | true => rfl
  | false => cases cs with
    | nil => rfl
    | cons c cs => rw [next_cons h]; rfl

/-- On a space the arm for a last element is that for an element with nothing after it. -/
theorem pat_cons (dots : Bool) (e : PatElem V) (es : List (PatElem V)) {c : Bytes} {cs : List Bytes} (h : ValidComps (c :: cs)) {o : Option (List V × Option Bytes)}
    (ho : patIter dots es (encodeSpace cs) = .ok o) :
    patIter dots (e :: es) (encodeSpace (c :: cs)) = .ok ((e.on c).bind fun vs => o.map fun r => (vs ++ r.1, r.2)) := by
  cases es with
  | nil =>
    rw [pat_nil dots (valid_tail h)] at ho
    rw [patIter, next_cons h]
    cases ho
    cases dots with
    | true => cases he : e.on c <;> simp [he]
    | false =>
      cases cs with
      | nil => simp only [show iterNext (encodeSpace []) = .done from rfl]; cases he : e.on c <;> simp [he]
      | cons d cs => simp only [next_cons (valid_tail h)]; cases he : e.on c <;> simp [he]
  | cons e' es =>
    rw [patIter]
    · rw [next_cons h]
      simp only [ho]
      cases e.on c with
      | none => rfl
      | some vs => cases o <;> rfl
    · simp

/-- **C106**: no pattern panics on a space. -/
theorem sp_match_total (es : List (PatElem V)) (dots : Bool) {cs : List Bytes} (h : ValidComps cs) : ∃ o, spMatch (encodeSpace cs) es dots = .ok o := by
  show ∃ o, patIter dots es (encodeSpace cs) = .ok o
  induction es generalizing cs with
  | nil => exact ⟨_, pat_nil dots h⟩
  | cons e es ih =>
    cases cs with
    | nil => cases es <;> exact ⟨none, by simp [patIter, encodeSpace, iterNext]⟩
    | cons c cs =>
      obtain ⟨o, ho⟩ := ih (valid_tail h)
      exact ⟨_, pat_cons dots e es h ho⟩

theorem on_fits {e : PatElem V} {es : List (PatElem V)} {cs : List Bytes} {us : List V} :
    Fits (e :: es) cs us ↔ ∃ c cs' vs ws, cs = c :: cs' ∧ e.on c = some vs ∧ Fits es cs' ws ∧ us = vs ++ ws := by
  constructor
  · intro h
    cases h with
    | is b h => exact ⟨_, _, [], _, rfl, by simp [PatElem.on], h, rfl⟩
    | take hc h => exact ⟨_, _, [_], _, rfl, by simp [PatElem.on, hc], h, rfl⟩
  · rintro ⟨c, cs', vs, ws, rfl, he, hf, rfl⟩
    cases e with
    | is b =>
      simp only [PatElem.on] at he
      split at he
      · rename_i hb; cases he; rw [hb]; exact .is b hf
      · cases he
    | take conv =>
      simp only [PatElem.on] at he
      cases hc : conv c with
      | none => rw [hc] at he; cases he
      | some v => rw [hc] at he; cases he; exact .take hc hf

/-- **C106**: a pattern has a result on a space exactly if the space is as it says. -/
theorem sp_match_iff (es : List (PatElem V)) (dots : Bool) {cs : List Bytes} (h : ValidComps cs) (vs : List V) (rest : Option Bytes) :
    spMatch (encodeSpace cs) es dots = .ok (some (vs, rest)) ↔ Matches es dots cs vs rest := by
  show patIter dots es (encodeSpace cs) = _ ↔ _
  induction es generalizing cs vs with
  | nil =>
    rw [pat_nil dots h]
    constructor
    · intro hm
      cases dots with
      | true => simp at hm; exact ⟨[], cs, rfl, by rw [hm.1]; exact .nil, hm.2.symm⟩
      | false => cases cs with
        | nil => simp at hm; exact ⟨[], [], rfl, by rw [hm.1]; exact .nil, rfl, hm.2.symm⟩
        | cons c cs => simp at hm
    · rintro ⟨front, back, rfl, hf, hd⟩
      cases hf
      cases dots with
      | true => simp only at hd; subst hd; rfl
      | false => obtain ⟨rfl, rfl⟩ := hd; rfl
  | cons e es ih =>
    cases cs with
    | nil =>
      constructor
      · intro hm; cases es <;> simp [patIter, encodeSpace, iterNext] at hm
      · rintro ⟨front, back, hc, hf, _⟩
        obtain ⟨rfl, rfl⟩ : front = [] ∧ back = [] := by simpa using hc.symm
        cases hf
    | cons c cs =>
      obtain ⟨o, ho⟩ := sp_match_total es dots (valid_tail h)
      rw [pat_cons dots e es h ho]
      constructor
      · intro hm
        cases he : e.on c with
        | none => rw [he] at hm; cases hm
        | some us =>
          cases o with
          | none => rw [he] at hm; cases hm
          | some r =>
            obtain ⟨ws, r⟩ := r
            rw [he] at hm
            simp at hm
            obtain ⟨rfl, rfl⟩ := hm
            obtain ⟨front, back, rfl, hf, hd⟩ := (ih (valid_tail h) ws).1 ho
            exact ⟨c :: front, back, rfl, on_fits.2 ⟨c, front, us, ws, rfl, he, hf, rfl⟩, hd⟩
      · rintro ⟨front, back, hc, hf, hd⟩
        obtain ⟨c', front', us, ws, rfl, he, hf', rfl⟩ := on_fits.1 hf
        obtain ⟨rfl, rfl⟩ : c = c' ∧ cs = front' ++ back := by simpa using hc
        have := (ih (valid_tail h) ws).2 ⟨front', back, rfl, hf', hd⟩
        have ho' : patIter dots es (encodeSpace (front' ++ back)) = .ok o := ho
        rw [this] at ho'
        cases ho'
        rw [he]; rfl

theorem fits_append {es es' : List (PatElem V)} {cs : List Bytes} {us : List V} :
    Fits (es ++ es') cs us ↔ ∃ a b vs ws, cs = a ++ b ∧ us = vs ++ ws ∧ Fits es a vs ∧ Fits es' b ws := by
  induction es generalizing cs us with
  | nil =>
    constructor
    · intro h; exact ⟨[], cs, [], us, rfl, rfl, .nil, h⟩
    · rintro ⟨a, b, vs, ws, rfl, rfl, h1, h2⟩; cases h1; exact h2
  | cons e es ih =>
    rw [List.cons_append, on_fits]
    constructor
    · rintro ⟨c, cs', vs, ws, rfl, he, hf, rfl⟩
      obtain ⟨a, b, v1, w1, rfl, rfl, h1, h2⟩ := ih.1 hf
      exact ⟨c :: a, b, vs ++ v1, w1, rfl, by simp, on_fits.2 ⟨c, a, vs, v1, rfl, he, h1, rfl⟩, h2⟩
    · rintro ⟨a, b, vs, ws, rfl, rfl, h1, h2⟩
      obtain ⟨c, a', v0, v1, rfl, he, hf, rfl⟩ := on_fits.1 h1
      exact ⟨c, a' ++ b, v0, v1 ++ ws, rfl, he, ih.2 ⟨a', b, v1, ws, rfl, rfl, hf, h2⟩, by simp⟩

theorem encode_inj {cs ds : List Bytes} (hc : ValidComps cs) (hd : ValidComps ds) (h : encodeSpace cs = encodeSpace ds) : cs = ds := by
  have h1 := iter_encode hc
  rw [h, iter_encode hd] at h1
  cases h1; rfl

/-- **C106**: matching a pattern in two steps, the second on the rest the first one leaves, is matching it in one. -/
theorem sp_match_rest (es es' : List (PatElem V)) (dots : Bool) {cs : List Bytes} (h : ValidComps cs) (us : List V) (r : Option Bytes) :
    spMatch (encodeSpace cs) (es ++ es') dots = .ok (some (us, r)) ↔
      ∃ vs ws rest, us = vs ++ ws ∧ spMatch (encodeSpace cs) es true = .ok (some (vs, some rest)) ∧ spMatch rest es' dots = .ok (some (ws, r)) := by
  rw [sp_match_iff _ _ h]
  constructor
  · rintro ⟨front, back, rfl, hf, hd⟩
    obtain ⟨a, b, vs, ws, rfl, rfl, h1, h2⟩ := fits_append.1 hf
    have hv : ValidComps (b ++ back) := fun x hx => h x (by simp at hx ⊢; rcases hx with hx | hx <;> simp [hx])
    refine ⟨vs, ws, encodeSpace (b ++ back), rfl, ?_, ?_⟩
    · exact (sp_match_iff _ _ h _ _).2 ⟨a, b ++ back, by simp, h1, rfl⟩
    · exact (sp_match_iff _ _ hv _ _).2 ⟨b, back, rfl, h2, hd⟩
  · rintro ⟨vs, ws, rest, rfl, h1, h2⟩
    obtain ⟨a, mid, rfl, hf, hr⟩ := (sp_match_iff _ _ h _ _).1 h1
    simp only [Option.some.injEq] at hr
    subst hr
    have hv : ValidComps mid := fun x hx => h x (by simp [hx])
    obtain ⟨b, back, rfl, hg, hd⟩ := (sp_match_iff _ _ hv _ _).1 h2
    exact ⟨a ++ b, back, by simp, fits_append.2 ⟨a, b, vs, ws, rfl, rfl, hf, hg⟩, hd⟩

/-- **C106**: a pattern of literals is the space it spells, and no other. -/
theorem sp_match_literal {cs ds : List Bytes} (h : ValidComps cs) : (spMatch (V := V) (encodeSpace cs) (ds.map .is) false = .ok (some ([], none))) ↔ cs = ds := by
  rw [sp_match_iff _ _ h]
  constructor
  · rintro ⟨front, back, rfl, hf, rfl, _⟩
    rw [List.append_nil]
    clear h
    induction ds generalizing front with
    | nil => cases hf; rfl
    | cons d ds ih => cases hf with | is _ hf => rw [ih _ hf]
  · rintro rfl
    refine ⟨cs, [], by simp, ?_, rfl, rfl⟩
    clear h
    induction cs with
    | nil => exact .nil
    | cons c cs ih => exact .is c ih

/-- Of bytes that are no space (here the last component is cut short) a pattern takes what is cut short for the end. -/
theorem sp_match_raw : spMatch (V := Bytes) [1, 97, 5, 98] [.is [97]] false = .ok (some ([], none)) ∧ ¬ ∃ cs, ValidComps cs ∧ encodeSpace cs = [1, 97, 5, 98] := by
  refine ⟨by decide +kernel, ?_⟩
  rintro ⟨cs, hv, he⟩
  match cs, hv, he with
  | [], _, he => cases he
  | c :: cs, hv, he =>
    have h1 := next_cons hv
    rw [he] at h1
    have h2 : iterNext [1, 97, 5, 98] = .item [97] [5, 98] := by decide
    rw [h2] at h1
    injection h1 with _ h
    have hv' := valid_tail hv
    clear he h2
    match cs, hv', h with
    | [], _, h => cases h
    | d :: ds, hv', h =>
      have h3 := next_cons hv'
      rw [← h] at h3
      have h4 : iterNext [5, 98] = .done := by decide
      rw [h4] at h3
      cases h3

/-- The case of the test: two components, the first taken as five bytes, the second compared; and the same with the rest left over. -/
theorem sp_match_example :
    let five : PatElem Bytes := .take fun b => if b.length = 5 then some b else none
    let sp : Bytes := encodeSpace [[104, 101, 108, 108, 111], [119, 111]]
    spMatch sp [five, .is [119, 111]] false = .ok (some ([[104, 101, 108, 108, 111]], none)) ∧ spMatch sp [five] false = .ok none ∧
      spMatch sp [five] true = .ok (some ([[104, 101, 108, 108, 111]], some [2, 119, 111])) := by
  refine ⟨?_, ?_, ?_⟩ <;> rfl

end Verif.Props
