import Verif.Lemmas.Ast
/-! Lemmas about the component splitter `tokenize_abe`. -/
namespace Verif.Ast
open Verif Verif.Abtxt Verif.Spec

/-- excluded characters as a predicate on the bit set -/
def PlainIn (p : UInt32) (k : CtrChar) : Prop := p &&& k.bit ≠ 0

theorem tryFromChar_eq {b k} (h : CtrChar.tryFromChar b = some k) : b = k.asChar := by
  unfold CtrChar.tryFromChar at h
  repeat' split at h
  all_goals cases h
  all_goals simp_all [CtrChar.asChar]

theorem tryFromChar_asChar (k : CtrChar) : CtrChar.tryFromChar k.asChar = some k := by
  cases k <;> rfl

theorem nextByte_plain {p : UInt32} {k : CtrChar} (h : PlainIn p k) (s : Bytes) :
    nextByte p 0 (k.asChar :: s) = .ok (.byte k.asChar s) := by
  simp only [nextByte, tryFromChar_asChar]
  unfold PlainIn at h
  simp [h]

theorem nextByte_ctr0 {p : UInt32} {k : CtrChar} (h : ¬ PlainIn p k) (s : Bytes) :
    nextByte p 0 (k.asChar :: s) = .ok (.ctr k s) := by
  rw [nextByte_ctr_iff]
  unfold PlainIn at h
  simp at h
  exact ⟨rfl, by simp, h⟩

theorem nextByte_byte_cases {p s b rest} (h : nextByte p 0 s = .ok (.byte b rest)) :
    (∃ w, Spells1 w b ∧ s = w ++ rest) ∨ (∃ k, s = CtrChar.asChar k :: rest ∧ PlainIn p k) := by
  cases hs : nextByte stdPlain stdErr s with
  | ok t =>
    cases t with
    | byte b' r' =>
      obtain ⟨w, hw, rfl⟩ := nextByte_std_byte hs
      rw [nextByte_spells1 hw] at h
      cases h
      exact .inl ⟨w, hw, rfl⟩
    | finished => rw [nextByte_finished_iff] at hs; subst hs; cases h
    | ctr k r =>
      obtain ⟨rfl, _, _⟩ := nextByte_ctr_iff.mp hs
      by_cases hp : PlainIn p k
      · rw [nextByte_plain hp] at h; cases h; exact .inr ⟨k, rfl, hp⟩
      · rw [nextByte_ctr0 hp] at h; cases h
  | error e =>
    unfold nextByte at h hs
    split at h
    · cases h
    · rename_i c r
      split at h
      · rename_i k hk
        simp only [hk] at hs
        have := tryFromChar_eq hk
        subst this
        by_cases hp : PlainIn p k
        · unfold PlainIn at hp
          simp [hp] at h
          obtain ⟨rfl, rfl⟩ := h
          exact .inr ⟨k, rfl, hp⟩
        · unfold PlainIn at hp
          simp at hp
          simp [hp] at h
      · rename_i hk
        simp only [hk] at hs
        rw [hs] at h; cases h

theorem tokenizeStep_byte {p d i c s b rest} (h : nextByte p 0 s = .ok (.byte b rest)) :
    tokenizeStep p 0 d i c s = tokenizeStep p 0 d i (c ++ s.take (s.length - rest.length)) rest := by
  rw [tokenizeStep]
  split <;> (rename_i hx; rw [h] at hx; cases hx)
  rfl

theorem tokenizeStep_ctr {p d i c s k rest} (h : nextByte p 0 s = .ok (.ctr k rest)) :
    tokenizeStep p 0 d i c s =
      (if d = 0 ∧ !k.isBracket then .ok (i, c, some (k.asChar, rest))
       else match stepDepth d k with
        | .error e => .error e
        | .ok d => tokenizeStep p 0 d true (c ++ s.take (s.length - rest.length)) rest) := by
  rw [tokenizeStep]
  split <;> (rename_i hx; rw [h] at hx; cases hx)
  rfl

theorem tokenizeStep_nil {p d i c} :
    tokenizeStep p 0 d i c [] = if d ≠ 0 then .error .unmatchedOpen else .ok (i, c, none) := by
  rw [tokenizeStep]
  split <;> (rename_i hx; simp [nextByte] at hx)
  rfl

theorem take_pre (w rest : Bytes) : (w ++ rest).take ((w ++ rest).length - rest.length) = w := by
  simp

theorem take_one (c : UInt8) (rest : Bytes) :
    (c :: rest).take ((c :: rest).length - rest.length) = [c] := by
  simp

theorem step_inner {p i} (h : Inner (PlainIn p) i) : ∀ d inn c r, ¬ PlainIn p .cbr →
    tokenizeStep p 0 (d+1) inn c (i ++ 0x5d :: r) = tokenizeStep p 0 d true (c ++ i ++ [0x5d]) r := by
  induction h with
  | nil =>
    intro d inn c r hc
    rw [List.nil_append, show (0x5d :: r : Bytes) = CtrChar.cbr.asChar :: r from rfl,
      tokenizeStep_ctr (nextByte_ctr0 (k := .cbr) hc r)]
    simp only [stepDepth, Nat.add_sub_cancel, Nat.add_eq_zero_iff, Nat.one_ne_zero, and_false, if_false, false_and,
      take_one, List.append_nil, CtrChar.asChar]
  | @byte w b s hw _ ih =>
    intro d inn c r hc
    rw [List.append_assoc, tokenizeStep_byte (nextByte_spells1 hw _ _ _), take_pre, ih _ _ _ _ hc]
    simp
  | @plain k s hk _ ih =>
    intro d inn c r hc
    rw [List.cons_append, tokenizeStep_byte (nextByte_plain hk _), take_one, ih _ _ _ _ hc]
    simp
  | @ctr k s hk hb _ ih =>
    intro d inn c r hc
    rw [List.cons_append, tokenizeStep_ctr (nextByte_ctr0 hk _), take_one]
    have : stepDepth (d+1) k = .ok (d+1) := by cases k <;> simp_all [stepDepth, CtrChar.isBracket]
    simp [this, ih _ _ _ _ hc]
  | @grp i s ho hc' _ _ ih1 ih2 =>
    intro d inn c r hc
    have e : (UInt8.ofNat '['.toNat :: (i ++ UInt8.ofNat ']'.toNat :: s)) ++ 0x5d :: r
        = CtrChar.obr.asChar :: (i ++ 0x5d :: (s ++ 0x5d :: r)) := by simp [CtrChar.asChar]
    rw [e, tokenizeStep_ctr (nextByte_ctr0 ho _), take_one]
    simp only [stepDepth, Nat.add_eq_zero_iff, Nat.one_ne_zero, and_false, if_false, false_and]
    rw [ih1 _ _ _ _ hc, ih2 _ _ _ _ hc]
    simp [CtrChar.asChar]

theorem step_comp {p f s} (h : Comp (PlainIn p) f s) : ∀ inn c r,
    tokenizeStep p 0 0 inn c (s ++ r) = tokenizeStep p 0 0 (inn || f) (c ++ s) r := by
  induction h with
  | nil => intro inn c r; simp
  | @byte w b s f hw _ ih =>
    intro inn c r
    rw [List.append_assoc, tokenizeStep_byte (nextByte_spells1 hw _ _ _), take_pre, ih]
    simp
  | @plain k s f hk _ ih =>
    intro inn c r
    rw [List.cons_append, tokenizeStep_byte (nextByte_plain hk _), take_one, ih]
    simp
  | @grp i s f ho hc hi _ ih =>
    intro inn c r
    have e : (UInt8.ofNat '['.toNat :: (i ++ UInt8.ofNat ']'.toNat :: s)) ++ r
        = CtrChar.obr.asChar :: (i ++ 0x5d :: (s ++ r)) := by simp [CtrChar.asChar]
    rw [e, tokenizeStep_ctr (nextByte_ctr0 ho _), take_one]
    simp only [stepDepth, CtrChar.isBracket, Bool.not_true, Bool.false_eq_true, and_false, if_false]
    rw [step_inner hi _ _ _ _ hc, ih]
    simp [CtrChar.asChar]

theorem tokenizeStep_err {p d i c s e} (h : nextByte p 0 s = .error e) :
    tokenizeStep p 0 d i c s = .error (.ab e) := by
  rw [tokenizeStep]
  split <;> (rename_i hx; rw [h] at hx; cases hx)
  rfl

theorem step_inner_inv {p} {d inn c s res} (h : tokenizeStep p 0 (d+1) inn c s = .ok res) :
    ∃ i r, Inner (PlainIn p) i ∧ ¬ PlainIn p .cbr ∧ s = i ++ 0x5d :: r := by
  induction hl : s.length using Nat.strongRecOn generalizing d inn c s res with
  | _ len ih =>
    cases hb : nextByte p 0 s with
    | error e => rw [tokenizeStep_err hb] at h; cases h
    | ok tk =>
      cases tk with
      | finished =>
        rw [nextByte_finished_iff] at hb; subst hb
        rw [tokenizeStep_nil] at h; simp at h
      | byte b rest =>
        rw [tokenizeStep_byte hb] at h
        have hlt := nextByte_byte_lt hb
        obtain ⟨i, r, h1, h2, h3⟩ := ih rest.length (by omega) h rfl
        rcases nextByte_byte_cases hb with ⟨w, hw, rfl⟩ | ⟨k, rfl, hk⟩
        · exact ⟨w ++ i, r, .byte hw h1, h2, by simp [h3]⟩
        · exact ⟨k.asChar :: i, r, .plain hk h1, h2, by simp [h3]⟩
      | ctr k rest =>
        have hlt := nextByte_ctr_lt hb
        obtain ⟨rfl, _, hk⟩ := nextByte_ctr_iff.mp hb
        have hk : ¬ PlainIn p k := by simp [PlainIn, hk]
        rw [tokenizeStep_ctr hb] at h
        simp only [Nat.add_eq_zero_iff, Nat.one_ne_zero, and_false, if_false, false_and] at h
        by_cases hbr : k.isBracket = true
        · cases k <;> simp [CtrChar.isBracket] at hbr
          · -- open
            simp only [stepDepth] at h
            obtain ⟨i, r, h1, h2, rfl⟩ := ih rest.length (by omega) h rfl
            rw [step_inner h1 _ _ _ _ h2] at h
            obtain ⟨i2, r2, h4, _, rfl⟩ := ih r.length (by simp at hlt hl; omega) h rfl
            exact ⟨0x5b :: (i ++ 0x5d :: i2), r2, .grp hk h2 h1 h4, h2, by simp [CtrChar.asChar]⟩
          · exact ⟨[], rest, .nil, hk, rfl⟩
        · have hbr : k.isBracket = false := by simpa using hbr
          have : stepDepth (d+1) k = .ok (d+1) := by cases k <;> simp_all [stepDepth, CtrChar.isBracket]
          simp only [this] at h
          obtain ⟨i, r, h1, h2, h3⟩ := ih rest.length (by omega) h rfl
          exact ⟨k.asChar :: i, r, .ctr hk hbr h1, h2, by simp [h3]⟩

theorem step_comp_inv {p} {inn c s inner comp tail}
    (h : tokenizeStep p 0 0 inn c s = .ok (inner, comp, tail)) :
    ∃ f x, Comp (PlainIn p) f x ∧ inner = (inn || f) ∧ comp = c ++ x ∧
      ((tail = none ∧ s = x) ∨ ∃ k rest, Sep (PlainIn p) k ∧ tail = some (k.asChar, rest) ∧
        s = x ++ k.asChar :: rest) := by
  induction hl : s.length using Nat.strongRecOn generalizing inn c s with
  | _ len ih =>
    cases hb : nextByte p 0 s with
    | error e => rw [tokenizeStep_err hb] at h; cases h
    | ok tk =>
      cases tk with
      | finished =>
        rw [nextByte_finished_iff] at hb; subst hb
        rw [tokenizeStep_nil] at h
        simp at h
        obtain ⟨rfl, rfl, rfl⟩ := h
        exact ⟨false, [], .nil, by simp, by simp, .inl ⟨rfl, rfl⟩⟩
      | byte b rest =>
        rw [tokenizeStep_byte hb] at h
        have hlt := nextByte_byte_lt hb
        obtain ⟨f, x, h1, h2, h3, h4⟩ := ih rest.length (by omega) h rfl
        rcases nextByte_byte_cases hb with ⟨w, hw, rfl⟩ | ⟨k, rfl, hk⟩
        · refine ⟨f, w ++ x, .byte hw h1, h2, by rw [h3, take_pre]; simp, ?_⟩
          rcases h4 with ⟨h4, rfl⟩ | ⟨k, r, h5, h6, rfl⟩
          · exact .inl ⟨h4, rfl⟩
          · exact .inr ⟨k, r, h5, h6, by simp⟩
        · refine ⟨f, k.asChar :: x, .plain hk h1, h2, by rw [h3, take_one]; simp, ?_⟩
          rcases h4 with ⟨h4, rfl⟩ | ⟨k', r, h5, h6, rfl⟩
          · exact .inl ⟨h4, rfl⟩
          · exact .inr ⟨k', r, h5, h6, by simp⟩
      | ctr k rest =>
        have hlt := nextByte_ctr_lt hb
        obtain ⟨rfl, _, hk⟩ := nextByte_ctr_iff.mp hb
        have hk : ¬ PlainIn p k := by simp [PlainIn, hk]
        rw [tokenizeStep_ctr hb] at h
        by_cases hbr : k.isBracket = true
        · simp only [hbr, Bool.not_true, Bool.false_eq_true, and_false, if_false] at h
          cases k <;> simp [CtrChar.isBracket] at hbr
          · simp only [stepDepth] at h
            obtain ⟨i, r, h1, h2, rfl⟩ := step_inner_inv h
            rw [step_inner h1 _ _ _ _ h2] at h
            obtain ⟨f, x, h3, h4, h5, h6⟩ := ih r.length (by simp at hlt hl; omega) h rfl
            refine ⟨true, 0x5b :: (i ++ 0x5d :: x), .grp hk h2 h1 h3, by simp [h4], ?_, ?_⟩
            · rw [h5, take_one]; simp [CtrChar.asChar]
            · rcases h6 with ⟨h6, rfl⟩ | ⟨k, r', h7, h8, rfl⟩
              · exact .inl ⟨h6, rfl⟩
              · exact .inr ⟨k, r', h7, h8, by simp [CtrChar.asChar]⟩
          · simp [stepDepth] at h
        · have hbr : k.isBracket = false := by simpa using hbr
          simp [hbr] at h
          obtain ⟨rfl, rfl, rfl⟩ := h
          exact ⟨false, [], .nil, by simp, by simp, .inr ⟨k, rest, ⟨hk, hbr⟩, rfl, rfl⟩⟩

theorem tokenize_of_split {p h s ts} (H : Split (PlainIn p) h s ts) : tokenize p 0 h s = .ok ts := by
  induction H with
  | empty => rw [tokenize]; simp
  | @last h f c hc hne =>
    rw [tokenize]
    have := step_comp hc false [] []
    rw [List.append_nil, tokenizeStep_nil] at this
    simp at this
    have hemp : c.isEmpty = false := by simpa using hne
    simp only [hemp, Bool.false_eq_true, if_false]
    split <;> (rename_i hx; rw [this] at hx; cases hx)
    rfl
  | @more h f c k s ts hc hk _ ih =>
    rw [tokenize]
    have := step_comp hc false [] (k.asChar :: s)
    rw [tokenizeStep_ctr (nextByte_ctr0 hk.1 _)] at this
    simp [hk.2] at this
    have hemp : (c ++ k.asChar :: s).isEmpty = false := by simp
    simp only [hemp, Bool.false_eq_true, if_false]
    split <;> (rename_i hx; rw [this] at hx; cases hx)
    simp [ih, Except.map]

theorem split_of_tokenize {p h s ts} (H : tokenize p 0 h s = .ok ts) : Split (PlainIn p) h s ts := by
  induction hl : s.length using Nat.strongRecOn generalizing h s ts with
  | _ len ih =>
    rw [tokenize] at H
    split at H
    · rename_i he; simp at he; subst he; cases H; exact .empty
    · rename_i he
      split at H
      · cases H
      · rename_i hx
        cases H
        obtain ⟨f, x, h1, h2, h3, h4⟩ := step_comp_inv hx
        simp at h2 h3
        rcases h4 with ⟨_, rfl⟩ | ⟨_, _, _, h4, _⟩
        · subst h2; subst h3
          exact .last h1 (by simpa using he)
        · cases h4
      · rename_i inner comp k rest hx
        have hlt := tokenizeStep_lt hx
        obtain ⟨f, x, h1, h2, h3, h4⟩ := step_comp_inv hx
        simp at h2 h3
        rcases h4 with ⟨h4, _⟩ | ⟨k', r', h4, h5, h6⟩
        · cases h4
        · cases h5
          subst h2; subst h3
          cases ht : tokenize p 0 k'.asChar rest with
          | error e => simp [ht, Except.map] at H
          | ok ts' =>
            simp [ht, Except.map] at H
            subst H
            rw [h6]
            exact .more h1 h4 (ih rest.length (by omega) ht rfl)

theorem asChar_ne_zero (k : CtrChar) : k.asChar ≠ 0 := by cases k <;> decide

theorem rejoin_split {ex h s ts} (H : Split ex h s ts) :
    (s = [] ∧ ts = []) ∨ (if h = 0 then [] else [h]) ++ s = rejoin ts ∨
      ∃ k, Sep ex k ∧ (if h = 0 then [] else [h]) ++ s = rejoin ts ++ [k.asChar] := by
  induction H with
  | empty => exact .inl ⟨rfl, rfl⟩
  | @last h f c hc hne =>
    right; left
    simp [rejoin]; split <;> simp
  | @more h f c k s ts hc hk _ ih =>
    right
    simp only [asChar_ne_zero, if_false] at ih
    rcases ih with ⟨rfl, rfl⟩ | ih | ⟨k', hk', ih⟩
    · right; refine ⟨k, hk, ?_⟩
      simp [rejoin]; split <;> simp
    · left
      simp only [rejoin, ← ih]; split <;> simp
    · right; refine ⟨k', hk', ?_⟩
      have ih' : k.asChar :: s = rejoin ts ++ [k'.asChar] := by simpa using ih
      simp only [rejoin, List.append_assoc, ← ih']; split <;> simp

end Verif.Ast
