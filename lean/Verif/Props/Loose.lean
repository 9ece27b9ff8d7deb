import Verif.Spec.Loose
import Verif.Lemmas.Ast
import Verif.Props.AbeText
/-!
# Loose expression texts (C90)
-/
namespace Verif.Props
open Verif Verif.Abtxt Verif.Ast Verif.Spec

/-! ## One step -/

theorem inFull_spells (b : UInt8) : Spells1 (inFull b) b := by
  have h : inFull b = hexLookup b := by
    revert b; apply Abtxt.all_u8; decide +kernel
  rw [h]
  have h1 := hexDigit_some (hexChar (b >>> 4)) (b >>> 4)
    (by revert b; apply Abtxt.all_u8; decide +kernel)
  have h2 := hexDigit_some (hexChar (b &&& 0xf)) (b &&& 0xf)
    (by revert b; apply Abtxt.all_u8; decide +kernel)
  have h3 := Spells1.hex _ _ _ _ h1 h2
  have h4 : (16 : UInt8) * (b >>> 4) + (b &&& 0xf) = b := by
    clear h h1 h2 h3
    revert b; apply Abtxt.all_u8; decide +kernel
  rw [h4] at h3
  exact h3

theorem back_spells : Spells1 [0x5c, 0x5c] 0x5c := Spells1.esc '\\' 92 (by decide)

theorem plainly_print {b : UInt8} (h : b ≠ 0x5c) (hp : 32 ≤ b.toNat ∧ b.toNat ≤ 126) (s : Bytes) :
    plainly (b :: s) = b :: plainly s := by
  have h' : ¬ b = UInt8.ofNat '\\'.toNat := h
  cases s
  · simp only [plainly, if_neg h', if_pos hp]
  · simp only [plainly, if_neg h', if_pos hp]

theorem plainly_full {b : UInt8} (h : b ≠ 0x5c) (hp : ¬ (32 ≤ b.toNat ∧ b.toNat ≤ 126)) (s : Bytes) :
    plainly (b :: s) = inFull b ++ plainly s := by
  have h' : ¬ b = UInt8.ofNat '\\'.toNat := h
  cases s
  · simp only [plainly, if_neg h', if_neg hp, List.append_nil]
  · simp only [plainly, if_neg h', if_neg hp]

theorem plainly_esc {c : UInt8} (h : c ∈ letters) (s : Bytes) :
    plainly (0x5c :: c :: s) = 0x5c :: c :: plainly s := by
  have h' : (0x5c : UInt8) = UInt8.ofNat '\\'.toNat := rfl
  simp only [plainly, ← h', if_true, if_pos h]

theorem plainly_lone {c : UInt8} (h : c ∉ letters) (s : Bytes) :
    plainly (0x5c :: c :: s) = 0x5c :: 0x5c :: plainly (c :: s) := by
  have h' : (0x5c : UInt8) = UInt8.ofNat '\\'.toNat := rfl
  simp only [plainly, ← h', if_true, if_neg h]

theorem hexVal_print {c v : UInt8} (h : HexVal c v) : c ≠ 0x5c ∧ 32 ≤ c.toNat ∧ c.toNat ≤ 126 := by
  unfold HexVal at h
  have key : ∀ l : List UInt8, (l.all fun c => c != 0x5c && (32 ≤ c.toNat) && (c.toNat ≤ 126)) = true →
      ∀ n : Nat, l[n]? = some c → c ≠ 0x5c ∧ 32 ≤ c.toNat ∧ c.toNat ≤ 126 := by
    intro l hl n hn
    have := List.all_eq_true.1 hl c (List.mem_of_getElem? hn)
    simp only [Bool.and_eq_true, bne_iff_ne, decide_eq_true_eq] at this
    exact ⟨this.1.1, this.1.2, this.2⟩
  rcases h with h | h
  · exact key _ (by decide +kernel) _ h
  · exact key _ (by decide +kernel) _ h

/-- Spelled bytes are copied. -/
theorem plainly_spells {w b} (h : Spells1 w b) (s : Bytes) : plainly (w ++ s) = w ++ plainly s := by
  cases h with
  | plain _ h1 h2 h3 =>
    exact plainly_print (h3 '\\' (by decide)) ⟨UInt8.le_iff_toNat_le.1 h1, UInt8.le_iff_toNat_le.1 h2⟩ s
  | esc c _ hc =>
    refine plainly_esc ?_ s
    simp only [escapeTable, List.mem_cons, Prod.mk.injEq, List.not_mem_nil, or_false] at hc
    rcases hc with ⟨rfl, -⟩ | ⟨rfl, -⟩ | ⟨rfl, -⟩ | ⟨rfl, -⟩ | ⟨rfl, -⟩ | ⟨rfl, -⟩ | ⟨rfl, -⟩ | ⟨rfl, -⟩ |
      ⟨rfl, -⟩ | ⟨rfl, -⟩ <;> decide
  | hex a l x y ha hl =>
    have h1 := hexVal_print ha
    have h2 := hexVal_print hl
    show plainly (0x5c :: 0x78 :: a :: l :: s) = 0x5c :: 0x78 :: a :: l :: plainly s
    rw [plainly_esc (by decide), plainly_print h1.1 h1.2, plainly_print h2.1 h2.2]

theorem nextEscape_letter {s e} (h : nextEscape s = .error e) :
    e = .parse 0x5c ∧ (∀ c r, s = c :: r → c ∉ letters) ∨
      ∃ r, s = 0x78 :: r ∧ hexByte r = .error e := by
  unfold nextEscape at h
  split at h
  · injection h with h
    exact .inl ⟨h.symm, fun _ _ h => nomatch h⟩
  · rename_i c r
    by_cases hx : c = 0x78
    · subst hx
      simp only [if_true] at h
      split at h
      · cases h
      · rename_i e' he
        injection h with h
        exact .inr ⟨r, rfl, h ▸ he⟩
    · simp only [hx, if_false] at h
      repeat' split at h
      all_goals try cases h
      refine .inl ⟨rfl, ?_⟩
      rintro c' r' hc
      injection hc with hc _
      subst hc
      have : letters = [0x78, 0x5d, 0x5b, 0x6e, 0x72, 0x3a, 0x74, 0x5c, 0x2f, 0x30, 0x66] := by decide
      rw [this]
      simp only [List.mem_cons, List.not_mem_nil, or_false]
      simp only [hx, false_or]
      rintro (h | h | h | h | h | h | h | h | h | h) <;> contradiction

theorem hexByte_err {s e} (h : hexByte s = .error e) : e = .invalidHex := by
  unfold hexByte at h
  split at h
  · split at h
    · cases h
    · injection h with h; exact h.symm
  · injection h with h; exact h.symm

theorem hexDigit_of {c v : UInt8} (h : HexVal c v) : ∃ w, hexDigit c = some w := by
  have key : ∀ l : List UInt8, (l.all fun c => (hexDigit c).isSome) = true →
      ∀ n : Nat, l[n]? = some c → ∃ w, hexDigit c = some w := by
    intro l hl n hn
    exact Option.isSome_iff_exists.1 (List.all_eq_true.1 hl c (List.mem_of_getElem? hn))
  unfold HexVal at h
  rcases h with h | h
  · exact key _ (by decide +kernel) _ h
  · exact key _ (by decide +kernel) _ h

/-- Missing digits stay missing. -/
theorem hexByte_plainly {s} (h : hexByte s = .error .invalidHex) :
    hexByte (plainly s) = .error .invalidHex := by
  cases hp : hexByte (plainly s) with
  | error e => rw [hexByte_err hp]
  | ok v =>
    exfalso
    have hdig : ∀ (b : UInt8), hexDigit b ≠ none → b ≠ 0x5c ∧ 32 ≤ b.toNat ∧ b.toNat ≤ 126 := by
      apply Abtxt.all_u8; decide +kernel
    -- the first byte of a copied text is a digit only if it was copied
    have hd : ∀ (s : Bytes) (b : UInt8) (t : Bytes), plainly s = b :: t → hexDigit b ≠ none →
        ∃ r, s = b :: r ∧ t = plainly r := by
      intro s b t hs hb
      have hb' := hdig b hb
      cases s with
      | nil => simp [plainly] at hs
      | cons c r =>
        by_cases h5 : c = 0x5c
        · exfalso
          subst h5
          cases r with
          | nil =>
            rw [show plainly [0x5c] = [0x5c, 0x5c] from rfl] at hs
            injection hs with hs _
            exact hb'.1 hs.symm
          | cons c' r' =>
            by_cases hl : c' ∈ letters
            · rw [plainly_esc hl] at hs
              injection hs with hs _
              exact hb'.1 hs.symm
            · rw [plainly_lone hl] at hs
              injection hs with hs _
              exact hb'.1 hs.symm
        · by_cases hpr : 32 ≤ c.toNat ∧ c.toNat ≤ 126
          · rw [plainly_print h5 hpr] at hs
            injection hs with h1 h2
            exact ⟨r, by rw [h1], h2.symm⟩
          · exfalso
            rw [plainly_full h5 hpr] at hs
            injection hs with hs _
            exact hb'.1 hs.symm
    unfold hexByte at hp
    split at hp
    · rename_i b0 b1 rest hs
      split at hp
      · rename_i x y h0 h1
        obtain ⟨r, rfl, hr⟩ := hd _ _ _ hs (by rw [h0]; exact fun h => nomatch h)
        obtain ⟨r', rfl, -⟩ := hd _ _ _ hr.symm (by rw [h1]; exact fun h => nomatch h)
        simp only [hexByte, h0, h1] at h
        cases h
      · cases hp
    · cases hp

/-- What the reader of one byte does on the text and on its strict form. -/
theorem step_plainly (s : Bytes) :
    match nextByte stdPlain stdErr s with
    | .error (.parse b) => ∃ r w, s = b :: r ∧ Spells1 w b ∧ plainly s = w ++ plainly r
    | .error e => e = .invalidHex ∧ nextByte stdPlain stdErr (plainly s) = .error .invalidHex
    | .ok .finished => s = []
    | .ok (.ctr k r) => nextByte stdPlain stdErr (plainly s) = .ok (.ctr k (plainly r))
    | .ok (.byte b r) => nextByte stdPlain stdErr (plainly s) = .ok (.byte b (plainly r)) := by
  cases hn : nextByte stdPlain stdErr s with
  | ok t =>
    cases t with
    | finished => exact nextByte_finished_iff.1 hn
    | byte b r =>
      obtain ⟨w, hw, rfl⟩ := nextByte_std_byte hn
      show nextByte _ _ _ = _
      rw [plainly_spells hw, nextByte_spells1 hw]
    | ctr k r =>
      show nextByte _ _ _ = _
      have h := nextByte_ctr_iff.1 hn
      obtain ⟨rfl, -, -⟩ := h
      have hk : k ≠ .newline := by
        rintro rfl
        simp [nextByte, CtrChar.tryFromChar, CtrChar.asChar, stdErr, CtrChar.bit] at hn
      rw [plainly_print (by cases k <;> decide) (by cases k <;> first | decide | exact absurd rfl hk)]
      cases k
      · exact nextByte_fslash _
      · exact nextByte_colon _
      · exact absurd rfl hk
      · exact nextByte_obr _
      · exact nextByte_cbr _
  | error e =>
    unfold nextByte at hn
    split at hn
    · cases hn
    · rename_i b r
      split at hn
      · rename_i k hk
        split at hn
        · rename_i he
          injection hn with hn
          subst hn
          have hk' : k = .newline := by
            cases k <;> first | rfl | exact absurd rfl he
          subst hk'
          have hb : b = 0x0a := by
            revert b; apply Abtxt.all_u8; decide +kernel
          subst hb
          exact ⟨r, inFull 0x0a, rfl, inFull_spells _, plainly_full (by decide) (by decide) r⟩
        · split at hn <;> cases hn
      · split at hn
        · rename_i hc h5
          subst h5
          rcases nextEscape_letter hn with ⟨rfl, hl⟩ | ⟨r', rfl, he⟩
          · refine ⟨r, [0x5c, 0x5c], rfl, back_spells, ?_⟩
            cases r with
            | nil => rfl
            | cons c r' => exact plainly_lone (hl c r' rfl) r'
          · have hi := hexByte_err he
            subst hi
            refine ⟨rfl, ?_⟩
            rw [plainly_esc (by decide)]
            have h2 := hexByte_plainly he
            simp [nextByte, CtrChar.tryFromChar, nextEscape, h2]
        · rename_i hc h5
          have full : ¬ (0x20 ≤ b ∧ b ≤ 0x7e) →
              ∃ r' w, b :: r = b :: r' ∧ Spells1 w b ∧ plainly (b :: r) = w ++ plainly r' := fun hp =>
            ⟨r, inFull b, rfl, inFull_spells b, plainly_full h5
              (fun h => hp ⟨UInt8.le_iff_toNat_le.2 h.1, UInt8.le_iff_toNat_le.2 h.2⟩) r⟩
          split at hn
          · rename_i ht
            injection hn with hn
            subst hn
            exact full (by rcases ht with rfl | rfl <;> decide)
          · split at hn
            · cases hn
            · rename_i hp
              injection hn with hn
              subst hn
              exact full hp

theorem tokLoop_bad {d acc b r} (hn : nextByte stdPlain stdErr (b :: r) = .error (.parse b)) :
    tokLoop true d acc (b :: r) = tokLoop true d (acc ++ [b]) r := by
  conv => lhs; unfold tokLoop
  split
  · rename_i e' he
    rw [hn] at he
    injection he with he
    subst he
    rfl
  all_goals rename_i he; rw [hn] at he; cases he

theorem tokLoop_hex {loose d acc s} (hn : nextByte stdPlain stdErr s = .error .invalidHex) :
    tokLoop loose d acc s = .error (.ab .invalidHex) := by
  conv => lhs; unfold tokLoop
  split
  · rename_i e' he
    rw [hn] at he
    injection he with he
    subst he
    cases loose <;> rfl
  all_goals rename_i he; rw [hn] at he; cases he

theorem tokLoop_plainly (n : Nat) : ∀ (s : Bytes), s.length ≤ n → ∀ (d : Nat) (acc : Bytes),
    tokLoop true d acc s = tokLoop false d acc (plainly s) := by
  induction n with
  | zero =>
    intro s hs d acc
    have : s = [] := List.length_eq_zero_iff.1 (by omega)
    subst this
    rw [show plainly [] = [] from rfl, tokLoop_nil, tokLoop_nil]
  | succ n ih =>
    intro s hs d acc
    have hst := step_plainly s
    cases hn : nextByte stdPlain stdErr s with
    | ok t =>
      rw [hn] at hst
      cases t with
      | finished =>
        have : s = [] := hst
        subst this
        rw [show plainly [] = [] from rfl, tokLoop_nil, tokLoop_nil]
      | byte b r =>
        have hl := nextByte_byte_lt hn
        rw [tokLoop_byte hn, tokLoop_byte hst, ih r (by omega)]
      | ctr k r =>
        have hl := nextByte_ctr_lt hn
        rw [tokLoop_ctr hn, tokLoop_ctr hst]
        cases stepDepth d k with
        | error e => rfl
        | ok d' => simp only [ih r (by omega)]
    | error e =>
      rw [hn] at hst
      cases e with
      | parse b =>
        obtain ⟨r, w, rfl, hw, hp⟩ := hst
        rw [tokLoop_bad hn, hp, tokLoop_byte (nextByte_spells1 hw _ _ _), ih r (by simp at hs; omega)]
      | invalidHex =>
        obtain ⟨-, h2⟩ := hst
        rw [tokLoop_hex hn, tokLoop_hex h2]
      | fitSlice => cases hst.1

/-- **C90** For every text, the loose reader gives exactly what the strict reader gives for the text
with what it refuses escaped: the same expression or the same error. -/
theorem loose_is_plain (s : Bytes) : parse true s = parse false (plainly s) := by
  unfold parse
  rw [tokLoop_plainly s.length s (Nat.le_refl _)]

/-- **C90** So a loose text means what the grammar says about its strict form. -/
theorem loose_iff_grammar (s : Bytes) (t : List ABE) :
    parse true s = .ok t ↔ AbeText (plainly s) t := by
  rw [loose_is_plain]
  exact parse_iff_grammar (plainly s) t

/-! ## When it fails -/

theorem lacks_other {b : UInt8} (h : b ≠ 0x5c) (s : Bytes) : lacksDigits (b :: s) = lacksDigits s := by
  have h' : ¬ b = UInt8.ofNat '\\'.toNat := h
  cases s with
  | nil => rfl
  | cons c r =>
    conv => lhs; unfold lacksDigits
    rw [if_neg h']

theorem lacks_lone {c : UInt8} (h : c ∉ letters) (s : Bytes) :
    lacksDigits (0x5c :: c :: s) = lacksDigits (c :: s) := by
  conv => lhs; unfold lacksDigits
  rw [if_pos (show (0x5c : UInt8) = UInt8.ofNat '\\'.toNat from rfl), if_neg, if_neg h]
  rintro rfl
  exact h (by decide)

theorem lacks_esc {c : UInt8} (h : c ∈ letters) (hx : c ≠ 0x78) (s : Bytes) :
    lacksDigits (0x5c :: c :: s) = lacksDigits s := by
  conv => lhs; unfold lacksDigits
  rw [if_pos (show (0x5c : UInt8) = UInt8.ofNat '\\'.toNat from rfl), 
    if_neg (show ¬ c = UInt8.ofNat 'x'.toNat from hx), if_pos h]

theorem mem_digits (b : UInt8) : b ∈ digits ↔ hexDigit b ≠ none := by
  revert b; apply Abtxt.all_u8; decide +kernel

theorem lacks_hex (s : Bytes) :
    lacksDigits (0x5c :: 0x78 :: s) = match hexByte s with
      | .ok (_, r) => lacksDigits r
      | .error _ => true := by
  conv => lhs; unfold lacksDigits
  rw [if_pos (show (0x5c : UInt8) = UInt8.ofNat '\\'.toNat from rfl),
    if_pos (show (0x78 : UInt8) = UInt8.ofNat 'x'.toNat from rfl)]
  unfold hexByte
  cases s with
  | nil => rfl
  | cons a s =>
    cases s with
    | nil => rfl
    | cons l r =>
      show (if a ∈ digits ∧ l ∈ digits then _ else _) = _
      simp only [mem_digits]
      cases ha : hexDigit a with
      | none => simp
      | some x =>
        cases hl : hexDigit l with
        | none => simp
        | some y =>
          have h1 : a ≠ 0x5c := by rintro rfl; rw [show hexDigit 0x5c = none from by decide] at ha; cases ha
          have h2 : l ≠ 0x5c := by rintro rfl; rw [show hexDigit 0x5c = none from by decide] at hl; cases hl
          simp [lacks_other h1, lacks_other h2]

/-- One byte read, and whether digits are missing in the rest. -/
theorem step_lacks (s : Bytes) :
    match nextByte stdPlain stdErr s with
    | .error (.parse _) => lacksDigits s = lacksDigits s.tail
    | .error _ => lacksDigits s = true
    | .ok .finished => lacksDigits s = false
    | .ok (.ctr _ r) => lacksDigits s = lacksDigits r
    | .ok (.byte _ r) => lacksDigits s = lacksDigits r := by
  cases s with
  | nil => rfl
  | cons b r =>
    by_cases h5 : b = 0x5c
    · subst h5
      have : nextByte stdPlain stdErr (0x5c :: r) = nextEscape r := by
        simp [nextByte, CtrChar.tryFromChar]
      rw [this]
      cases hn : nextEscape r with
      | error e =>
        rcases nextEscape_letter hn with ⟨rfl, hl⟩ | ⟨r', rfl, he⟩
        · show lacksDigits _ = lacksDigits r
          cases r with
          | nil => rfl
          | cons c r' => exact lacks_lone (hl c r' rfl) r'
        · have hi := hexByte_err he
          subst hi
          show lacksDigits _ = true
          rw [lacks_hex, he]
      | ok t =>
        obtain ⟨b', r', rfl, -⟩ := nextEscape_byte hn
        show lacksDigits _ = lacksDigits r'
        cases r with
        | nil => cases hn
        | cons c q =>
          by_cases hx : c = 0x78
          · subst hx
            rw [lacks_hex]
            simp only [nextEscape, if_true] at hn
            cases hh : hexByte q with
            | error e => rw [hh] at hn; cases hn
            | ok v =>
              rw [hh] at hn
              injection hn with hn
              injection hn with _ hn
              subst hn
              rfl
          · have hl : c ∈ letters ∧ q = r' := by
              simp only [nextEscape, hx, if_false] at hn
              repeat' split at hn
              all_goals try cases hn
              all_goals subst_vars
              all_goals exact ⟨by decide, rfl⟩
            obtain ⟨hl, rfl⟩ := hl
            exact lacks_esc hl hx q
    · have h := lacks_other h5 r
      cases hn : nextByte stdPlain stdErr (b :: r) with
      | ok t =>
        have hr : ∀ b' r', t = .byte b' r' → r' = r := by
          rintro b' r' rfl
          unfold nextByte at hn
          simp only [if_neg h5] at hn
          repeat' split at hn
          all_goals try cases hn
          all_goals rfl
        have hr2 : ∀ b' r', t = .ctr b' r' → r' = r := by
          rintro b' r' rfl
          unfold nextByte at hn
          simp only [if_neg h5] at hn
          repeat' split at hn
          all_goals try cases hn
          all_goals rfl
        cases t with
        | finished => exact absurd (nextByte_finished_iff.1 hn) (by simp)
        | byte b' r' => have := hr _ _ rfl; subst this; exact h
        | ctr b' r' => have := hr2 _ _ rfl; subst this; exact h
      | error e =>
        unfold nextByte at hn
        simp only [if_neg h5] at hn
        repeat' split at hn
        all_goals try cases hn
        all_goals exact h

theorem tokLoop_fails (n : Nat) : ∀ (s : Bytes), s.length ≤ n → ∀ (d : Nat) (acc : Bytes),
    match tokLoop true d acc s with
    | .ok _ => lacksDigits s = false
    | .error e => e = .ab .invalidHex ∧ lacksDigits s = true ∨ e = .unmatchedClose ∨ e = .unmatchedOpen := by
  induction n with
  | zero =>
    intro s hs d acc
    have : s = [] := List.length_eq_zero_iff.1 (by omega)
    subst this
    rw [tokLoop_nil]
    by_cases hd : d ≠ 0
    · rw [if_pos hd]; exact .inr (.inr rfl)
    · rw [if_neg hd]; rfl
  | succ n ih =>
    intro s hs d acc
    have hst := step_lacks s
    cases hn : nextByte stdPlain stdErr s with
    | ok t =>
      rw [hn] at hst
      cases t with
      | finished =>
        have : s = [] := nextByte_finished_iff.1 hn
        subst this
        rw [tokLoop_nil]
        by_cases hd : d ≠ 0
        · rw [if_pos hd]; exact .inr (.inr rfl)
        · rw [if_neg hd]; rfl
      | byte b r =>
        have hl := nextByte_byte_lt hn
        simp only at hst
        rw [tokLoop_byte hn, hst]
        exact ih r (by omega) _ _
      | ctr k r =>
        have hl := nextByte_ctr_lt hn
        simp only at hst
        rw [tokLoop_ctr hn, hst]
        cases hd : stepDepth d k with
        | error e =>
          refine .inr (.inl ?_)
          unfold stepDepth at hd
          repeat' split at hd
          all_goals cases hd
          rfl
        | ok d' =>
          have := ih r (by omega) d' []
          simp only
          cases ht : tokLoop true d' [] r with
          | ok v => rw [ht] at this; exact this
          | error e => rw [ht] at this; exact this
    | error e =>
      rw [hn] at hst
      cases e with
      | parse b =>
        have hb := step_plainly s
        rw [hn] at hb
        obtain ⟨r, -, rfl, -⟩ := hb
        have hst' : lacksDigits (b :: r) = lacksDigits r := hst
        rw [tokLoop_bad hn, hst']
        exact ih r (by simp at hs; omega) _ _
      | invalidHex => rw [tokLoop_hex hn]; exact .inl ⟨rfl, hst⟩
      | fitSlice =>
        have := step_plainly s
        rw [hn] at this
        cases this.1

theorem depth_tok {d s e} (h : Depth d s e) : ∀ acc, e = 0 → ∃ r, tokLoop false d acc s = .ok r := by
  induction h with
  | nil =>
    rintro acc rfl
    rw [tokLoop_nil]
    exact ⟨_, rfl⟩
  | byte hw _ ih =>
    intro acc he
    rw [tokLoop_byte (nextByte_spells1 hw _ _ _)]
    exact ih _ he
  | delim hc _ ih =>
    intro acc he
    obtain ⟨r, hr⟩ := ih [] he
    rcases hc with rfl | rfl
    · rw [tokLoop_ctr (s := UInt8.ofNat ':'.toNat :: _) (nextByte_colon _)]
      exact ⟨_, by simp only [stepDepth, hr]; rfl⟩
    · rw [tokLoop_ctr (s := UInt8.ofNat '/'.toNat :: _) (nextByte_fslash _)]
      exact ⟨_, by simp only [stepDepth, hr]; rfl⟩
  | opn _ ih =>
    intro acc he
    obtain ⟨r, hr⟩ := ih [] he
    rw [tokLoop_ctr (s := UInt8.ofNat '['.toNat :: _) (nextByte_obr _)]
    exact ⟨_, by simp only [stepDepth, hr]; rfl⟩
  | cls _ ih =>
    intro acc he
    obtain ⟨r, hr⟩ := ih [] he
    rw [tokLoop_ctr (s := UInt8.ofNat ']'.toNat :: _) (nextByte_cbr _)]
    exact ⟨_, by simp only [stepDepth, Nat.add_eq_zero_iff, Nat.succ_ne_self, and_false, if_false, Nat.add_sub_cancel, hr]; rfl⟩

theorem parse_of_tok {s r} (h : tokLoop false 0 [] s = .ok r) : ∃ t, parse false s = .ok t := by
  obtain ⟨t, ht⟩ := tokLoop_segs h
  exact ⟨t, parse_of_text ht false⟩

/-- **C90** A loose text is accepted exactly when the brackets of its strict form match. -/
theorem loose_accepts_iff (s : Bytes) : (∃ t, parse true s = .ok t) ↔ Depth 0 (plainly s) 0 := by
  rw [loose_is_plain]
  constructor
  · rintro ⟨t, h⟩
    exact parse_balanced _ t h
  · intro h
    obtain ⟨r, hr⟩ := depth_tok h [] rfl
    exact parse_of_tok hr

/-- **C90** The reader of loose texts fails for missing digits and for brackets that do not match, for
nothing else: it never refuses a byte and never panics. -/
theorem loose_errors (s : Bytes) (e : ParseErr) (h : parse true s = .error e) :
    e = .ab .invalidHex ∧ lacksDigits s = true ∨ e = .unmatchedClose ∨ e = .unmatchedOpen := by
  have hf := tokLoop_fails s.length s (Nat.le_refl _) 0 []
  cases ht : tokLoop true 0 [] s with
  | error e' =>
    rw [ht] at hf
    unfold parse at h
    rw [ht] at h
    injection h with h
    subst h
    exact hf
  | ok r =>
    exfalso
    have hp := ht
    rw [tokLoop_plainly s.length s (Nat.le_refl _)] at hp
    obtain ⟨t, h2⟩ := parse_of_tok hp
    rw [loose_is_plain, h2] at h
    cases h

/-- **C90** And where digits are missing it does fail. -/
theorem loose_needs_digits (s : Bytes) (h : lacksDigits s = true) (t : List ABE) :
    parse true s ≠ .ok t := by
  intro hp
  have hf := tokLoop_fails s.length s (Nat.le_refl _) 0 []
  unfold parse at hp
  cases ht : tokLoop true 0 [] s with
  | error e => rw [ht] at hp; cases hp
  | ok r =>
    rw [ht] at hf
    rw [show lacksDigits s = false from hf] at h
    cases h

/-- A text of bytes without backslash, brackets, colons and slashes. -/
def Wordy (s : Bytes) : Prop := ∀ b ∈ s, b ∉ special.map (fun c => UInt8.ofNat c.toNat)

theorem plainly_wordy (s : Bytes) (h : Wordy s) : Spells (plainly s) s := by
  induction s with
  | nil => exact .nil
  | cons b r ih =>
    have hb := h b (List.mem_cons_self ..)
    have h5 : b ≠ 0x5c := by rintro rfl; exact hb (by decide)
    have hr := ih (fun x hx => h x (List.mem_cons_of_mem _ hx))
    by_cases hp : 32 ≤ b.toNat ∧ b.toNat ≤ 126
    · rw [plainly_print h5 hp]
      refine Spells.cons (w := [b]) (Spells1.plain b (UInt8.le_iff_toNat_le.2 hp.1)
        (UInt8.le_iff_toNat_le.2 hp.2) ?_) hr
      rintro c hc rfl
      exact hb (List.mem_map_of_mem hc)
    · rw [plainly_full h5 hp]
      exact Spells.cons (inFull_spells b) hr

/-- **C90** Text in any language, on several lines, means its own bytes. -/
theorem loose_words (s : Bytes) (h : Wordy s) (hne : s ≠ []) : parse true s = .ok [.bytes s] := by
  rw [loose_iff_grammar]
  have := AbeText.bytes (plainly_wordy s h) hne (show NoBytesHead [] from trivial) .nil
  simpa using this

/-! Concrete cases: two lines with letters outside ASCII, a backslash before a letter without meaning,
a call with such an argument; missing digits and brackets. -/

def looseText : Bytes := [0x68, 0x0a, 0xc3, 0xa9, 0x09]
/-- The error of a result, if it is one. -/
def errOf {ε α : Type} : Except ε α → Option ε
  | .error e => some e
  | .ok _ => none
example : Wordy looseText ∧ looseText ≠ [] ∧ parse true looseText = .ok [.bytes looseText] ∧
    errOf (parseStrict looseText) = some (.ab (.parse 0x0a)) := by
  refine ⟨?_, by decide, loose_words _ ?_ (by decide), ?_⟩
  · unfold Wordy; decide +kernel
  · unfold Wordy; decide +kernel
  · decide +kernel
example : plainly looseText = ascii "h\\x0a\\xc3\\xa9\\x09" := by decide +kernel
example : plainly (ascii "[u8:\\q]") = ascii "[u8:\\\\q]" := by decide +kernel
example : (parse true (ascii "[u8:\\q]")).toOption.map printAbe = some (ascii "[u8:\\\\q]") := by
  decide +kernel
example : lacksDigits (ascii "a\\x4") = true ∧ lacksDigits (ascii "a\\\\x4") = false := by decide +kernel
example : errOf (parse true (ascii "a\\x4")) = some (.ab .invalidHex) := by decide +kernel
example : errOf (parse true (ascii "a]\n")) = some .unmatchedClose := by decide +kernel
/-- Brackets around a newline match. -/
example : Depth 0 (plainly (ascii "[\n]")) 0 :=
  (loose_accepts_iff _).1 (by
    cases h : parse true (ascii "[\n]") with
    | ok t => exact ⟨t, rfl⟩
    | error e =>
      have : errOf (parse true (ascii "[\n]")) = none := by decide +kernel
      rw [h] at this; cases this)

end Verif.Props
