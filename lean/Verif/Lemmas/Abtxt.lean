import Verif.Spec.Abe
/-! Lemmas about the abtxt layer. -/
namespace Verif.Abtxt
open Verif Verif.Spec

theorem all_u8 (p : UInt8 → Prop) (h : ∀ n : Fin 256, p (UInt8.ofFin n)) : ∀ b, p b :=
  fun b => h b.toFin

instance (c v) : Decidable (HexVal c v) := by unfold HexVal; infer_instance

set_option maxRecDepth 100000 in
theorem hexDigit_none (c : UInt8) (h : hexDigit c = none) (v : UInt8) : ¬ HexVal c v := by
  have key : ∀ c : UInt8, hexDigit c = none →
      c ∉ ("0123456789abcdef".toList.map (fun c => UInt8.ofNat c.toNat)) ∧
      c ∉ ("0123456789ABCDEF".toList.map (fun c => UInt8.ofNat c.toNat)) := by
    apply all_u8; decide
  obtain ⟨h1, h2⟩ := key c h
  rintro (h3 | h3)
  · exact h1 (List.mem_of_getElem? h3)
  · exact h2 (List.mem_of_getElem? h3)

set_option maxRecDepth 100000 in
theorem hexDigit_some (c v : UInt8) (h : hexDigit c = some v) : HexVal c v := by
  have key : ∀ c : UInt8, ∀ v ∈ hexDigit c, HexVal c v := by
    apply all_u8; decide
  exact key c v h

set_option maxRecDepth 100000 in
theorem hexVal_hexDigit (c v : UInt8) (h : HexVal c v) : hexDigit c = some v := by
  have hv : v.toNat < 16 := by
    rcases h with h | h <;>
    · have := (List.getElem?_eq_some_iff.mp h).1
      simpa using this
  have key : ∀ v : Fin 16, ∀ c ∈ ("0123456789abcdef".toList.map (fun c => UInt8.ofNat c.toNat))[v.val]?,
      hexDigit c = some (UInt8.ofNat v.val) := by decide
  have key2 : ∀ v : Fin 16, ∀ c ∈ ("0123456789ABCDEF".toList.map (fun c => UInt8.ofNat c.toNat))[v.val]?,
      hexDigit c = some (UInt8.ofNat v.val) := by decide
  rcases h with h | h
  · simpa using key ⟨v.toNat, hv⟩ c h
  · simpa using key2 ⟨v.toNat, hv⟩ c h

theorem hexDigit_iff (c v : UInt8) : hexDigit c = some v ↔ HexVal c v :=
  ⟨hexDigit_some c v, hexVal_hexDigit c v⟩

/-- control characters, exactly -/
theorem nextByte_ctr_iff {p e s k rest} :
    nextByte p e s = .ok (.ctr k rest) ↔
      s = k.asChar :: rest ∧ e &&& k.bit = 0 ∧ p &&& k.bit = 0 := by
  constructor
  · intro h
    unfold nextByte at h
    repeat' split at h
    all_goals try cases h
    · rename_i hc he hp
      simp only [ne_eq, Decidable.not_not] at he hp
      refine ⟨?_, he, hp⟩
      unfold CtrChar.tryFromChar at hc
      repeat' split at hc
      all_goals cases hc
      all_goals simp_all [CtrChar.asChar]
    · obtain ⟨b', r', h1, h2⟩ := nextEscape_byte h
      cases h1
  · rintro ⟨rfl, he, hp⟩
    cases k <;> simp_all [nextByte, CtrChar.tryFromChar, CtrChar.asChar]

theorem nextByte_finished_iff {p e s} : nextByte p e s = .ok .finished ↔ s = [] := by
  constructor
  · intro h
    unfold nextByte at h
    repeat' split at h
    all_goals try cases h
    · rfl
    · obtain ⟨b', r', h1, h2⟩ := nextEscape_byte h
      cases h1
  · rintro rfl; rfl

theorem nextEscape_spells {s b rest} (h : nextEscape s = .ok (.byte b rest)) :
    ∃ w, Spells1 (0x5c :: w) b ∧ s = w ++ rest := by
  unfold nextEscape at h
  split at h
  · cases h
  · rename_i c r
    by_cases hx : c = 0x78
    · subst hx
      simp only [if_true] at h
      split at h
      · rename_i b' rest' hh
        injection h with h; injection h with h1 h2; subst h1; subst h2
        unfold hexByte at hh
        split at hh
        · rename_i b0 b1 r2
          split at hh
          · rename_i x y h1 h2
            injection hh with hh; injection hh with h3 h4; subst h3; subst h4
            exact ⟨[0x78, b0, b1], Spells1.hex b0 b1 x y (hexDigit_some _ _ h1) (hexDigit_some _ _ h2), by simp⟩
          · cases hh
        · cases hh
      · cases h
    · simp only [hx, if_false] at h
      repeat' split at h
      all_goals try cases h
      all_goals subst_vars
      · exact ⟨[0x5d], Spells1.esc ']' 93 (by decide), by simp⟩
      · exact ⟨[0x5b], Spells1.esc '[' 91 (by decide), by simp⟩
      · exact ⟨[0x6e], Spells1.esc 'n' 10 (by decide), by simp⟩
      · exact ⟨[0x72], Spells1.esc 'r' 13 (by decide), by simp⟩
      · exact ⟨[0x3a], Spells1.esc ':' 58 (by decide), by simp⟩
      · exact ⟨[0x74], Spells1.esc 't' 9 (by decide), by simp⟩
      · exact ⟨[0x5c], Spells1.esc '\\' 92 (by decide), by simp⟩
      · exact ⟨[0x2f], Spells1.esc '/' 47 (by decide), by simp⟩
      · exact ⟨[0x30], Spells1.esc '0' 0 (by decide), by simp⟩
      · exact ⟨[0x66], Spells1.esc 'f' 255 (by decide), by simp⟩

theorem spells1_ne_nil {w b} (h : Spells1 w b) : w ≠ [] := by cases h <;> simp

theorem nextByte_std_byte {s b rest} (h : nextByte stdPlain stdErr s = .ok (.byte b rest)) :
    ∃ w, Spells1 w b ∧ s = w ++ rest := by
  unfold nextByte at h
  split at h
  · cases h
  · rename_i c r
    split at h
    · rename_i k hk
      split at h
      · cases h
      · split at h
        · rename_i hp; simp [stdPlain] at hp
        · cases h
    · rename_i hc
      split at h
      · rename_i h5; subst h5
        obtain ⟨w, hw, hs⟩ := nextEscape_spells h
        exact ⟨0x5c :: w, hw, by simp [hs]⟩
      · rename_i h5
        split at h
        · cases h
        · split at h
          · rename_i hr
            injection h with h; injection h with h1 h2; subst h1; subst h2
            refine ⟨[c], Spells1.plain c hr.1 hr.2 ?_, by simp⟩
            unfold CtrChar.tryFromChar at hc
            repeat' split at hc
            all_goals try cases hc
            intro ch hch
            simp only [special, List.mem_cons, List.not_mem_nil, or_false] at hch
            rcases hch with rfl | rfl | rfl | rfl | rfl <;> assumption
          · cases h

theorem nextByte_spells1 {w b} (h : Spells1 w b) (p e : UInt32) (rest : Bytes) :
    nextByte p e (w ++ rest) = .ok (.byte b rest) := by
  cases h with
  | plain _ h1 h2 h3 =>
    have a1 : b ≠ 0x2f := h3 '/' (by decide)
    have a2 : b ≠ 0x5b := h3 '[' (by decide)
    have a3 : b ≠ 0x5d := h3 ']' (by decide)
    have a4 : b ≠ 0x3a := h3 ':' (by decide)
    have a5 : b ≠ 0x5c := h3 '\\' (by decide)
    have a6 : b ≠ 0x0a := by rintro rfl; revert h1; decide
    have a7 : b ≠ 0x09 := by rintro rfl; revert h1; decide
    have a8 : b ≠ 0x0d := by rintro rfl; revert h1; decide
    simp [nextByte, CtrChar.tryFromChar, *]
  | esc c b hm =>
    simp only [escapeTable, List.mem_cons, List.not_mem_nil, or_false, Prod.mk.injEq] at hm
    rcases hm with ⟨rfl, rfl⟩ | ⟨rfl, rfl⟩ | ⟨rfl, rfl⟩ | ⟨rfl, rfl⟩ | ⟨rfl, rfl⟩ | ⟨rfl, rfl⟩ | ⟨rfl, rfl⟩ |
      ⟨rfl, rfl⟩ | ⟨rfl, rfl⟩ | ⟨rfl, rfl⟩ <;> rfl
  | hex h l x y hh hl =>
    have e1 := hexVal_hexDigit _ _ hh
    have e2 := hexVal_hexDigit _ _ hl
    show nextByte p e (0x5c :: 0x78 :: h :: l :: rest) = _
    simp [nextByte, CtrChar.tryFromChar, nextEscape, hexByte, e1, e2]

set_option maxRecDepth 100000 in
theorem escapeDefault_spells1 (b : UInt8) : Spells1 (escapeDefault b) b := by
  by_cases hh : escapeDefault b = hexLookup b
  · rw [hh]
    have key : ∀ b : UInt8, HexVal (hexChar (b >>> 4)) (b >>> 4) ∧ HexVal (hexChar (b &&& 0xf)) (b &&& 0xf) ∧
        (16 : UInt8) * (b >>> 4) + (b &&& 0xf) = b := by apply all_u8; decide
    obtain ⟨h1, h2, h3⟩ := key b
    have := Spells1.hex _ _ _ _ h1 h2
    rw [h3] at this
    exact this
  · unfold escapeDefault at hh ⊢
    repeat' split
    all_goals subst_vars
    · exact Spells1.esc '0' 0 (by decide)
    · exact Spells1.esc 'f' 255 (by decide)
    · exact Spells1.esc 'n' 10 (by decide)
    · exact Spells1.esc 't' 9 (by decide)
    · exact Spells1.esc 'r' 13 (by decide)
    · exact Spells1.esc ':' 58 (by decide)
    · exact Spells1.esc '\\' 92 (by decide)
    · exact Spells1.esc '/' 47 (by decide)
    · exact Spells1.esc '[' 91 (by decide)
    · exact Spells1.esc ']' 93 (by decide)
    · rename_i hr
      refine Spells1.plain b hr.1 hr.2 ?_
      intro ch hch
      simp only [special, List.mem_cons, List.not_mem_nil, or_false] at hch
      rcases hch with rfl | rfl | rfl | rfl | rfl <;> assumption
    · simp_all

theorem flatMap_escape_spells (bs : Bytes) : Spells (bs.flatMap escapeDefault) bs := by
  induction bs with
  | nil => exact .nil
  | cons b bs ih => exact .cons (escapeDefault_spells1 b) ih

theorem escape_not_escaped {b : UInt8} (h : escapedByte b = false) : escapeDefault b = [b] := by
  unfold escapedByte at h
  unfold escapeDefault at h ⊢
  repeat' split
  all_goals first
    | rfl
    | (simp_all [hexLookup]; done)

theorem asAbtxt_eq (bs : Bytes) : asAbtxt bs = bs.flatMap escapeDefault := by
  unfold asAbtxt
  split
  · rename_i h
    induction bs with
    | nil => rfl
    | cons b bs ih =>
      simp only [List.all_cons, Bool.and_eq_true] at h
      simp only [List.flatMap_cons]
      rw [← ih h.2, escape_not_escaped (by simpa using h.1)]
      rfl
  · rfl

theorem spells_parse {s bs} (h : Spells s bs) (n : Nat) :
    parseUptoMax s n = if bs.length ≤ n then .ok bs else .error .fitSlice := by
  unfold parseUptoMax
  induction h generalizing n with
  | nil => rw [parseLoop]; simp [nextByte]
  | @cons w b s bs h1 h2 ih =>
    rw [parseLoop]
    have hb := nextByte_spells1 h1 stdPlain stdErr s
    split
    all_goals rename_i hx; rw [hb] at hx; cases hx
    cases n with
    | zero => simp
    | succ n =>
      simp only [ih n]
      split <;> simp_all [Except.map]

theorem parse_spells {s bs} (n : Nat) (h : parseUptoMax s n = .ok bs) : Spells s bs := by
  unfold parseUptoMax at h
  generalize hr : some n = room at h
  induction hl : s.length using Nat.strongRecOn generalizing s bs n room with
  | _ len ih =>
    rw [parseLoop] at h
    split at h
    · cases h
    · rename_i hx; rw [nextByte_finished_iff] at hx; subst hx; cases h; exact .nil
    · cases h
    · rename_i b rest hx
      subst hr
      obtain ⟨w, hw, hs⟩ := nextByte_std_byte hx
      have hlt := nextByte_byte_lt hx
      cases n with
      | zero => cases h
      | succ n =>
        simp only at h
        cases hp : parseLoop (some n) rest with
        | error e => rw [hp] at h; cases h
        | ok r =>
          rw [hp] at h; cases h
          rw [hs]
          exact .cons hw (ih rest.length (by omega) n _ rfl hp rfl)

end Verif.Abtxt
