import Verif.Model.PartialHash
import Verif.Props.Base64
/-!
# C48: hashes given by the first characters of their text
-/
namespace Verif.Props
open Verif Verif.Abe Verif.Pkt Verif.PHash Verif.Spec

/-- The values of the characters of a base64 text. -/
def Digits (s : Bytes) (ds : List Nat) : Prop := s.map some = ds.map (b64UrlSafe[·]?)

theorem digits_iff (s : Bytes) (ds : List Nat) : Digits s ds ↔ s.mapM urlSafe.val = some ds := by
  unfold Digits
  rw [urlSafe_list]
  exact (mapM_val_iff urlSafe (.inl rfl) s ds).symm

theorem digits_lt {s : Bytes} {ds : List Nat} (h : Digits s ds) : ∀ d ∈ ds, d < 64 := by
  unfold Digits at h
  rw [urlSafe_list] at h
  exact digits_lt_of_map h

theorem digits_length {s : Bytes} {ds : List Nat} (h : Digits s ds) : ds.length = s.length := by
  have := congrArg List.length h
  simpa using this.symm

theorem map_char_digits (ds : List Nat) (h : ∀ d ∈ ds, d < 64) : Digits (ds.map urlSafe.char) ds := by
  unfold Digits
  rw [urlSafe_list]
  exact map_char_of_lt ds h

theorem digits_unique {s t : Bytes} {ds : List Nat} (h1 : Digits s ds) (h2 : Digits t ds) : s = t := by
  unfold Digits at h1 h2
  have h := h1.trans h2.symm
  exact List.map_inj_right (fun _ _ h => Option.some.inj h) |>.1 h
theorem digits_eq {s : Bytes} {ds es : List Nat} (h1 : Digits s ds) (h2 : Digits s es) : ds = es := by
  rw [digits_iff] at h1 h2
  rw [h1] at h2
  exact Option.some.inj h2

theorem digits_append {s t : Bytes} {ds es : List Nat} (h1 : Digits s ds) (h2 : Digits t es) : Digits (s ++ t) (ds ++ es) := by
  unfold Digits at *
  rw [List.map_append, List.map_append, h1, h2]

theorem digits_split {s t : Bytes} {ds : List Nat} (h : Digits (s ++ t) ds) : Digits s (ds.take s.length) ∧ Digits t (ds.drop s.length) := by
  unfold Digits at *
  rw [List.map_append] at h
  constructor
  · rw [List.map_take, ← h, List.take_left' (by simp)]
  · rw [List.map_drop, ← h, List.drop_left' (by simp)]

theorem digits_zeros (n : Nat) : Digits (List.replicate n 0x41) (List.replicate n 0) := by
  unfold Digits
  rw [List.map_replicate, List.map_replicate]
  rfl

theorem ofDigits_zeros (n : Nat) : ofDigits 64 (List.replicate n 0) = 0 := by
  induction n with
  | zero => rfl
  | succ n ih => rw [List.replicate_succ, ofDigits, ih]; omega

/-- **C48**: the text of a hash starts with the given characters exactly if the leading bits of the hash are their value.  For every hash
and every text. -/
theorem matches_iff {s : Bytes} {ds : List Nat} (hd : Digits s ds) {h : Bytes} (hh : h.length = 32) (hs : s.length ≤ 43) :
    matchesHash s h = true ↔ ofDigits 64 ds = beNat h * 4 / 64 ^ (43 - s.length) := by
  have hlen : (sext h).length = 43 := by rw [sext_length, hh]
  have hb : base64 h = (sext h).map urlSafe.char := b64Enc_sext urlSafe h
  have hlt := sext_lt h
  have hdig : Digits (base64 h) (sext h) := by rw [hb]; exact map_char_digits _ hlt
  have hnum : ofDigits 64 (sext h) = beNat h * 4 := by
    rw [ofDigits_sext, hlen, hh]
  have htake : ofDigits 64 ((sext h).take s.length) = beNat h * 4 / 64 ^ (43 - s.length) := by
    have h1 := ofDigits_append 64 ((sext h).take s.length) ((sext h).drop s.length)
    rw [List.take_append_drop, hnum, List.length_drop, hlen] at h1
    have h2 := ofDigits_lt 64 ((sext h).drop s.length) (fun d hd => hlt d (List.mem_of_mem_drop hd))
    rw [List.length_drop, hlen] at h2
    rw [h1, Nat.add_comm, Nat.add_mul_div_right _ _ (Nat.pow_pos (by decide)), Nat.div_eq_of_lt h2, Nat.zero_add]
  unfold matchesHash
  rw [List.isPrefixOf_iff_prefix, ← htake]
  constructor
  · rintro ⟨t, ht⟩
    rw [← ht] at hdig
    rw [digits_eq hd (digits_split hdig).1]
  · intro he
    have h3 : ds = (sext h).take s.length := by
      refine ofDigits_inj 64 _ _ ?_ (digits_lt hd) (fun d hd => hlt d (List.mem_of_mem_take hd)) he
      rw [digits_length hd, List.length_take, hlen]
      omega
    have h4 : Digits ((base64 h).take s.length) ((sext h).take s.length) := by
      unfold Digits at hdig ⊢
      rw [List.map_take, hdig, List.map_take]
    rw [h3] at hd
    rw [digits_unique hd h4]
    exact List.take_prefix _ _

/-- **C48**: the position computed from a text of at most 42 characters of the alphabet is a hash whose text starts with it, and the
least one. -/
theorem position_least_partial {s : Bytes} {ds : List Nat} (hd : Digits s ds) (hs : s.length ≤ 42) :
    ∃ r, btreeIdx s = .ok r ∧ r.length = 32 ∧ matchesHash s r = true ∧ ∀ h, h.length = 32 → matchesHash s h = true → beNat r ≤ beNat h := by
  have hb : ofDigits 64 ds < 64 ^ s.length := by
    have := ofDigits_lt 64 ds (digits_lt hd)
    rwa [digits_length hd] at this
  have hpow : 64 ^ (43 - s.length) = 4 * (16 * 64 ^ (42 - s.length)) := by
    rw [show 43 - s.length = (42 - s.length) + 1 by omega, Nat.pow_succ]; omega
  generalize hN : ofDigits 64 ds * (16 * 64 ^ (42 - s.length)) = N
  have hN4 : N * 4 = ofDigits 64 ds * 64 ^ (43 - s.length) := by rw [← hN, hpow, Nat.mul_assoc, Nat.mul_comm _ 4]
  have hNlt : N < 256 ^ 32 := by
    have h1 : N * 4 < 64 ^ s.length * 64 ^ (43 - s.length) := by
      rw [hN4]
      exact Nat.mul_lt_mul_of_pos_right hb (Nat.pow_pos (by decide))
    rw [← Nat.pow_add, show s.length + (43 - s.length) = 43 by omega] at h1
    have : (64 : Nat) ^ 43 = 256 ^ 32 * 4 := by decide
    omega
  have hr : beNat (beBytes 32 N) = N := beNat_beBytes 32 N hNlt
  have hrl : (beBytes 32 N).length = 32 := beBytes_length _ _
  have hdec : base64Decode (s ++ List.replicate (43 - s.length) 0x41) = some (beBytes 32 N) := by
    rw [b64_decode_iff]
    refine ⟨ds ++ List.replicate (43 - s.length) 0, digits_append hd (digits_zeros _), ?_, ?_, ?_⟩
    · rw [hrl, List.length_append, List.length_replicate]; omega
    · rw [hrl, List.length_append, List.length_replicate]; omega
    · rw [hrl, List.length_append, List.length_replicate, ofDigits_append, ofDigits_zeros, List.length_replicate, hr,
        show 6 * (s.length + (43 - s.length)) - 8 * 32 = 2 by omega]
      show _ = N * 4
      omega
  refine ⟨beBytes 32 N, by rw [btreeIdx, hdec], hrl, ?_, ?_⟩
  · rw [matches_iff hd hrl (by omega), hr, hN4, Nat.mul_div_cancel _ (Nat.pow_pos (by decide))]
  · intro h hh hm
    rw [matches_iff hd hh (by omega)] at hm
    rw [hr]
    have := Nat.div_mul_le_self (beNat h * 4) (64 ^ (43 - s.length))
    rw [← hm, ← hN4] at this
    omega

/-- The position of a whole text is the hash with that text. -/
theorem position_whole (h : Bytes) (hh : h.length = 32) : btreeIdx (base64 h) = .ok h := by
  have : (base64 h).length = 43 := by rw [b64_length, hh]
  rw [btreeIdx, this, Nat.sub_self, List.replicate_zero, List.append_nil, b64_roundtrip]

/-- A text is taken for a whole hash exactly if it is the text of it. -/
theorem complete_iff (s h : Bytes) : complete s = some h ↔ h.length = 32 ∧ s = base64 h := by
  unfold complete
  constructor
  · intro hc
    split at hc
    · cases hc
    · rename_i hl
      have he : s = base64 h := b64_canonical s (base64 h) h hc (b64_roundtrip h)
      have := b64_length h
      rw [← he] at this
      exact ⟨by omega, he⟩
  · rintro ⟨hl, rfl⟩
    rw [if_neg (Classical.not_not.2 (by rw [b64_length]; omega)), b64_roundtrip]

/-- What is accepted: 4 to 43 characters that are base64 up to the last multiple of four. -/
theorem partial_accept_iff (utf8 : Bytes → Bool) (s t : Bytes) : tryFrom utf8 s = .ok t ↔
    t = s ∧ 4 ≤ s.length ∧ s.length ≤ 43 ∧ (∃ ds, Digits (s.take (s.length / 4 * 4)) ds) ∧ utf8 (s ++ List.replicate (43 - s.length) 0x41) = true := by
  have hq : ∀ u : Bytes, u.length % 4 = 0 → ((∃ ds, Digits u ds) ↔ ∃ b, base64Decode u = some b) := by
    intro u hu
    have hdec : ∀ ds : List Nat, ds.length % 4 = 0 → ∃ b, b64Dec ds = some b := by
      intro ds
      induction hl : ds.length using Nat.strongRecOn generalizing ds with
      | _ n ih =>
        intro h4
        match ds, hl with
        | [], _ => exact ⟨[], rfl⟩
        | [_], hl => simp at hl; omega
        | [_, _], hl => simp at hl; omega
        | [_, _, _], hl => simp at hl; omega
        | w :: x :: y :: z :: r, hl =>
          simp only [List.length_cons] at hl
          obtain ⟨b, hb⟩ := ih r.length (by omega) r rfl (by omega)
          exact ⟨_, by rw [b64Dec, hb]; rfl⟩
    constructor
    · rintro ⟨ds, hd⟩
      obtain ⟨b, hb⟩ := hdec ds (by rw [digits_length hd]; exact hu)
      exact ⟨b, by rw [base64Decode, (digits_iff u ds).1 hd]; exact hb⟩
    · rintro ⟨b, hb⟩
      rw [base64Decode] at hb
      cases hm : u.mapM urlSafe.val with
      | none => rw [hm] at hb; cases hb
      | some ds => exact ⟨ds, (digits_iff u ds).2 hm⟩
  have h4 := hq (s.take (s.length / 4 * 4)) (by rw [List.length_take]; omega)
  rw [h4, tryFrom]
  by_cases hl : s.length < 4 ∨ s.length > 43
  · rw [if_pos hl]
    constructor
    · nofun
    · rintro ⟨_, h1, h2, _⟩; omega
  · rw [if_neg hl]
    cases hd : base64Decode (s.take (s.length / 4 * 4)) with
    | none => simp
    | some b =>
      simp only [Option.some.injEq, exists_eq', true_and]
      cases utf8 (s ++ List.replicate (43 - s.length) 0x41) with
      | true =>
        simp only [if_true, Except.ok.injEq, and_true]
        constructor
        · rintro rfl; exact ⟨rfl, by omega, by omega⟩
        · rintro ⟨h, _⟩; exact h.symm
      | false => simp

/-- **C48** is false of every accepted text: five characters of which the last is not base64 are accepted, and computing their
position aborts.  So does a whole text whose last character has unused bits. -/
theorem position_aborts : (∀ utf8, utf8 (ascii "AAAA!" ++ List.replicate 38 0x41) = true → tryFrom utf8 (ascii "AAAA!") = .ok (ascii "AAAA!")) ∧
    btreeIdx (ascii "AAAA!") = .error .panic ∧
    (∀ utf8, utf8 (List.replicate 42 0x41 ++ [0x42]) = true → tryFrom utf8 (List.replicate 42 0x41 ++ [0x42]) = .ok (List.replicate 42 0x41 ++ [0x42])) ∧
    btreeIdx (List.replicate 42 0x41 ++ [0x42]) = .error .panic := by
  have h1 : base64Decode ((ascii "AAAA!").take 4) = some [0, 0, 0] := by decide +kernel
  have h2 : base64Decode ((List.replicate 42 0x41 ++ [0x42] : Bytes).take 40) = some (List.replicate 30 0) := by decide +kernel
  refine ⟨fun u hu => ?_, by decide +kernel, fun u hu => ?_, by decide +kernel⟩
  · unfold tryFrom
    rw [if_neg (by decide), show (ascii "AAAA!").length / 4 * 4 = 4 by decide, h1]
    simp only
    rw [show 43 - (ascii "AAAA!").length = 38 by decide, if_pos hu]
  · unfold tryFrom
    rw [if_neg (by decide), show (List.replicate 42 0x41 ++ [0x42] : Bytes).length / 4 * 4 = 40 by decide, h2]
    simp only
    rw [show 43 - (List.replicate 42 0x41 ++ [0x42] : Bytes).length = 0 by decide, List.replicate_zero, List.append_nil, if_pos hu]

/-- The comparison of texts does not follow the order of hashes: the hash `0xd0..` is above all hashes starting with `AAAA`,
and the text counts as greater than it. -/
theorem text_order_differs : let h : Bytes := 0xd0 :: List.replicate 31 0
    greaterThan (ascii "AAAA") h = true ∧ ∀ r, r.length = 32 → matchesHash (ascii "AAAA") r = true → beNat r < beNat h := by
  intro h
  refine ⟨by decide +kernel, fun r hr hm => ?_⟩
  have hd : Digits (ascii "AAAA") [0, 0, 0, 0] := by unfold Digits; decide +kernel
  rw [matches_iff hd hr (by decide)] at hm
  have h1 : beNat r * 4 < 64 ^ (43 - (ascii "AAAA").length) := by
    apply Nat.lt_of_div_eq_zero (Nat.pow_pos (by decide))
    rw [← hm]; decide
  have h2 : 64 ^ (43 - (ascii "AAAA").length) ≤ beNat h := by decide +kernel
  omega

/-- A text, its value, and a hash found with it. -/
example : Digits (ascii "RS50a") [17, 18, 57, 52, 26] ∧ matchesHash (ascii "RS50a") (0x45 :: 0x2e :: 0x74 :: 0x6b :: List.replicate 28 7) = true := by
  unfold Digits; decide +kernel

end Verif.Props
