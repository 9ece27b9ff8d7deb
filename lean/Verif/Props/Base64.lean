import Verif.Lemmas.Base64
/-!
# C44: base64 text of hashes, keys and groups
-/
namespace Verif.Props
open Verif Verif.Abe Verif.Spec

/-- The text written for some bytes is their base64 text, and there is only one. -/
theorem b64_encode_iff (b s : Bytes) : base64 b = s ↔ Base64 b64UrlSafe s b := by
  rw [urlSafe_list]
  constructor
  · rintro rfl; exact base64_spec_enc urlSafe b
  · intro h; exact (base64_spec_unique urlSafe h).symm

/-- A text is accepted, with those bytes, exactly when it is their base64 text: nothing with another length, with
characters outside the alphabet, with padding or with stray trailing bits. -/
theorem b64_decode_iff (s b : Bytes) : base64Decode s = some b ↔ Base64 b64UrlSafe s b := by
  rw [base64Decode, decode_iff urlSafe (.inl rfl), ← b64_encode_iff]; exact eq_comm

theorem b64_roundtrip (b : Bytes) : base64Decode (base64 b) = some b :=
  (b64_decode_iff _ _).2 ((b64_encode_iff _ _).1 rfl)

/-- No two texts decode to the same bytes. -/
theorem b64_canonical (s t b : Bytes) (hs : base64Decode s = some b) (ht : base64Decode t = some b) : s = t := by
  rw [b64_decode_iff, ← b64_encode_iff] at hs ht
  rw [← hs, ht]

theorem b64_length (b : Bytes) : (base64 b).length = (4 * b.length + 2) / 3 := by
  rw [base64, b64Enc_sext, List.length_map, sext_length]

/-- Parsing a value of `n` bytes (`n = 32` for hashes, keys and groups) accepts exactly the texts of `n` bytes. -/
theorem b64_fixed_iff (n : Nat) (s b : Bytes) : b64ParseStr n s = some b ↔ Base64 b64UrlSafe s b ∧ b.length = n := by
  unfold b64ParseStr
  constructor
  · intro h
    split at h
    · cases h
    · rename_i hl
      have h1 := (b64_decode_iff s b).1 h
      refine ⟨h1, ?_⟩
      have h2 := b64_length b
      rw [(b64_encode_iff b s).2 h1] at h2
      omega
  · rintro ⟨h, rfl⟩
    have h2 := b64_length b
    rw [(b64_encode_iff b s).2 h] at h2
    rw [if_neg (by omega)]
    exact (b64_decode_iff s b).2 h

theorem b64_fixed_length (n : Nat) (s b : Bytes) (h : b64ParseStr n s = some b) : b.length = n :=
  ((b64_fixed_iff n s b).1 h).2

/-- A field value may be given as raw bytes or as text; both are read as the same value. -/
theorem b64_fit_both (b : Bytes) : b64Fit b.length (base64 b) = some b ∧ b64Fit b.length b = some b := by
  have h1 : b64ParseStr b.length (base64 b) = some b := (b64_fixed_iff _ _ _).2 ⟨(b64_encode_iff _ _).1 rfl, rfl⟩
  refine ⟨by rw [b64Fit, h1], ?_⟩
  unfold b64Fit
  by_cases hl : b.length = (b.length * 4 + 2) / 3
  · have : b = [] := List.eq_nil_of_length_eq_zero (by omega)
    subst this; rfl
  · have : b64ParseStr b.length b = none := by rw [b64ParseStr, if_pos hl]
    rw [this]
    simp [Fit.fit, Fit.fitFront]

/-- Nothing else is accepted. -/
theorem b64_fit_only (n : Nat) (s b : Bytes) (h : b64Fit n s = some b) : b.length = n ∧ (s = b ∨ s = base64 b) := by
  unfold b64Fit at h
  split at h
  · rename_i b' hb
    cases h
    obtain ⟨h1, h2⟩ := (b64_fixed_iff _ _ _).1 hb
    exact ⟨h2, .inr ((b64_encode_iff _ _).2 h1).symm⟩
  · unfold Fit.fit Fit.fitFront at h
    split at h
    · cases h
    · rename_i hl
      rw [if_neg (by omega)] at h
      cases h
      have : s.length = n := by omega
      refine ⟨by simp [this], .inl (by simp [this])⟩

example : base64 (ascii "linkspace") = ascii "bGlua3NwYWNl" := by decide
example : b64Fit 9 (ascii "bGlua3NwYWNl") = some (ascii "linkspace") := by decide

/-- The standard alphabet with padding: exactly the padded text of some bytes is accepted, as those bytes. -/
theorem b64_std_roundtrip (b : Bytes) : base64StdDecode (base64Std b) = some b := by
  have hl : (b64Enc standard b).length = (4 * b.length + 2) / 3 := by rw [b64Enc_sext, List.length_map, sext_length]
  have hpad : ∀ c ∈ b64Enc standard b, c ≠ 0x3d := by
    intro c hc
    rw [b64Enc_sext] at hc
    obtain ⟨d, hd, rfl⟩ := List.mem_map.1 hc
    have hd := sext_lt b d hd
    have : ∀ n : Fin 64, standard.char n.1 ≠ 0x3d := by decide
    exact this ⟨d, hd⟩
  have hdw : ∀ (x : Bytes) (k : Nat), (∀ c ∈ x, c ≠ 0x3d) →
      ((x ++ List.replicate k 0x3d).reverse.dropWhile (· == (0x3d : UInt8))).reverse = x := by
    intro x k hx
    have h1 : (x ++ List.replicate k (0x3d : UInt8)).reverse = List.replicate k 0x3d ++ x.reverse := by simp
    rw [h1]
    have h2 : ∀ k : Nat, (List.replicate k (0x3d : UInt8) ++ x.reverse).dropWhile (· == (0x3d : UInt8)) = x.reverse := by
      intro k
      induction k with
      | zero =>
        cases hr : x.reverse with
        | nil => rfl
        | cons c r =>
          have hc : c ≠ 0x3d := hx c (by rw [← List.mem_reverse, hr]; exact List.mem_cons_self)
          rw [List.replicate_zero, List.nil_append, List.dropWhile_cons]
          simp [hc]
      | succ k ih => rw [List.replicate_succ, List.cons_append, List.dropWhile_cons]; simpa using ih
    rw [h2, List.reverse_reverse]
  unfold base64StdDecode base64Std
  have hmod : ((4 * b.length + 2) / 3 + (3 - b.length % 3) % 3) % 4 = 0 := by
    have hq := Nat.div_add_mod b.length 3
    generalize b.length / 3 = q at hq
    rcases (by omega : b.length % 3 = 0 ∨ b.length % 3 = 1 ∨ b.length % 3 = 2) with h | h | h <;> rw [h] at hq ⊢ <;> omega
  rw [if_neg (by rw [List.length_append, List.length_replicate, hl]; omega)]
  rw [hdw _ _ hpad]
  simp only [List.length_append, List.length_replicate]
  rw [if_neg (by omega)]
  exact (decode_iff standard (.inr rfl) _ _).2 rfl

theorem b64_std_iff (s b : Bytes) : base64StdDecode s = some b ↔ base64Std b = s := by
  constructor
  · intro h
    unfold base64StdDecode at h
    split at h
    · cases h
    · rename_i hm
      simp only at h
      generalize hbody : (s.reverse.dropWhile (· == (0x3d : UInt8))).reverse = body at h
      split at h
      · cases h
      · rename_i hk
        have he : body = b64Enc standard b := (decode_iff standard (.inr rfl) _ _).1 h
        have hl : (b64Enc standard b).length = (4 * b.length + 2) / 3 := by rw [b64Enc_sext, List.length_map, sext_length]
        have hsplit : s = body ++ (s.reverse.takeWhile (· == (0x3d : UInt8))).reverse := by
          rw [← hbody, ← List.reverse_append, List.takeWhile_append_dropWhile, List.reverse_reverse]
        have htw : ∀ r : Bytes, r.takeWhile (· == (0x3d : UInt8)) =
            List.replicate (r.takeWhile (· == (0x3d : UInt8))).length 0x3d := by
          intro r
          rw [List.eq_replicate_iff]
          refine ⟨rfl, fun c hc => ?_⟩
          induction r with
          | nil => cases hc
          | cons x r ih =>
            rw [List.takeWhile_cons] at hc
            split at hc
            · rename_i hx
              rcases List.mem_cons.1 hc with rfl | hc
              · simpa using hx
              · exact ih hc
            · cases hc
        rw [htw] at hsplit
        generalize (s.reverse.takeWhile (· == (0x3d : UInt8))).length = k at hsplit
        rw [List.reverse_replicate] at hsplit
        have hlen := congrArg List.length hsplit
        rw [List.length_append, List.length_replicate, he, hl] at hlen
        rw [he, hl] at hk
        have hkk : k = (3 - b.length % 3) % 3 := by
          have hq := Nat.div_add_mod b.length 3
          generalize b.length / 3 = q at hq
          rcases (by omega : b.length % 3 = 0 ∨ b.length % 3 = 1 ∨ b.length % 3 = 2) with h | h | h <;> rw [h] at hq ⊢ <;> omega
        rw [hsplit, he, hkk]; rfl
  · rintro rfl; exact b64_std_roundtrip b

example : base64Std (ascii "ab") = ascii "YWI=" := by decide

end Verif.Props
