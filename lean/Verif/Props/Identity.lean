import Verif.Model.Identity
import Verif.Props.Base64
import Verif.Props.Handshake
import Verif.Lemmas.Num
/-!
# C54 encrypted keys
-/
namespace Verif.Props
open Verif Verif.Abe Verif.Num Verif.Spec Verif.Shake Verif.Ident

/-- What is assumed of the libraries: keys and digests have their fixed size, and a secret is read back as its key. -/
structure Ident.Laws (A : Lib) : Prop where
  pub_len : ∀ k, (A.pubkey k).length = 32
  secret_len : ∀ k, (A.toBytes k).length = 32
  back : ∀ k, A.ofBytes (A.toBytes k) = some k
  argon_len : ∀ c p s d, A.argon c p s = some d → d.length = 32

/-- The text of an encrypted key. -/
def enckeyText (c : Costs) (salt body : Bytes) : Bytes :=
  ascii "$argon2d$v=19$m=" ++ dec c.mem ++ ascii ",t=" ++ dec c.times ++ ascii ",p=" ++ dec c.parallelism ++ ascii "$" ++ b64Enc standard salt ++
    ascii "$" ++ b64Enc standard body

theorem splitBy_none {α : Type} (p : α → Bool) (l : List α) (h : ∀ x ∈ l, p x = false) : Eval.splitBy p l = [l] := by
  induction l with
  | nil => rfl
  | cons x l ih =>
    rw [Eval.splitBy, if_neg (by rw [h x (List.mem_cons_self ..)]; decide), ih (fun y hy => h y (List.mem_cons_of_mem _ hy))]

theorem splitBy_at {α : Type} (p : α → Bool) (l : List α) (x : α) (r : List α) (h : ∀ x ∈ l, p x = false) (hx : p x = true) :
    Eval.splitBy p (l ++ x :: r) = l :: Eval.splitBy p r := by
  induction l with
  | nil => rw [List.nil_append, Eval.splitBy, if_pos hx]
  | cons y l ih =>
    rw [List.cons_append, Eval.splitBy, if_neg (by rw [h y (List.mem_cons_self ..)]; decide), ih (fun y hy => h y (List.mem_cons_of_mem _ hy))]

theorem splitOnce_at (c : UInt8) (a b : Bytes) (h : ∀ x ∈ a, x ≠ c) : splitOnce c (a ++ c :: b) = some (a, b) := by
  induction a with
  | nil => rw [List.nil_append, splitOnce, if_pos rfl]
  | cons y a ih =>
    rw [List.cons_append, splitOnce, if_neg (h y (List.mem_cons_self ..)), ih (fun y hy => h y (List.mem_cons_of_mem _ hy))]; rfl

theorem rsplitOnce_at (c : UInt8) (a b : Bytes) (h : ∀ x ∈ b, x ≠ c) : rsplitOnce c (a ++ c :: b) = some (a, b) := by
  unfold rsplitOnce
  rw [List.reverse_append, List.reverse_cons, List.append_assoc, List.singleton_append, splitOnce_at c _ _ (fun x hx => h x (List.mem_reverse.1 hx))]
  simp

theorem dec_ne {n : Nat} {c x : UInt8} (hx : x ∈ dec n) (hc : c.toNat < 0x30 ∨ 0x39 < c.toNat) : x ≠ c := by
  have := mem_dec hx
  rintro rfl
  omega

theorem b64_ne_dollar {b : Bytes} {x : UInt8} (hx : x ∈ b64Enc standard b) : x ≠ 0x24 := by
  rw [b64Enc_sext] at hx
  obtain ⟨d, _, rfl⟩ := List.mem_map.1 hx
  have : ∀ d, d < 64 → standard.char d ≠ 0x24 := by decide +kernel
  exact this d (sext_lt b d (by assumption))

theorem std_roundtrip (b : Bytes) : stdDecode (b64Enc standard b) = some b := by
  rw [stdDecode, decode_iff standard (.inr rfl)]

theorem readOpts_text (c : Costs) (hm : c.mem < 2 ^ 32) (ht : c.times < 2 ^ 32) (hp : c.parallelism < 2 ^ 32) :
    readOpts (ascii "m=" ++ dec c.mem ++ ascii ",t=" ++ dec c.times ++ ascii ",p=" ++ dec c.parallelism) = [c.mem, c.times, c.parallelism] := by
  have e : ascii "m=" ++ dec c.mem ++ ascii ",t=" ++ dec c.times ++ ascii ",p=" ++ dec c.parallelism =
      (ascii "m=" ++ dec c.mem) ++ 0x2c :: ((ascii "t=" ++ dec c.times) ++ 0x2c :: (ascii "p=" ++ dec c.parallelism)) := by
    rw [show ascii ",t=" = 0x2c :: ascii "t=" by decide, show ascii ",p=" = 0x2c :: ascii "p=" by decide]
    simp only [List.append_assoc, List.cons_append]
  have hno : ∀ (w : Bytes) (n : Nat), (∀ x ∈ w, (x == (0x2c : UInt8)) = false) → ∀ x ∈ w ++ dec n, (x == (0x2c : UInt8)) = false := by
    intro w n hw x hx
    rcases List.mem_append.1 hx with hx | hx
    · exact hw x hx
    · exact beq_false_of_ne (dec_ne hx (by decide))
  have hone : ∀ (w : UInt8) (n : Nat), w ≠ 0x3d → splitOnce 0x3d ([w, 0x3d] ++ dec n) = some ([w], dec n) := by
    intro w n hw
    exact splitOnce_at 0x3d [w] (dec n) (by simpa using hw)
  unfold readOpts
  rw [e, splitBy_at _ _ _ _ (hno _ _ (by decide)) (by decide), splitBy_at _ _ _ _ (hno _ _ (by decide)) (by decide), splitBy_none _ _ (hno _ _ (by decide))]
  rw [show ascii "m=" = [0x6d, 0x3d] by decide, show ascii "t=" = [0x74, 0x3d] by decide, show ascii "p=" = [0x70, 0x3d] by decide]
  simp only [List.filterMap_cons, List.filterMap_nil, hone 0x6d _ (by decide), hone 0x74 _ (by decide), hone 0x70 _ (by decide)]
  rw [show ascii "m" = [0x6d] by decide, show ascii "t" = [0x74] by decide, show ascii "p" = [0x70] by decide]
  simp [List.zip, List.filter, parseU_dec, hm, ht, hp]

theorem decode_text (c : Costs) (hm : c.mem < 2 ^ 32) (ht : c.times < 2 ^ 32) (hp : c.parallelism < 2 ^ 32) (salt body : Bytes) (hb : body.length = 32) :
    decodeString (enckeyText c salt body) = some ⟨c, salt, body⟩ := by
  have e : enckeyText c salt body = ascii "$argon2d$v=19$" ++
      ((ascii "m=" ++ dec c.mem ++ ascii ",t=" ++ dec c.times ++ ascii ",p=" ++ dec c.parallelism) ++ 0x24 :: (b64Enc standard salt ++ 0x24 :: b64Enc standard body)) := by
    unfold enckeyText
    rw [show ascii "$argon2d$v=19$m=" = ascii "$argon2d$v=19$" ++ ascii "m=" by decide, show ascii "$" = [0x24] by decide]
    simp only [List.append_assoc, List.cons_append, List.nil_append]
  have hd : ∀ x ∈ ascii "m=" ++ dec c.mem ++ ascii ",t=" ++ dec c.times ++ ascii ",p=" ++ dec c.parallelism, (x == (0x24 : UInt8)) = false := by
    intro x hx
    simp only [List.mem_append] at hx
    have hw : ∀ w : Bytes, (∀ x ∈ w, (x == (0x24 : UInt8)) = false) → x ∈ w → (x == (0x24 : UInt8)) = false := fun w h hx => h x hx
    rcases hx with ((((hx | hx) | hx) | hx) | hx) | hx
    · exact hw _ (by decide) hx
    · exact beq_false_of_ne (dec_ne hx (by decide))
    · exact hw _ (by decide) hx
    · exact beq_false_of_ne (dec_ne hx (by decide))
    · exact hw _ (by decide) hx
    · exact beq_false_of_ne (dec_ne hx (by decide))
  unfold decodeString
  simp only
  rw [e, if_neg (by simp [List.isPrefixOf_iff_prefix]), List.drop_left,
    splitBy_at _ _ _ _ hd (by decide), splitBy_at _ _ _ _ (fun x hx => beq_false_of_ne (b64_ne_dollar hx)) (by decide),
    splitBy_none _ _ (fun x hx => beq_false_of_ne (b64_ne_dollar hx))]
  simp only [std_roundtrip, readOpts_text c hm ht hp]
  rw [if_neg (by rw [hb]; decide)]

/-- Costs are 32 bit numbers. -/
def CostsOk (c : Costs) : Prop := c.mem < 2 ^ 32 ∧ c.times < 2 ^ 32 ∧ c.parallelism < 2 ^ 32

/-- **C54**: an encrypted key decrypts to itself with the password it was encrypted with, and its public key can be read without one.
For every key, password and costs the key derivation accepts. -/
theorem encrypt_decrypt {A : Lib} (L : Ident.Laws A) (k : A.Key) (pw : Bytes) (c : Costs) (hc : CostsOk c) {d : Bytes} (hd : A.argon c pw (A.pubkey k) = some d) :
    encryptWith A k pw c = .ok (enckeyText c (A.pubkey k) (xor32 d (A.toBytes k))) ∧
      decrypt A (enckeyText c (A.pubkey k) (xor32 d (A.toBytes k))) pw = .ok k ∧
      pubkeyOf (enckeyText c (A.pubkey k) (xor32 d (A.toBytes k))) = .ok (A.pubkey k) := by
  have hdl := L.argon_len _ _ _ _ hd
  have hxl := xor32_length hdl (L.secret_len k)
  have hdec := decode_text c hc.1 hc.2.1 hc.2.2 (A.pubkey k) (xor32 d (A.toBytes k)) hxl
  have h2 : decrypt A (enckeyText c (A.pubkey k) (xor32 d (A.toBytes k))) pw = .ok k := by
    unfold decrypt
    rw [hdec]
    simp only [hd]
    rw [if_neg (by rw [hdl]; decide), xor_cancel d _ (by rw [hdl, L.secret_len]), L.back]
    simp only
    rw [if_neg (fun h => h rfl)]
  refine ⟨?_, h2, ?_⟩
  · unfold encryptWith hashEncoded
    rw [hd]
    simp only [Option.map_some]
    rw [show ascii "$" = [0x24] by decide]
    rw [List.append_assoc _ [0x24] (b64Enc standard d), List.singleton_append, rsplitOnce_at _ _ _ (fun x hx => b64_ne_dollar hx)]
    simp only [std_roundtrip]
    unfold enckeyText at h2 ⊢
    rw [show ascii "$" = [0x24] by decide] at h2 ⊢
    rw [h2]
  · unfold pubkeyOf
    rw [hdec]
    simp only
    rw [if_neg (by rw [L.pub_len]; decide), if_neg (by rw [hxl]; decide)]

/-- If the key derivation refuses the costs, encryption aborts. -/
theorem encrypt_aborts {A : Lib} (k : A.Key) (pw : Bytes) (c : Costs) (hd : A.argon c pw (A.pubkey k) = none) : encryptWith A k pw c = .error .panic := by
  unfold encryptWith hashEncoded
  rw [hd]; rfl

/-- **C54**: whatever the text, a key that decrypts has the public key that the text shows. -/
theorem decrypt_matches {A : Lib} (L : Ident.Laws A) (s pw : Bytes) (k : A.Key) (h : decrypt A s pw = .ok k) : pubkeyOf s = .ok (A.pubkey k) := by
  unfold decrypt at h
  unfold pubkeyOf
  cases hd : decodeString s with
  | none => rw [hd] at h; cases h
  | some d =>
    have hh : d.hash.length = 32 := by
      unfold decodeString at hd
      simp only at hd
      split at hd
      · cases hd
      · split at hd
        · split at hd
          · cases hd
          · split at hd
            · cases hd
            · split at hd
              · cases hd
              · rename_i hl
                split at hd
                · cases hd; exact Classical.not_not.1 hl
                · cases hd
        · cases hd
    rw [hd] at h
    simp only at h ⊢
    split at h
    · cases h
    · split at h
      · cases h
      · split at h
        · cases h
        · split at h
          · cases h
          · rename_i hp
            injection h with h
            subst h
            have hp := Classical.not_not.1 hp
            rw [← hp, if_neg (by rw [L.pub_len]; decide), if_neg (by rw [hh]; decide)]

/-- **C54**, another password: decryption gives the same key or fails.  It is assumed that different keys have different public keys. -/
theorem other_password {A : Lib} (L : Ident.Laws A) (hinj : ∀ j k, A.pubkey j = A.pubkey k → j = k) (k : A.Key) (pw pw' : Bytes) (c : Costs) (hc : CostsOk c)
    {s : Bytes} (he : encryptWith A k pw c = .ok s) (j : A.Key) (hj : decrypt A s pw' = .ok j) : j = k := by
  cases hd : A.argon c pw (A.pubkey k) with
  | none => rw [encrypt_aborts k pw c hd] at he; cases he
  | some d =>
    obtain ⟨h1, _, h3⟩ := encrypt_decrypt L k pw c hc hd
    rw [h1] at he
    injection he with he
    have := decrypt_matches L s pw' j hj
    rw [← he, h3] at this
    injection this with this
    exact hinj _ _ this.symm

/-- **C54**, exactly when another password is accepted: the two digests differ by the difference of two secrets of the same key. -/
theorem other_password_iff {A : Lib} (L : Ident.Laws A) (k : A.Key) (pw pw' : Bytes) (c : Costs) (hc : CostsOk c) {d d' : Bytes}
    (hd : A.argon c pw (A.pubkey k) = some d) (hd' : A.argon c pw' (A.pubkey k) = some d') (j : A.Key) :
    decrypt A (enckeyText c (A.pubkey k) (xor32 d (A.toBytes k))) pw' = .ok j ↔
      A.ofBytes (xor32 d' (xor32 d (A.toBytes k))) = some j ∧ A.pubkey j = A.pubkey k := by
  have hxl := xor32_length (L.argon_len _ _ _ _ hd) (L.secret_len k)
  unfold decrypt
  rw [decode_text c hc.1 hc.2.1 hc.2.2 (A.pubkey k) _ hxl]
  simp only [hd']
  rw [if_neg (by rw [L.argon_len _ _ _ _ hd']; decide)]
  cases A.ofBytes (xor32 d' (xor32 d (A.toBytes k))) with
  | none => simp
  | some i =>
    simp only [Option.some.injEq]
    by_cases hp : A.pubkey i = A.pubkey k
    · rw [if_neg (fun h => h hp)]
      constructor
      · intro h; injection h with h; subst h; exact ⟨rfl, hp⟩
      · rintro ⟨h, _⟩; rw [h]
    · rw [if_pos hp]
      constructor
      · nofun
      · rintro ⟨h, h2⟩; rw [h] at hp; exact absurd h2 hp

/-- **C54** for the library interface: with an empty password the costs are the lowest, otherwise the default ones. -/
theorem lk_key_roundtrip {A : Lib} (L : Ident.Laws A) (k : A.Key) (pw : Bytes)
    (hd : ∀ c, (pw = [] → c = ⟨8, 1, 1⟩) → (pw ≠ [] → c = ⟨131072, 4, 4⟩) → (A.argon c pw (A.pubkey k)).isSome = true) :
    ∃ s, lkKeyEncrypt A k pw = .ok s ∧ decrypt A s pw = .ok k ∧ pubkeyOf s = .ok (A.pubkey k) := by
  unfold lkKeyEncrypt encrypt
  by_cases hp : pw = []
  · have h := hd ⟨8, 1, 1⟩ (fun _ => rfl) (fun h => absurd hp h)
    obtain ⟨d, hd⟩ := Option.isSome_iff_exists.1 h
    rw [hp] at hd ⊢
    exact ⟨_, encrypt_decrypt L k [] ⟨8, 1, 1⟩ ⟨by decide, by decide, by decide⟩ hd⟩
  · have h := hd ⟨131072, 4, 4⟩ (fun h => absurd h hp) (fun _ => rfl)
    obtain ⟨d, hd⟩ := Option.isSome_iff_exists.1 h
    have he : pw.isEmpty = false := by cases pw with
      | nil => exact absurd rfl hp
      | cons _ _ => rfl
    rw [he]
    exact ⟨_, encrypt_decrypt L k pw ⟨131072, 4, 4⟩ ⟨by decide, by decide, by decide⟩ hd⟩

/-- The text of a key is not unique: what follows a further `$` is ignored. -/
theorem enckey_trailing (A : Lib) (c : Costs) (hc : CostsOk c) (salt body junk pw : Bytes) (hb : body.length = 32) :
    decrypt A (enckeyText c salt body ++ 0x24 :: junk) pw = decrypt A (enckeyText c salt body) pw := by
  have h : decodeString (enckeyText c salt body ++ 0x24 :: junk) = decodeString (enckeyText c salt body) := by
    rw [decode_text c hc.1 hc.2.1 hc.2.2 salt body hb]
    have e : enckeyText c salt body ++ 0x24 :: junk = ascii "$argon2d$v=19$" ++
        ((ascii "m=" ++ dec c.mem ++ ascii ",t=" ++ dec c.times ++ ascii ",p=" ++ dec c.parallelism) ++ 0x24 :: (b64Enc standard salt ++ 0x24 :: (b64Enc standard body ++ 0x24 :: junk))) := by
      unfold enckeyText
      rw [show ascii "$argon2d$v=19$m=" = ascii "$argon2d$v=19$" ++ ascii "m=" by decide, show ascii "$" = [0x24] by decide]
      simp only [List.append_assoc, List.cons_append, List.nil_append]
    have hd : ∀ x ∈ ascii "m=" ++ dec c.mem ++ ascii ",t=" ++ dec c.times ++ ascii ",p=" ++ dec c.parallelism, (x == (0x24 : UInt8)) = false := by
      intro x hx
      simp only [List.mem_append] at hx
      have hw : ∀ w : Bytes, (∀ x ∈ w, (x == (0x24 : UInt8)) = false) → x ∈ w → (x == (0x24 : UInt8)) = false := fun w h hx => h x hx
      rcases hx with ((((hx | hx) | hx) | hx) | hx) | hx
      · exact hw _ (by decide) hx
      · exact beq_false_of_ne (dec_ne hx (by decide))
      · exact hw _ (by decide) hx
      · exact beq_false_of_ne (dec_ne hx (by decide))
      · exact hw _ (by decide) hx
      · exact beq_false_of_ne (dec_ne hx (by decide))
    unfold decodeString
    simp only
    rw [e, if_neg (by simp [List.isPrefixOf_iff_prefix]), List.drop_left,
      splitBy_at _ _ _ _ hd (by decide), splitBy_at _ _ _ _ (fun x hx => beq_false_of_ne (b64_ne_dollar hx)) (by decide),
      splitBy_at _ _ _ _ (fun x hx => beq_false_of_ne (b64_ne_dollar hx)) (by decide)]
    simp only [std_roundtrip, readOpts_text c hc.1 hc.2.1 hc.2.2]
    rw [if_neg (by rw [hb]; decide)]
  unfold decrypt
  rw [h]

/-- A toy library that meets the assumptions. -/
def toyLib : Lib where
  Key := UInt8
  ofBytes b := if b = List.replicate 32 (b.headD 0) then some (b.headD 0) else none
  toBytes k := List.replicate 32 k
  pubkey k := List.replicate 31 0 ++ [k]
  argon c p _ := if c.mem < 8 then none else some ((p ++ List.replicate 32 7).take 32)

theorem toyLib_laws : Ident.Laws toyLib where
  pub_len (k : UInt8) := by show (List.replicate 31 0 ++ [k]).length = 32; simp
  secret_len (k : UInt8) := by show (List.replicate 32 k).length = 32; simp
  back (k : UInt8) := by
    show (if List.replicate 32 (k : UInt8) = List.replicate 32 k then some k else none) = some k
    rw [if_pos rfl]
  argon_len c p s d h := by
    simp only [toyLib] at h
    split at h
    · cases h
    · cases h; rw [List.length_take, List.length_append, List.length_replicate]; omega

example : (∃ s, lkKeyEncrypt toyLib (5 : UInt8) (ascii "secret") = .ok s ∧ decrypt toyLib s (ascii "secret") = .ok (5 : UInt8)) ∧
    ∃ s, lkKeyEncrypt toyLib (5 : UInt8) (ascii "secret") = .ok s ∧ (decrypt toyLib s (ascii "guess")).isOk = false := by
  have h : lkKeyEncrypt toyLib (5 : UInt8) (ascii "secret") =
      .ok (enckeyText ⟨131072, 4, 4⟩ (List.replicate 31 0 ++ [5]) (xor32 ((ascii "secret" ++ List.replicate 32 7).take 32) (List.replicate 32 5))) :=
    (encrypt_decrypt toyLib_laws (5 : UInt8) (ascii "secret") ⟨131072, 4, 4⟩ ⟨by decide, by decide, by decide⟩ rfl).1
  exact ⟨⟨_, h, (encrypt_decrypt toyLib_laws (5 : UInt8) (ascii "secret") ⟨131072, 4, 4⟩ ⟨by decide, by decide, by decide⟩ rfl).2.1⟩, _, h, by decide +kernel⟩

end Verif.Props
