import Verif.Model.Num
import Verif.Spec.Base64
import Verif.Lemmas.Base64
namespace Verif.Num
open Verif Verif.Spec Verif.Abe

/-- The digits of a number in decimal. -/
def decDigits (n : Nat) : List Nat := if n < 10 then [n] else decDigits (n / 10) ++ [n % 10]
termination_by n

theorem decDigits_lt (n : Nat) : ∀ d ∈ decDigits n, d < 10 := by
  fun_induction decDigits n with
  | case1 n h => simp; omega
  | case2 n h ih =>
    intro d hd
    rcases List.mem_append.1 hd with hd | hd
    · exact ih d hd
    · simp at hd; omega

theorem decDigits_ne (n : Nat) : decDigits n ≠ [] := by
  rw [decDigits]; split <;> simp

theorem dec_eq (n : Nat) : dec n = (decDigits n).map (fun d => UInt8.ofNat (0x30 + d)) := by
  fun_induction decDigits n with
  | case1 n h => rw [dec, if_pos h]; rfl
  | case2 n h ih => rw [dec, if_neg h, ih]; simp

theorem ofDigits_decDigits (n : Nat) : ofDigits 10 (decDigits n) = n := by
  fun_induction decDigits n with
  | case1 n h => simp [ofDigits]
  | case2 n h ih => rw [ofDigits_append, ih]; simp [ofDigits]; omega

theorem mapM_length {α β : Type} {f : α → Option β} {s : List α} {t : List β} (h : s.mapM f = some t) :
    t.length = s.length := by
  induction s generalizing t with
  | nil => cases h; rfl
  | cons c s ih =>
    rw [List.mapM_cons] at h
    cases hc : f c with
    | none => rw [hc] at h; cases h
    | some v =>
      cases hm : s.mapM f with
      | none => rw [hc, hm] at h; cases h
      | some t' => rw [hc, hm] at h; cases h; simp [ih hm]

theorem digits_acc (radix acc : Nat) (s : Bytes) (v : Nat) : digits radix acc s = some v ↔
    ∃ ds, s.mapM (digit radix) = some ds ∧ v = acc * radix ^ s.length + ofDigits radix ds := by
  induction s generalizing acc with
  | nil => simp [digits, ofDigits]; exact eq_comm
  | cons c s ih =>
    rw [digits, List.mapM_cons]
    cases hd : digit radix c with
    | none => simp
    | some d =>
      simp only [ih, Option.bind_eq_bind, Option.bind_some, Option.pure_def, List.length_cons]
      constructor
      · rintro ⟨ds, h1, h2⟩
        refine ⟨d :: ds, by rw [h1]; rfl, ?_⟩
        have hl : ds.length = s.length := by
          have := mapM_length h1
          omega
        simp only [ofDigits, hl, h2, Nat.pow_succ, Nat.add_mul, Nat.mul_assoc, Nat.add_assoc]
        rw [Nat.mul_comm radix]
      · rintro ⟨ds, h1, h2⟩
        cases hm : s.mapM (digit radix) with
        | none => rw [hm] at h1; cases h1
        | some t =>
          rw [hm] at h1
          simp at h1
          subst h1
          refine ⟨t, rfl, ?_⟩
          have hl : t.length = s.length := by
            have := mapM_length hm
            omega
          simp only [ofDigits, hl, Nat.pow_succ] at h2
          simp only [h2, Nat.add_mul, Nat.mul_assoc, Nat.add_assoc]
          rw [Nat.mul_comm radix]

theorem digit_ten (d : Nat) (h : d < 10) : digit 10 (UInt8.ofNat (0x30 + d)) = some d := by
  have : ∀ n : Fin 10, digit 10 (UInt8.ofNat (0x30 + n.1)) = some n.1 := by decide
  exact this ⟨d, h⟩

theorem mapM_digit_ten (ds : List Nat) (h : ∀ d ∈ ds, d < 10) :
    (ds.map (fun d => UInt8.ofNat (0x30 + d))).mapM (digit 10) = some ds := by
  induction ds with
  | nil => rfl
  | cons d ds ih =>
    rw [List.map_cons, List.mapM_cons, digit_ten d (h d List.mem_cons_self), ih (fun e he => h e (List.mem_cons_of_mem _ he))]
    rfl

/-- Characters of decimal numbers. -/
theorem mem_dec {n : Nat} {c : UInt8} (h : c ∈ dec n) : 0x30 ≤ c.toNat ∧ c.toNat ≤ 0x39 := by
  rw [dec_eq] at h
  obtain ⟨d, hd, rfl⟩ := List.mem_map.1 h
  have := decDigits_lt n d hd
  rw [UInt8.toNat_ofNat', Nat.mod_eq_of_lt (by omega)]
  omega

theorem dec_ne (n : Nat) : dec n ≠ [] := by
  rw [dec_eq]
  intro h
  exact decDigits_ne n (List.map_eq_nil_iff.1 h)

theorem digits_dec (n : Nat) : digits 10 0 (dec n) = some n := by
  rw [digits_acc]
  refine ⟨decDigits n, ?_, ?_⟩
  · rw [dec_eq]; exact mapM_digit_ten _ (decDigits_lt n)
  · rw [ofDigits_decDigits]; omega

theorem parseU_dec (bound n : Nat) : parseU 10 bound (dec n) = if n < bound then some n else none := by
  have h1 : stripPlus (dec n) = dec n := by
    unfold stripPlus
    split
    · rename_i r h
      have := mem_dec (n := n) (c := 0x2b) (by rw [h]; exact List.mem_cons_self)
      exact absurd this (by decide)
    · rfl
  rw [parseU, h1, if_neg (dec_ne n), digits_dec]

theorem parseUsize_dec (n : Nat) (h : n < 2 ^ 64) : parseUsize (dec n) = some n := by
  rw [parseUsize, parseU_dec, if_pos h]

end Verif.Num
