import Verif.Lemmas.Tokenize
/-! The exclusion set of `lk_tokenize_abe`. -/
namespace Verif.Ast
open Verif Verif.Abtxt Verif.Spec

theorem bit_and (c k : CtrChar) : c.bit &&& k.bit = if c = k then k.bit else 0 := by
  cases c <;> cases k <;> decide

theorem xor_and (a b c : UInt32) : (a ^^^ b) &&& c = (a &&& c) ^^^ (b &&& c) := by
  apply UInt32.toBitVec_inj.mp
  simp only [UInt32.toBitVec_and, UInt32.toBitVec_xor]
  ext i hi
  simp
  cases a.toBitVec[i] <;> cases b.toBitVec[i] <;> cases c.toBitVec[i] <;> rfl

theorem fold_and (l : List CtrChar) (a : UInt32) (k : CtrChar) :
    (l.foldl (fun a c => a ^^^ c.bit) a) &&& k.bit =
      if l.count k % 2 = 0 then a &&& k.bit else (a &&& k.bit) ^^^ k.bit := by
  induction l generalizing a with
  | nil => simp
  | cons c l ih =>
    simp only [List.foldl_cons, ih, xor_and, bit_and, List.count_cons]
    by_cases hc : c = k
    · subst hc
      have hx : a &&& c.bit ^^^ c.bit ^^^ c.bit = a &&& c.bit := by
        rw [UInt32.xor_assoc]; simp
      simp only [if_true, beq_self_eq_true]
      rcases Nat.mod_two_eq_zero_or_one (l.count c) with h | h
      · have : (l.count c + 1) % 2 = 1 := by omega
        simp [h, this]
      · have : (l.count c + 1) % 2 = 0 := by omega
        simp [h, this, hx]
    · simp [hc]

theorem mem_filterMap_ctr (excl : Bytes) (k : CtrChar) :
    k ∈ excl.filterMap CtrChar.tryFromChar ↔ k.asChar ∈ excl := by
  simp only [List.mem_filterMap]
  constructor
  · rintro ⟨b, hb, h⟩; rw [← tryFromChar_eq h]; exact hb
  · intro h; exact ⟨_, h, tryFromChar_asChar k⟩

theorem count_filterMap_le (excl : Bytes) (h : excl.Nodup) (k : CtrChar) :
    (excl.filterMap CtrChar.tryFromChar).count k ≤ 1 := by
  induction excl with
  | nil => simp
  | cons b bs ih =>
    simp only [List.nodup_cons] at h
    simp only [List.filterMap_cons]
    split
    · exact ih h.2
    · rename_i c hc
      rw [List.count_cons]
      split
      · rename_i hck
        simp at hck; subst hck
        have := tryFromChar_eq hc
        subst this
        have : c ∉ bs.filterMap CtrChar.tryFromChar := by
          rw [mem_filterMap_ctr]; exact h.1
        rw [List.count_eq_zero.mpr this]; omega
      · simpa using ih h.2

theorem plainIn_exclude (excl : Bytes) (h : excl.Nodup) (k : CtrChar) :
    PlainIn (excludeCset excl) k ↔ Excluded excl k := by
  unfold PlainIn excludeCset Excluded
  rw [fold_and, ← mem_filterMap_ctr]
  have hle := count_filterMap_le excl h k
  constructor
  · intro hne
    refine Decidable.byContradiction fun hm => ?_
    rw [List.count_eq_zero.mpr hm] at hne
    simp at hne
  · intro hm
    have := List.count_pos_iff.mpr hm
    have : (excl.filterMap CtrChar.tryFromChar).count k = 1 := by omega
    rw [this]
    cases k <;> decide

theorem plainIn_exclude_eq (excl : Bytes) (h : excl.Nodup) :
    PlainIn (excludeCset excl) = Excluded excl := by
  funext k; exact propext (plainIn_exclude excl h k)

end Verif.Ast
