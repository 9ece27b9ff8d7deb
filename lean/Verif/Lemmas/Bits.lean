import Verif.Model.TestSet
import Verif.Spec.TestSet
/-! Lemmas about bits and the next value matching a mask. -/
namespace Verif.Pred
open Verif Verif.Spec

/-- Order of numbers by their highest differing bit. -/
theorem lt_of_bit {a b : Nat} (i : Nat) (ha : a.testBit i = false) (hb : b.testBit i = true)
    (h : ∀ j, i < j → a.testBit j = b.testBit j) : a < b := by
  have e : a / 2 ^ (i + 1) = b / 2 ^ (i + 1) := by
    apply Nat.eq_of_testBit_eq
    intro j
    rw [Nat.testBit_div_two_pow, Nat.testBit_div_two_pow]
    exact h _ (by omega)
  have ea : (a / 2 ^ i) % 2 = 0 := by
    have := ha; rw [Nat.testBit_eq_decide_div_mod_eq] at this; simpa using this
  have eb : (b / 2 ^ i) % 2 = 1 := by
    have := hb; rw [Nat.testBit_eq_decide_div_mod_eq] at this; simpa using this
  have pa : a / 2 ^ (i + 1) = a / 2 ^ i / 2 := by rw [Nat.pow_succ, Nat.div_div_eq_div_mul]
  have pb : b / 2 ^ (i + 1) = b / 2 ^ i / 2 := by rw [Nat.pow_succ, Nat.div_div_eq_div_mul]
  have hlt : a / 2 ^ i < b / 2 ^ i := by omega
  apply Classical.byContradiction
  intro hge
  have := Nat.div_le_div_right (c := 2 ^ i) (show b ≤ a by omega)
  omega

theorem exists_bit_of_lt {a b : Nat} (hab : a < b) :
    ∃ i, a.testBit i = false ∧ b.testBit i = true ∧ ∀ j, i < j → a.testBit j = b.testBit j := by
  induction b using Nat.strongRecOn generalizing a with
  | _ b ih =>
    by_cases h : a / 2 < b / 2
    · obtain ⟨i, h1, h2, h3⟩ := ih (b / 2) (by omega) h
      refine ⟨i + 1, by rw [Nat.testBit_succ]; exact h1, by rw [Nat.testBit_succ]; exact h2, ?_⟩
      intro j hj
      cases j with
      | zero => omega
      | succ j => rw [Nat.testBit_succ, Nat.testBit_succ]; exact h3 j (by omega)
    · refine ⟨0, by rw [Nat.testBit_zero]; simp; omega, by rw [Nat.testBit_zero]; simp; omega, ?_⟩
      intro j hj
      cases j with
      | zero => omega
      | succ j => rw [Nat.testBit_succ, Nat.testBit_succ, show a / 2 = b / 2 by omega]

theorem toNat_testBit {w : Nat} (x : BitVec w) (i : Nat) : x.toNat.testBit i = x.getLsbD i := rfl

/-! ### counting bits -/

theorem onesFrom_le {w : Nat} (v : BitVec w) (i n : Nat) : onesFrom v i n ≤ n := by
  induction n generalizing i with
  | zero => simp [onesFrom]
  | succ n ih =>
    unfold onesFrom
    split
    · have := ih (i + 1); omega
    · omega

theorem onesFrom_set {w : Nat} (v : BitVec w) (i n j : Nat) (h1 : i ≤ j) (h2 : j < i + onesFrom v i n) : v.getLsbD j = true := by
  induction n generalizing i with
  | zero => simp [onesFrom] at h2; omega
  | succ n ih =>
    unfold onesFrom at h2
    split at h2
    · by_cases h : i = j
      · subst h; assumption
      · exact ih (i + 1) (by omega) (by omega)
    · omega

theorem onesFrom_stop {w : Nat} (v : BitVec w) (i n : Nat) (h : onesFrom v i n < n) : v.getLsbD (i + onesFrom v i n) = false := by
  induction n generalizing i with
  | zero => omega
  | succ n ih =>
    unfold onesFrom at h ⊢
    split
    · rename_i hb
      rw [if_pos hb] at h
      have := ih (i + 1) (by omega)
      rw [← this]; congr 1; omega
    · rename_i hb; simpa using hb

theorem trailingOnes_le {w : Nat} (v : BitVec w) : trailingOnes v ≤ w := onesFrom_le v 0 w
theorem trailingOnes_set {w : Nat} (v : BitVec w) {j : Nat} (h : j < trailingOnes v) : v.getLsbD j = true :=
  onesFrom_set v 0 w j (by omega) (by simpa [trailingOnes] using h)
theorem trailingOnes_stop {w : Nat} (v : BitVec w) (h : trailingOnes v < w) : v.getLsbD (trailingOnes v) = false := by
  have := onesFrom_stop v 0 w h
  rw [Nat.zero_add] at this
  exact this

theorem zerosFrom_le {w : Nat} (v : BitVec w) (n : Nat) : zerosFrom v n ≤ n := by
  induction n with
  | zero => simp [zerosFrom]
  | succ n ih => unfold zerosFrom; split <;> omega

theorem zerosFrom_clear {w : Nat} (v : BitVec w) (n j : Nat) (h1 : n - zerosFrom v n ≤ j) (h2 : j < n) : v.getLsbD j = false := by
  induction n with
  | zero => omega
  | succ n ih =>
    unfold zerosFrom at h1
    split at h1
    · omega
    · by_cases h : j = n
      · rename_i hb; subst h; simpa using hb
      · exact ih (by omega) (by omega)

theorem zerosFrom_set {w : Nat} (v : BitVec w) (n : Nat) (h : zerosFrom v n < n) : v.getLsbD (n - 1 - zerosFrom v n) = true := by
  induction n with
  | zero => omega
  | succ n ih =>
    unfold zerosFrom at h ⊢
    split
    · simpa using ‹_›
    · rename_i hb
      rw [if_neg hb] at h
      have := ih (by omega)
      rw [← this]; congr 1; omega

theorem leadingZeros_lt {w : Nat} (v : BitVec w) (h : v ≠ 0#w) : leadingZeros v < w := by
  apply Classical.byContradiction
  intro hc
  apply h
  apply BitVec.eq_of_getLsbD_eq
  intro i hi
  rw [zerosFrom_clear v w i (by simp only [leadingZeros] at hc; omega) hi]
  simp

/-! ### the mask search -/

theorem mask_test_iff {w : Nat} (m : Mask w) (v : BitVec w) :
    m.test v = true ↔ ∀ i, (v.getLsbD i = true → m.zeros.getLsbD i = true) ∧ (m.ones.getLsbD i = true → v.getLsbD i = true) := by
  simp only [Mask.test, TestOp.holds, Bool.and_eq_true, beq_iff_eq]
  constructor
  · rintro ⟨h1, h2⟩ i
    constructor
    · intro h; rw [← h1]; simp [h]
    · intro h
      rw [← h2] at h
      simp at h
      exact h.1
  · intro h
    constructor
    · apply BitVec.eq_of_getLsbD_eq
      intro i _
      have := (h i).1
      rw [BitVec.getLsbD_or]
      cases hv : v.getLsbD i <;> simp_all
    · apply BitVec.eq_of_getLsbD_eq
      intro i _
      have := (h i).2
      rw [BitVec.getLsbD_and]
      cases hv : m.ones.getLsbD i <;> simp_all

theorem mask_hasAny_iff {w : Nat} (m : Mask w) : m.hasAny = true ↔ ∀ i, m.ones.getLsbD i = true → m.zeros.getLsbD i = true := by
  simp only [Mask.hasAny, beq_iff_eq]
  constructor
  · intro h i hi
    rw [← h] at hi
    simp at hi
    exact hi.1
  · intro h
    apply BitVec.eq_of_getLsbD_eq
    intro i _
    have := h i
    rw [BitVec.getLsbD_and]
    cases hv : m.ones.getLsbD i <;> simp_all

theorem mask_hasAny_of_test {w : Nat} {m : Mask w} {v : BitVec w} (h : m.test v = true) : m.hasAny = true := by
  rw [mask_hasAny_iff]; rw [mask_test_iff] at h
  exact fun i hi => (h i).1 ((h i).2 hi)

theorem wrong_bool (z v o : Bool) :
    ((!z && v) || (o && !v)) = false ↔ (v = true → z = true) ∧ (o = true → v = true) := by
  cases z <;> cases v <;> cases o <;> decide

theorem wrongBits_bit {w : Nat} (m : Mask w) (v : BitVec w) (i : Nat) (hi : i < w) :
    (m.wrongBits v).getLsbD i = ((!m.zeros.getLsbD i && v.getLsbD i) || (m.ones.getLsbD i && !v.getLsbD i)) := by
  simp [Mask.wrongBits, hi]

theorem wrongBits_zero {w : Nat} (m : Mask w) (v : BitVec w) : m.wrongBits v = 0#w ↔ m.test v = true := by
  rw [mask_test_iff]
  constructor
  · intro h i
    by_cases hi : i < w
    · have := wrongBits_bit m v i hi
      rw [h] at this
      simp at this
      constructor
      · intro hv; cases hz : m.zeros.getLsbD i <;> simp_all
      · intro ho; cases hv : v.getLsbD i <;> simp_all
    · simp [BitVec.getLsbD_of_ge _ _ (by omega : w ≤ i)]
  · intro h
    apply BitVec.eq_of_getLsbD_eq
    intro i hi
    rw [wrongBits_bit m v i hi, (wrong_bool _ _ _).2 (h i)]
    simp

/-- low `k` bits -/
theorem not_shl_max {w : Nat} (k i : Nat) (hk : k < w) (hi : i < w) :
    (~~~ (oshl (maxV w) k).1).getLsbD i = decide (i < k) := by
  simp only [oshl, maxV, Nat.mod_eq_of_lt hk, BitVec.getLsbD_not, BitVec.getLsbD_shiftLeft, BitVec.getLsbD_allOnes]
  by_cases h : i < k
  · simp [h, hi]
  · have h2 : i - k < w := by omega
    simp [h, hi, h2]

/-- The pivot found by the search: the lowest bit above every wrong bit that is free to become one. -/
structure Pivot {w : Nat} (m : Mask w) (v : BitVec w) (p : Nat) : Prop where
  free : v.getLsbD p = false
  allowed : m.zeros.getLsbD p = true
  above : ∀ j, p < j → (m.wrongBits v).getLsbD j = false
  lowest : ∀ j, (∀ k, j < k → (m.wrongBits v).getLsbD k = false) → v.getLsbD j = false → m.zeros.getLsbD j = true → p ≤ j

/-- The value built from the pivot is the next one. -/
theorem next_of_pivot {w : Nat} {m : Mask w} {v r : BitVec w} {p : Nat} (hw : m.wrongBits v ≠ 0#w) (hp : Pivot m v p)
    (hhi : ∀ j, p < j → r.getLsbD j = v.getLsbD j) (hpb : r.getLsbD p = true)
    (hlo : ∀ j, j < p → r.getLsbD j = m.ones.getLsbD j) (ha : m.hasAny = true) :
    IsNext (fun x => m.test x = true) v (some r) := by
  rw [mask_hasAny_iff] at ha
  refine ⟨?_, ?_, ?_⟩
  · show m.test r = true
    rw [mask_test_iff]
    intro i
    by_cases h1 : i < p
    · rw [hlo i h1]; exact ⟨ha i, id⟩
    · by_cases h2 : i = p
      · subst h2; rw [hpb]; exact ⟨fun _ => hp.allowed, fun _ => rfl⟩
      · rw [hhi i (by omega)]
        by_cases hi : i < w
        · have := hp.above i (by omega)
          rw [wrongBits_bit m v i hi] at this
          exact (wrong_bool _ _ _).1 this
        · simp [BitVec.getLsbD_of_ge _ _ (by omega : w ≤ i)]
  · apply Nat.le_of_lt
    exact lt_of_bit p hp.free hpb (fun j hj => (hhi j hj).symm)
  · intro y hy hvy
    have hy : m.test y = true := hy
    rw [mask_test_iff] at hy
    have hne : v.toNat ≠ y.toNat := by
      intro e
      have e := BitVec.eq_of_toNat_eq e
      subst e
      exact hw ((wrongBits_zero m v).2 ((mask_test_iff m v).2 hy))
    obtain ⟨q, q1, q2, q3⟩ := exists_bit_of_lt (show v.toNat < y.toNat by omega)
    rw [toNat_testBit] at q1 q2
    have q3 : ∀ j, q < j → v.getLsbD j = y.getLsbD j := q3
    have hq : ∀ k, q < k → (m.wrongBits v).getLsbD k = false := by
      intro k hk
      by_cases hkw : k < w
      · rw [wrongBits_bit m v k hkw, q3 k hk]
        exact (wrong_bool _ _ _).2 (hy k)
      · exact BitVec.getLsbD_of_ge _ _ (by omega)
    have hpq := hp.lowest q hq q1 ((hy q).1 q2)
    apply Classical.byContradiction
    intro hlt
    obtain ⟨s, s1, s2, s3⟩ := exists_bit_of_lt (show y.toNat < r.toNat by omega)
    rw [toNat_testBit] at s1 s2
    have s3 : ∀ j, s < j → y.getLsbD j = r.getLsbD j := s3
    by_cases hsp : s < p
    · rw [hlo s hsp] at s2
      rw [(hy s).2 s2] at s1
      cases s1
    · by_cases hsq : s < q
      · have := s3 q hsq
        rw [q2] at this
        rw [hhi q (by omega), q1] at this
        cases this
      · by_cases e : s = q
        · subst e; rw [q2] at s1; cases s1
        · have hs : q < s := by omega
          rw [← q3 s hs] at s1
          rw [hhi s (by omega), s1] at s2
          cases s2

/-- No free bit: nothing at or above `v` is in the set. -/
theorem none_of_no_pivot {w : Nat} {m : Mask w} {v : BitVec w} (hw : m.wrongBits v ≠ 0#w)
    (hn : ∀ j, (∀ k, j < k → (m.wrongBits v).getLsbD k = false) → v.getLsbD j = false → m.zeros.getLsbD j = true → False) :
    IsNext (fun x => m.test x = true) v none := by
  intro y hy hvy
  have hy : m.test y = true := hy
  rw [mask_test_iff] at hy
  have hne : v.toNat ≠ y.toNat := by
    intro e
    have e := BitVec.eq_of_toNat_eq e
    subst e
    exact hw ((wrongBits_zero m v).2 ((mask_test_iff m v).2 hy))
  obtain ⟨q, q1, q2, q3⟩ := exists_bit_of_lt (show v.toNat < y.toNat by omega)
  rw [toNat_testBit] at q1 q2
  have q3 : ∀ j, q < j → v.getLsbD j = y.getLsbD j := q3
  refine hn q ?_ q1 ((hy q).1 q2)
  intro k hk
  by_cases hkw : k < w
  · rw [wrongBits_bit m v k hkw, q3 k hk]
    exact (wrong_bool _ _ _).2 (hy k)
  · exact BitVec.getLsbD_of_ge _ _ (by omega)

theorem wrapSub_lt {a b : Nat} (h : b ≤ a) (ha : a < 2 ^ 32) : wrapSub32 a b = a - b := by
  unfold wrapSub32
  rw [show a + 2 ^ 32 - b = (a - b) + 2 ^ 32 by omega, Nat.add_mod_right, Nat.mod_eq_of_lt (by omega)]

theorem or_low_add_one (a p : Nat) : (a ||| (2 ^ p - 1)) + 1 = (a / 2 ^ p + 1) * 2 ^ p := by
  have h : a ||| (2 ^ p - 1) = (a / 2 ^ p) <<< p + (2 ^ p - 1) := by
    rw [Nat.shiftLeft_add_eq_or_of_lt (by have := Nat.two_pow_pos p; omega)]
    apply Nat.eq_of_testBit_eq
    intro i
    simp only [Nat.testBit_or, Nat.testBit_two_pow_sub_one, Nat.testBit_shiftLeft, Nat.testBit_div_two_pow]
    by_cases h : i < p
    · simp [h]
    · simp [h, Nat.not_lt.1 h, show i - p + p = i by omega]
  rw [h, Nat.shiftLeft_eq]
  have := Nat.two_pow_pos p
  rw [Nat.add_mul]
  omega

/-- The mask search is exact. -/
theorem inSet_isNext {w : Nat} (m : Mask w) (v : BitVec w) (h0 : 1 < w) (h32 : w < 2 ^ 32) (ha : m.hasAny = true) :
    IsNext (fun x => m.test x = true) v (m.inSet v) := by
  unfold Mask.inSet Mask.overflowingInSet
  simp only []
  by_cases hw : m.wrongBits v = minV w
  · rw [if_pos hw]
    simp only [Bool.false_eq_true, if_false]
    exact ⟨(wrongBits_zero m v).1 hw, Nat.le_refl _, fun y _ h => h⟩
  rw [if_neg hw]
  have hw : m.wrongBits v ≠ 0#w := hw
  simp only []
  have hlz := leadingZeros_lt _ hw
  -- the highest wrong bit
  generalize hh : w - 1 - leadingZeros (m.wrongBits v) = h
  have hhw : h < w := by omega
  have hhset : (m.wrongBits v).getLsbD h = true := by rw [← hh]; exact zerosFrom_set _ w hlz
  have hhabove : ∀ j, h < j → (m.wrongBits v).getLsbD j = false := by
    intro j hj
    by_cases hjw : j < w
    · refine zerosFrom_clear _ w j ?_ hjw
      have : leadingZeros (m.wrongBits v) = zerosFrom (m.wrongBits v) w := rfl
      omega
    · exact BitVec.getLsbD_of_ge _ _ (by omega)
  have hvnz : ∀ i, i < w → (v ||| ~~~ m.zeros ||| ~~~ (oshl (maxV w) h).1).getLsbD i =
      (v.getLsbD i || !m.zeros.getLsbD i || decide (i < h)) := by
    intro i hi
    rw [BitVec.getLsbD_or, BitVec.getLsbD_or, not_shl_max h i hhw hi, BitVec.getLsbD_not]
    simp [hi]
  generalize hV : (v ||| ~~~ m.zeros ||| ~~~ (oshl (maxV w) h).1) = vnz at hvnz
  have habove_iff : ∀ j, (∀ k, j < k → (m.wrongBits v).getLsbD k = false) → h ≤ j := by
    intro j hj
    apply Classical.byContradiction
    intro hc
    have := hj h (by omega)
    rw [hhset] at this; cases this
  by_cases hp : trailingOnes vnz < w
  · -- there is a pivot
    have hstop := trailingOnes_stop vnz hp
    generalize hpe : trailingOnes vnz = p at hp hstop
    rw [hvnz p hp] at hstop
    simp only [Bool.or_eq_false_iff, Bool.not_eq_eq_eq_not, Bool.not_false, decide_eq_false_iff_not] at hstop
    have hpv : Pivot m v p := by
      refine ⟨hstop.1.1, hstop.1.2, fun j hj => hhabove j (by omega), ?_⟩
      intro j hj hvj hzj
      apply Classical.byContradiction
      intro hc
      have hs := trailingOnes_set vnz (show j < trailingOnes vnz by omega)
      rw [hvnz j (by omega), hvj, hzj] at hs
      have := habove_iff j hj
      simp at hs; omega
    rw [wrapSub_lt (by omega) (by omega)]
    have hover : (oshr (maxV w) (w - 1 - p)).2 = false := by simp [oshr]; omega
    simp only [hover, Bool.false_eq_true, if_false]
    have hfree : (oshr (oshr (maxV w) (w - 1 - p)).1 1).1.toNat = 2 ^ p - 1 := by
      apply Nat.eq_of_testBit_eq
      intro i
      rw [toNat_testBit, Nat.testBit_two_pow_sub_one]
      simp only [oshr, maxV]
      rw [Nat.mod_eq_of_lt (show 1 < w by omega), Nat.mod_eq_of_lt (show w - 1 - p < w by omega)]
      simp only [BitVec.getLsbD_ushiftRight, BitVec.getLsbD_allOnes]
      by_cases hi : i < p
      · simp [hi]; omega
      · simp [hi]; omega
    have hinc : (v ||| (oshr (oshr (maxV w) (w - 1 - p)).1 1).1).toNat + 1 = (v.toNat / 2 ^ p + 1) * 2 ^ p := by
      rw [BitVec.toNat_or, hfree, or_low_add_one]
    have hz : (v.toNat / 2 ^ p) % 2 = 0 := by
      have h1 : v.toNat.testBit p = false := hstop.1.1
      rw [Nat.testBit_eq_decide_div_mod_eq] at h1; simpa using h1
    have hpw : 2 ^ w = 2 * (2 ^ (w - 1 - p) * 2 ^ p) := by
      rw [← Nat.pow_add, ← Nat.pow_succ']; congr 1; omega
    have hvlt : v.toNat / 2 ^ p < 2 * 2 ^ (w - 1 - p) := by
      rw [Nat.div_lt_iff_lt_mul (Nat.two_pow_pos p)]
      have := v.isLt
      rw [hpw] at this
      rw [Nat.mul_assoc]; exact this
    have hlt : (v.toNat / 2 ^ p + 1) * 2 ^ p < 2 ^ w := by
      rw [hpw, ← Nat.mul_assoc]
      exact Nat.mul_lt_mul_of_pos_right (by omega) (Nat.two_pow_pos p)
    have hincn : ((v ||| (oshr (oshr (maxV w) (w - 1 - p)).1 1).1) + 1#w).toNat = (v.toNat / 2 ^ p + 1) * 2 ^ p := by
      rw [BitVec.toNat_add, BitVec.toNat_ofNat, Nat.mod_eq_of_lt (Nat.one_lt_two_pow (by omega)), hinc,
        Nat.mod_eq_of_lt hlt]
    have hbit : ∀ j, p ≤ j → ((v ||| (oshr (oshr (maxV w) (w - 1 - p)).1 1).1) + 1#w).getLsbD j =
        if j = p then true else v.getLsbD j := by
      intro j hj
      rw [← toNat_testBit, hincn, ← Nat.shiftLeft_eq, Nat.testBit_shiftLeft]
      by_cases e : j = p
      · subst e
        simp [Nat.testBit_zero]; omega
      · rw [if_neg e]
        simp only [ge_iff_le, hj, decide_true, Bool.true_and]
        have e1 : j - p = (j - p - 1) + 1 := by omega
        rw [e1, Nat.testBit_succ, show (v.toNat / 2 ^ p + 1) / 2 = v.toNat / 2 ^ p / 2 by omega, ← Nat.testBit_succ,
          show (j - p - 1).succ = j - p by omega, Nat.testBit_div_two_pow, show j - p + p = j by omega, toNat_testBit]
    generalize hI : ((v ||| (oshr (oshr (maxV w) (w - 1 - p)).1 1).1) + 1#w) = incv at hbit
    rw [mask_hasAny_iff] at ha
    have hbits : ∀ j, (incv &&& ~~~ ~~~ (oshl (maxV w) p).1 ||| m.minVal &&& ~~~ (oshl (maxV w) p).1).getLsbD j
        = if j < p then m.ones.getLsbD j else if j = p then true else v.getLsbD j := by
      intro j
      by_cases hjw : j < w
      · rw [BitVec.getLsbD_or, BitVec.getLsbD_and, BitVec.getLsbD_and, BitVec.getLsbD_not (x := ~~~ (oshl (maxV w) p).1),
          not_shl_max p j hp hjw]
        by_cases hjp : j < p
        · have := ha j
          simp only [hjp, hjw, Mask.minVal, BitVec.getLsbD_and, decide_true, Bool.not_true, Bool.and_false,
            Bool.false_or, Bool.and_true, if_true]
          cases ho : m.ones.getLsbD j <;> simp_all
        · rw [hbit j (by omega)]
          simp [hjp, hjw]
      · rw [BitVec.getLsbD_of_ge _ _ (by omega), if_neg (by omega), if_neg (by omega), BitVec.getLsbD_of_ge _ _ (by omega)]
    rw [← mask_hasAny_iff] at ha
    refine next_of_pivot hw hpv ?_ ?_ ?_ ha
    · intro j hj; rw [hbits, if_neg (by omega), if_neg (by omega)]
    · rw [hbits, if_neg (by omega), if_pos rfl]
    · intro j hj; rw [hbits, if_pos hj]
  · have hpe : trailingOnes vnz = w := by have := trailingOnes_le vnz; omega
    have hover : (oshr (maxV w) (wrapSub32 (w - 1) (trailingOnes vnz))).2 = true := by
      rw [hpe]
      have : wrapSub32 (w - 1) w = 2 ^ 32 - 1 := by unfold wrapSub32; omega
      rw [this]; simp [oshr]; omega
    simp only [hover, if_true]
    refine none_of_no_pivot hw ?_
    intro j hj hvj hzj
    have hjw : j < w := by
      apply Classical.byContradiction
      intro hc
      rw [BitVec.getLsbD_of_ge _ _ (by omega)] at hzj; cases hzj
    have hs := trailingOnes_set vnz (show j < trailingOnes vnz by omega)
    rw [hvnz j hjw, hvj, hzj] at hs
    have := habove_iff j hj
    simp at hs; omega

end Verif.Pred
