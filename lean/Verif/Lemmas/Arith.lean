import Verif.Model.Arith
import Verif.Lemmas.Num
namespace Verif.Abe
open Verif Verif.Num Verif.Fit Verif.Spec

theorem addBe_spec (a b : Bytes) (h : a.length = b.length) : (addBe a b).1.length = a.length ∧
    beNat (addBe a b).1 + (if (addBe a b).2 then 256 ^ a.length else 0) = beNat a + beNat b := by
  induction a generalizing b with
  | nil =>
    cases b with
    | nil => simp [addBe, beNat_nil]
    | cons _ _ => simp at h
  | cons x a ih =>
    cases b with
    | nil => simp at h
    | cons y b =>
      simp only [List.length_cons, Nat.add_right_cancel_iff] at h
      obtain ⟨h1, h2⟩ := ih b h
      have hx := x.toNat_lt; have hy := y.toNat_lt
      have hs : (addBe (x :: a) (y :: b)) = (UInt8.ofNat ((x.toNat + y.toNat + (if (addBe a b).2 then 1 else 0)) % 256) ::
          (addBe a b).1, decide (x.toNat + y.toNat + (if (addBe a b).2 then 1 else 0) ≥ 256)) := rfl
      rw [hs]
      refine ⟨by simp [h1], ?_⟩
      simp only [beNat_cons, h1, ← h, decide_eq_true_eq, List.length_cons]
      rw [UInt8.toNat_ofNat', Nat.mod_eq_of_lt (Nat.mod_lt _ (by omega))]
      generalize hc : (if (addBe a b).2 = true then 1 else 0) = c at *
      have hc1 : (if (addBe a b).2 = true then 256 ^ a.length else 0) = c * 256 ^ a.length := by
        rw [← hc]; split <;> simp
      rw [hc1] at h2
      have hcle : c ≤ 1 := by rw [← hc]; split <;> omega
      generalize (addBe a b).1 = R at *
      generalize hP : 256 ^ a.length = P at *
      have hp : 256 ^ (a.length + 1) = 256 * P := by rw [Nat.pow_succ, hP]; omega
      rw [hp]
      have e1 : x.toNat * P + beNat a + (y.toNat * P + beNat b) = (x.toNat + y.toNat + c) * P + beNat R := by
        simp only [Nat.add_mul]; omega
      rw [e1]
      split
      · rename_i hge
        have : x.toNat + y.toNat + c = (x.toNat + y.toNat + c) % 256 + 256 := by omega
        rw [Nat.add_right_comm, ← Nat.add_mul]
        congr 2
        omega
      · rename_i hlt
        rw [Nat.mod_eq_of_lt (by omega)]; omega

theorem subBe_spec (a b : Bytes) (h : a.length = b.length) : (subBe a b).1.length = a.length ∧
    beNat (subBe a b).1 + beNat b = beNat a + (if (subBe a b).2 then 256 ^ a.length else 0) := by
  induction a generalizing b with
  | nil =>
    cases b with
    | nil => simp [subBe, beNat_nil]
    | cons _ _ => simp at h
  | cons x a ih =>
    cases b with
    | nil => simp at h
    | cons y b =>
      simp only [List.length_cons, Nat.add_right_cancel_iff] at h
      obtain ⟨h1, h2⟩ := ih b h
      have hx := x.toNat_lt; have hy := y.toNat_lt
      have hs : (subBe (x :: a) (y :: b)) = (UInt8.ofNat ((x.toNat + 256 - (y.toNat + (if (subBe a b).2 then 1 else 0))) % 256) ::
          (subBe a b).1, decide (x.toNat < y.toNat + (if (subBe a b).2 then 1 else 0))) := rfl
      rw [hs]
      refine ⟨by simp [h1], ?_⟩
      simp only [beNat_cons, h1, ← h, decide_eq_true_eq, List.length_cons]
      rw [UInt8.toNat_ofNat', Nat.mod_eq_of_lt (Nat.mod_lt _ (by omega))]
      generalize hc : (if (subBe a b).2 = true then 1 else 0) = c at *
      have hc1 : (if (subBe a b).2 = true then 256 ^ a.length else 0) = c * 256 ^ a.length := by
        rw [← hc]; split <;> simp
      rw [hc1] at h2
      have hcle : c ≤ 1 := by rw [← hc]; split <;> omega
      generalize (subBe a b).1 = R at *
      generalize hP : 256 ^ a.length = P at *
      have hp : 256 ^ (a.length + 1) = 256 * P := by rw [Nat.pow_succ, hP]; omega
      rw [hp]
      split
      · rename_i hlt
        have e : (x.toNat + 256 - (y.toNat + c)) % 256 + y.toNat + c = x.toNat + 256 := by omega
        have e2 : ((x.toNat + 256 - (y.toNat + c)) % 256 + y.toNat + c) * P = (x.toNat + 256) * P := by rw [e]
        simp only [Nat.add_mul] at e2 ⊢
        omega
      · rename_i hge
        have e : (x.toNat + 256 - (y.toNat + c)) % 256 + y.toNat + c = x.toNat := by omega
        have e2 : ((x.toNat + 256 - (y.toNat + c)) % 256 + y.toNat + c) * P = x.toNat * P := by rw [e]
        simp only [Nat.add_mul] at e2 ⊢
        omega

theorem beNat_ff (n : Nat) : beNat (List.replicate n 255) = 256 ^ n - 1 := by
  induction n with
  | zero => rfl
  | succ n ih =>
    rw [List.replicate_succ, beNat_cons, ih, List.length_replicate, Nat.pow_succ]
    have : 0 < 256 ^ n := Nat.pow_pos (by omega)
    simp; omega

theorem beNat_zeros (n : Nat) : beNat (List.replicate n 0) = 0 := by
  induction n with
  | zero => rfl
  | succ n ih => rw [List.replicate_succ, beNat_cons, ih]; simp

theorem plusLoop_spec (r : Bytes) (is : List Bytes) (hr : r ≠ []) (h : ∀ i ∈ is, i.length = r.length) :
    ∃ s, plusLoop r is = .value s ∧ s.length = r.length ∧
      beNat s = min (beNat r + (is.map beNat).sum) (256 ^ r.length - 1) := by
  induction is generalizing r with
  | nil =>
    refine ⟨r, rfl, rfl, ?_⟩
    have := beNat_lt r
    simp; omega
  | cons i is ih =>
    have hi := h i List.mem_cons_self
    obtain ⟨h1, h2⟩ := addBe_spec r i hi.symm
    rw [plusLoop, if_neg hr]
    show ∃ s, (if (addBe r i).2 = true then AR.value (List.replicate (addBe r i).1.length 255) else plusLoop (addBe r i).1 is) = _ ∧ _
    have hlt := beNat_lt (addBe r i).1
    rw [h1] at hlt
    simp only [List.map_cons, List.sum_cons]
    split
    · rename_i hc
      rw [if_pos hc] at h2
      refine ⟨_, rfl, by simp [h1], ?_⟩
      rw [h1, beNat_ff]
      omega
    · rename_i hc
      rw [if_neg hc] at h2
      have hne : (addBe r i).1 ≠ [] := by
        intro hnil; rw [hnil] at h1; simp at h1; exact hr (List.eq_nil_of_length_eq_zero h1.symm)
      obtain ⟨s, hs1, hs2, hs3⟩ := ih (addBe r i).1 hne (fun j hj => by rw [h1]; exact h j (List.mem_cons_of_mem _ hj))
      refine ⟨s, hs1, by rw [hs2, h1], ?_⟩
      rw [hs3, h1]
      congr 1
      omega

theorem minusLoop_spec (r : Bytes) (is : List Bytes) (hr : r ≠ []) (h : ∀ i ∈ is, i.length = r.length) :
    ∃ s, minusLoop r is = .value s ∧ s.length = r.length ∧ beNat s = beNat r - (is.map beNat).sum := by
  induction is generalizing r with
  | nil => exact ⟨r, rfl, rfl, by simp⟩
  | cons i is ih =>
    have hi := h i List.mem_cons_self
    obtain ⟨h1, h2⟩ := subBe_spec r i hi.symm
    rw [minusLoop, if_neg hr]
    show ∃ s, (if (subBe r i).2 = true then AR.value (List.replicate (subBe r i).1.length 0) else minusLoop (subBe r i).1 is) = _ ∧ _
    have hlt := beNat_lt (subBe r i).1
    rw [h1] at hlt
    simp only [List.map_cons, List.sum_cons]
    split
    · rename_i hc
      rw [if_pos hc] at h2
      refine ⟨_, rfl, by simp [h1], ?_⟩
      rw [beNat_zeros]
      omega
    · rename_i hc
      rw [if_neg hc] at h2
      have hne : (subBe r i).1 ≠ [] := by
        intro hnil; rw [hnil] at h1; simp at h1; exact hr (List.eq_nil_of_length_eq_zero h1.symm)
      obtain ⟨s, hs1, hs2, hs3⟩ := ih (subBe r i).1 hne (fun j hj => by rw [h1]; exact h j (List.mem_cons_of_mem _ hj))
      refine ⟨s, hs1, by rw [hs2, h1], ?_⟩
      omega

/-- The slice loop yields what sits at `i`, `i + step`, ... -/
theorem sliceLoop_spec {α : Type} (bytes : List α) (step stop : Int) (hs : step ≠ 0) (n : Nat) (i : Int)
    (hp : step > 0 → 0 ≤ i ∧ stop ≤ bytes.length ∧ stop - i ≤ n ∧ step + bytes.length ≤ 2 ^ 63)
    (hn : step < 0 → i ≤ bytes.length - 1 ∧ -1 ≤ stop ∧ i - stop ≤ n ∧ -(2 ^ 63) ≤ step ∧ (bytes.length : Int) ≤ 2 ^ 63) :
    ∃ out, sliceLoop bytes step stop n i = some out ∧ ∀ k : Nat, out[k]? =
      if (step > 0 ∧ i + k * step < stop) ∨ (step < 0 ∧ stop < i + k * step) then bytes[(i + k * step).toNat]? else none := by
  have mono : ∀ k : Nat, ¬ ((step > 0 ∧ i < stop) ∨ (step < 0 ∧ stop < i)) → ¬ ((step > 0 ∧ i + k * step < stop) ∨ (step < 0 ∧ stop < i + k * step)) := by
    intro k h
    rcases Int.lt_or_gt_of_ne hs with h0 | h0
    · have : (k : Int) * step ≤ 0 := Int.mul_nonpos_of_nonneg_of_nonpos (by omega) (by omega)
      omega
    · have : 0 ≤ (k : Int) * step := Int.mul_nonneg (by omega) (by omega)
      omega
  induction n generalizing i with
  | zero =>
    refine ⟨[], rfl, fun k => ?_⟩
    rw [if_neg]; · rfl
    apply mono
    rcases Int.lt_or_gt_of_ne hs with h0 | h0
    · have := hn h0; omega
    · have := hp h0; omega
  | succ n ih =>
    rw [sliceLoop]
    by_cases hr : (step > 0 ∧ i < stop) ∨ (step < 0 ∧ stop < i)
    · have hcond : ¬ (¬ (if step ≥ 0 then i < stop else i > stop) ∨ step = 0) := by
        rcases hr with ⟨h1, h2⟩ | ⟨h1, h2⟩
        · rw [if_pos (by omega)]; omega
        · rw [if_neg (by omega)]; omega
      rw [if_neg hcond]
      have hir : 0 ≤ i ∧ i < bytes.length := by
        rcases hr with ⟨h1, h2⟩ | ⟨h1, h2⟩
        · have := hp h1; omega
        · have := hn h1; omega
      have hget : i.toNat < bytes.length := by omega
      rw [List.getElem?_eq_getElem hget]
      have hok : isizeOk (i + step) = true := by
        unfold isizeOk
        rw [decide_eq_true_eq]
        rcases hr with ⟨h1, h2⟩ | ⟨h1, h2⟩
        · have := hp h1; omega
        · have := hn h1; omega
      simp only [hok, if_true]
      obtain ⟨out, ho, hk⟩ := ih (i + step) (by intro h; have := hp h; omega) (by intro h; have := hn h; omega) (by
        intro k h
        rcases Int.lt_or_gt_of_ne hs with h0 | h0
        · have : (k : Int) * step ≤ 0 := Int.mul_nonpos_of_nonneg_of_nonpos (by omega) (by omega)
          omega
        · have : 0 ≤ (k : Int) * step := Int.mul_nonneg (by omega) (by omega)
          omega)
      refine ⟨bytes[i.toNat] :: out, by rw [ho]; rfl, fun k => ?_⟩
      cases k with
      | zero =>
        simp only [List.getElem?_cons_zero, Int.natCast_zero, Int.zero_mul, Int.add_zero]
        rw [if_pos hr, List.getElem?_eq_getElem hget]
      | succ k =>
        rw [List.getElem?_cons_succ, hk]
        have : i + step + (k : Int) * step = i + ((k + 1 : Nat) : Int) * step := by
          rw [Int.natCast_add, Int.add_mul]; omega
        rw [this]
    · have hcond : (¬ (if step ≥ 0 then i < stop else i > stop) ∨ step = 0) := by
        left
        rcases Int.lt_or_gt_of_ne hs with h0 | h0
        · rw [if_neg (by omega)]; omega
        · rw [if_pos (by omega)]; omega
      rw [if_pos hcond]
      refine ⟨[], rfl, fun k => ?_⟩
      rw [if_neg (mono k hr)]; rfl

end Verif.Abe
