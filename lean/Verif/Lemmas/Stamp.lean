import Verif.Model.Stamp
import Verif.Spec.Stamp
import Verif.Lemmas.Num
namespace Verif.Stamp
open Verif Verif.Num Verif.Pred Verif.Pkt Verif.Spec

/-! ### doubles -/

theorem nearest_ge (a b : Nat) : a / b ≤ nearest a b := by
  unfold nearest; split
  · omega
  · split
    · omega
    · split <;> omega

theorem nearest_le (a b : Nat) : 2 * (b * nearest a b) ≤ 2 * a + b := by
  have h := Nat.div_add_mod a b
  unfold nearest; split
  · omega
  · split
    · rw [Nat.mul_add]; omega
    · split
      · omega
      · rw [Nat.mul_add]; omega

theorem log2_le {n : Nat} (h : n < 2 ^ 61) : n.log2 - 52 ≤ 8 := by
  by_cases h0 : n = 0
  · subst h0; decide
  · have := (Nat.log2_lt h0).2 h
    omega

theorem toF64_le {n : Nat} (h : n < 2 ^ 61) : toF64 n ≤ n + 128 := by
  unfold toF64; split
  · omega
  · have h1 := nearest_le n (2 ^ (n.log2 - 52))
    have h2 : 2 ^ (n.log2 - 52) ≤ 2 ^ 8 := Nat.pow_le_pow_right (by omega) (log2_le h)
    rw [Nat.mul_comm (nearest _ _)]
    omega

theorem toF64_ge {m n : Nat} (hm : m ≤ n) (hd : 2 ^ 9 ∣ m) (h : n < 2 ^ 61) : m ≤ toF64 n := by
  unfold toF64; split
  · exact hm
  · have h1 := nearest_ge n (2 ^ (n.log2 - 52))
    have h2 : 2 ^ (n.log2 - 52) ∣ m := Nat.dvd_trans (Nat.pow_dvd_pow 2 (by have := log2_le h; omega)) hd
    obtain ⟨j, rfl⟩ := h2
    have h3 : j ≤ n / 2 ^ (n.log2 - 52) := (Nat.le_div_iff_mul_le (Nat.pow_pos (by omega))).2 (by rw [Nat.mul_comm]; exact hm)
    rw [Nat.mul_comm]
    exact Nat.mul_le_mul_right _ (Nat.le_trans h3 h1)

theorem toF64_exact {n : Nat} (hd : 2 ^ 9 ∣ n) (h : n < 2 ^ 61) : toF64 n = n := by
  unfold toF64; split
  · rfl
  · have h2 : 2 ^ (n.log2 - 52) ∣ n := Nat.dvd_trans (Nat.pow_dvd_pow 2 (by have := log2_le h; omega)) hd
    have h3 : nearest n (2 ^ (n.log2 - 52)) = n / 2 ^ (n.log2 - 52) := by
      unfold nearest
      rw [Nat.mod_eq_zero_of_dvd h2, if_pos (by have := Nat.pow_pos (n := n.log2 - 52) (show 0 < 2 by omega); omega)]
    rw [h3, Nat.div_mul_cancel h2]

theorem nanosF64_eq {d : Nat} (h : d < 2 ^ 61) : nanosF64 d = toF64 d := by
  unfold nanosF64
  have h1 : toF64 (d / 1000000000) = d / 1000000000 := by
    unfold toF64; rw [if_pos]; omega
  have h2 : toF64 (d / 1000000000 * 1000000000) = d / 1000000000 * 1000000000 :=
    toF64_exact (Nat.dvd_trans (by decide) (Nat.dvd_mul_left 1000000000 _)) (by omega)
  rw [h1, h2]
  congr 1; omega

theorem shift_ge {x y : Nat} (hx : 0 < x) (hy : 0 < y) (h : x < 2 ^ 53 * y) : 2 ^ 52 * y ≤ x * 2 ^ shiftOf x y := by
  have e1 := Nat.log2_self_le (Nat.pos_iff_ne_zero.1 hx)
  have e2 : y < 2 ^ (y.log2 + 1) := Nat.lt_log2_self
  have e3 : x.log2 ≤ 53 + y.log2 := by
    have : x < 2 ^ (54 + y.log2) := by
      calc x < 2 ^ 53 * y := h
        _ ≤ 2 ^ 53 * 2 ^ (y.log2 + 1) := Nat.mul_le_mul_left _ (Nat.le_of_lt e2)
        _ = 2 ^ (54 + y.log2) := by rw [← Nat.pow_add]; congr 1; omega
    have := (Nat.log2_lt (Nat.pos_iff_ne_zero.1 hx)).2 this
    omega
  unfold shiftOf; split
  · rename_i hc
    cases hk : 53 + y.log2 - x.log2 with
    | zero => rw [hk] at hc; omega
    | succ k =>
      rw [hk, show 2 ^ (k + 1) = 2 ^ k * 2 from Nat.pow_succ ..] at hc
      show 2 ^ 52 * y ≤ x * 2 ^ k
      have : x * (2 ^ k * 2) = 2 * (x * 2 ^ k) := by rw [← Nat.mul_assoc, Nat.mul_comm]
      rw [this] at hc
      generalize x * 2 ^ k = z at *
      omega
  · have : 2 ^ 52 * y ≤ 2 ^ (53 + y.log2) := by
      calc 2 ^ 52 * y ≤ 2 ^ 52 * 2 ^ (y.log2 + 1) := Nat.mul_le_mul_left _ (Nat.le_of_lt e2)
        _ = 2 ^ (53 + y.log2) := by rw [← Nat.pow_add]; congr 1; omega
    calc 2 ^ 52 * y ≤ 2 ^ (53 + y.log2) := this
      _ = 2 ^ x.log2 * 2 ^ (53 + y.log2 - x.log2) := by rw [← Nat.pow_add]; congr 1; omega
      _ ≤ x * 2 ^ (53 + y.log2 - x.log2) := Nat.mul_le_mul_right _ e1

theorem quot_eq {x v q e : Nat} (hv : 0 < v) (hx : x < 2 ^ 53 * v) (h1 : q * v ≤ x) (h2 : x + e ≤ (q + 1) * v) (he : x < 2 ^ 53 * e) :
    quotF64 x v = q := by
  unfold quotF64; split
  · rename_i h0; subst h0
    have : q * v = 0 := by omega
    rcases Nat.mul_eq_zero.1 this with h | h <;> omega
  · rename_i h0
    have hs := shift_ge (Nat.pos_iff_ne_zero.2 h0) hv hx
    generalize shiftOf x v = k at *
    have hk : 0 < 2 ^ k := Nat.pow_pos (by omega)
    generalize 2 ^ k = K at *
    have lo : q * K ≤ nearest (x * K) v := by
      refine Nat.le_trans ?_ (nearest_ge _ _)
      rw [Nat.le_div_iff_mul_le hv]
      calc q * K * v = q * v * K := by rw [Nat.mul_assoc, Nat.mul_comm K, ← Nat.mul_assoc]
        _ ≤ x * K := Nat.mul_le_mul_right _ h1
    have hi : nearest (x * K) v < (q + 1) * K := by
      have n1 := nearest_le (x * K) v
      apply Nat.lt_of_mul_lt_mul_left (a := v)
      have e1 : v < 2 * (e * K) := by
        have : x * K < 2 ^ 53 * e * K := Nat.mul_lt_mul_of_pos_right he hk
        rw [Nat.mul_assoc] at this
        omega
      have e2 : x * K + e * K ≤ (q + 1) * v * K := by rw [← Nat.add_mul]; exact Nat.mul_le_mul_right _ h2
      have e3 : v * ((q + 1) * K) = (q + 1) * v * K := by rw [← Nat.mul_assoc, Nat.mul_comm v]
      omega
    exact (Nat.div_eq_iff hk).2 ⟨lo, by rw [Nat.add_mul] at hi; omega⟩

/-- Dividing durations of less than 73 years is exact. -/
theorem durDiv_exact {d v : Nat} (hd : d < 2 ^ 61) (h0 : 1000 ∣ d) (hv : 1000 ∣ v) (hv0 : 0 < v) (hn : nanosF64 v = v)
    (hg : 2 ^ 9 ∣ v ∨ d < 2 ^ 53) (hq : d / v < 2 ^ 32) : durDiv d v = d / v := by
  unfold durDiv
  rw [hn, nanosF64_eq hd]
  have hle := toF64_le hd
  have hdm := Nat.div_add_mod d v
  have hml := Nat.mod_lt d hv0
  have hx : quotF64 (toF64 d) v = d / v := by
    obtain ⟨j, rfl⟩ := hv
    refine quot_eq (e := 872) hv0 ?_ ?_ ?_ ?_
    · omega
    · rcases hg with hg | hg
      · exact toF64_ge (Nat.div_mul_le_self _ _) (Nat.dvd_trans hg (Nat.dvd_mul_left _ _)) hd
      · rw [toF64, if_pos hg]; exact Nat.div_mul_le_self _ _
    · obtain ⟨i, rfl⟩ := h0
      have e1 : 1000 * i < (1000 * i / (1000 * j) + 1) * (1000 * j) := by
        rw [Nat.add_mul, Nat.mul_comm (_ / _)]; omega
      have e2 : (1000 * i / (1000 * j) + 1) * (1000 * j) = 1000 * ((1000 * i / (1000 * j) + 1) * j) := by
        rw [Nat.mul_left_comm]
      generalize (1000 * i / (1000 * j) + 1) * j = z at *
      omega
    · omega
  rw [hx]; omega

/-! ### counts -/

theorem count_iff (w : Bytes) (n : Nat) : parseU 10 (2 ^ 32) w = some n ↔ CountText w n := by
  have key : ∀ (s : Bytes) (v : Nat), digits 10 0 s = some v ↔ ∃ ds : List Nat, (∀ d ∈ ds, d < 10) ∧ ofDigits 10 ds = v ∧
      s = ds.map (fun d => UInt8.ofNat (0x30 + d)) := by
    intro s v
    rw [digits_acc]
    constructor
    · rintro ⟨ds, h1, h2⟩
      have hall : ∀ (s : Bytes) (ds : List Nat), s.mapM (digit 10) = some ds →
          (∀ d ∈ ds, d < 10) ∧ s = ds.map (fun d => UInt8.ofNat (0x30 + d)) := by
        intro s
        induction s with
        | nil => intro ds h; cases h; simp
        | cons c s ih =>
          intro ds h
          rw [List.mapM_cons] at h
          cases hc : digit 10 c with
          | none => rw [hc] at h; cases h
          | some d =>
            cases hm : s.mapM (digit 10) with
            | none => rw [hc, hm] at h; cases h
            | some t =>
              rw [hc, hm] at h; cases h
              obtain ⟨i1, i2⟩ := ih t hm
              have hd : d < 10 ∧ c = UInt8.ofNat (0x30 + d) := by
                have : ∀ c : UInt8, ∀ d, digit 10 c = some d → d < 10 ∧ c = UInt8.ofNat (0x30 + d) := by
                  intro c
                  have : ∀ c : UInt8, (match digit 10 c with | some d => decide (d < 10) && decide (c = UInt8.ofNat (0x30 + d)) | none => true) = true :=
                    Verif.Abtxt.all_u8 _ (by decide +kernel)
                  intro d h
                  have h' := this c
                  rw [h] at h'
                  simpa using h'
                exact this c d hc
              refine ⟨fun e he => ?_, by rw [List.map_cons, ← hd.2, ← i2]⟩
              rcases List.mem_cons.1 he with rfl | he
              · exact hd.1
              · exact i1 e he
      obtain ⟨i1, i2⟩ := hall s ds h1
      exact ⟨ds, i1, by omega, i2⟩
    · rintro ⟨ds, h1, h2, rfl⟩
      exact ⟨ds, mapM_digit_ten ds h1, by omega⟩
  unfold parseU CountText
  constructor
  · intro h
    split at h
    · cases h
    · rename_i hne
      cases hd : digits 10 0 (stripPlus w) with
      | none => rw [hd] at h; cases h
      | some v =>
        rw [hd] at h
        dsimp only at h
        split at h
        · cases h
          obtain ⟨ds, h1, h2, h3⟩ := (key _ _).1 hd
          refine ⟨ds, ?_, h1, h2, by assumption, ?_⟩
          · rintro rfl; exact hne h3
          · unfold stripPlus at h3
            split at h3
            · exact .inr (by rw [h3]; rfl)
            · exact .inl h3
        · cases h
  · rintro ⟨ds, hne, h1, h2, h3, hw⟩
    have hs : stripPlus w = ds.map (fun d => UInt8.ofNat (0x30 + d)) := by
      rcases hw with rfl | rfl
      · cases ds with
        | nil => exact absurd rfl hne
        | cons d ds =>
          rw [List.map_cons]
          unfold stripPlus
          split
          · rename_i r h
            have hd := h1 d List.mem_cons_self
            have hc : UInt8.ofNat (0x30 + d) = 0x2b := (List.cons.inj h).1
            have : ∀ n : Fin 10, UInt8.ofNat (0x30 + n.1) ≠ 0x2b := by decide
            exact absurd hc (this ⟨d, hd⟩)
          · rfl
      · rfl
    rw [hs, if_neg (by simpa using hne), (key _ n).2 ⟨ds, h1, h2, rfl⟩]
    show (if n < 2 ^ 32 then some n else none) = some n
    rw [if_pos h3]

/-! ### segments -/

theorem split_seg {p : UInt8 → Bool} {w : Bytes} {c : UInt8} (s : Bytes) (hw : ∀ x ∈ w, p x = false) (hc : p c = true) :
    splitIncl p (w ++ c :: s) = (w ++ [c]) :: splitIncl p s := by
  induction w with
  | nil => simp [splitIncl, hc]
  | cons x w ih =>
    rw [List.cons_append, splitIncl, if_neg (by simp [hw x List.mem_cons_self]), ih (fun y hy => hw y (List.mem_cons_of_mem _ hy))]
    rfl

theorem split_plain {p : UInt8 → Bool} {w : Bytes} (hw : ∀ x ∈ w, p x = false) (hne : w ≠ []) : splitIncl p w = [w] := by
  induction w with
  | nil => exact absurd rfl hne
  | cons x w ih =>
    rw [splitIncl, if_neg (by simp [hw x List.mem_cons_self])]
    cases w with
    | nil => rfl
    | cons y w => rw [ih (fun z hz => hw z (List.mem_cons_of_mem _ hz)) (by simp)]

theorem first_hit (p : UInt8 → Bool) (s : Bytes) : (∀ x ∈ s, p x = false) ∨ ∃ w c r, s = w ++ c :: r ∧ p c = true ∧ ∀ x ∈ w, p x = false := by
  induction s with
  | nil => exact .inl (by simp)
  | cons x s ih =>
    cases hx : p x with
    | true => exact .inr ⟨[], x, s, rfl, hx, by simp⟩
    | false =>
      rcases ih with h | ⟨w, c, r, rfl, h1, h2⟩
      · exact .inl (by intro y hy; rcases List.mem_cons.1 hy with rfl | hy <;> simp_all)
      · exact .inr ⟨x :: w, c, r, rfl, h1, by intro y hy; rcases List.mem_cons.1 hy with rfl | hy <;> simp_all⟩

theorem count_plain {w : Bytes} {n : Nat} (h : CountText w n) : ∀ x ∈ w, isAlpha x = false := by
  obtain ⟨ds, _, h1, _, _, hw⟩ := h
  have hd : ∀ x ∈ ds.map (fun d => UInt8.ofNat (0x30 + d)), isAlpha x = false := by
    intro x hx
    obtain ⟨d, hd, rfl⟩ := List.mem_map.1 hx
    have : ∀ n : Fin 10, isAlpha (UInt8.ofNat (0x30 + n.1)) = false := by decide
    exact this ⟨d, h1 d hd⟩
  rcases hw with rfl | rfl
  · exact hd
  · intro x hx
    rcases List.mem_cons.1 hx with rfl | hx
    · decide
    · exact hd x hx

theorem count_ascii {w : Bytes} {n : Nat} (h : CountText w n) : ∀ x ∈ w, x.toNat < 128 := by
  obtain ⟨ds, _, h1, _, _, hw⟩ := h
  have hd : ∀ x ∈ ds.map (fun d => UInt8.ofNat (0x30 + d)), x.toNat < 128 := by
    intro x hx
    obtain ⟨d, hd, rfl⟩ := List.mem_map.1 hx
    have : ∀ n : Fin 10, (UInt8.ofNat (0x30 + n.1)).toNat < 128 := by decide
    exact this ⟨d, h1 d hd⟩
  rcases hw with rfl | rfl
  · exact hd
  · intro x hx
    rcases List.mem_cons.1 hx with rfl | hx
    · decide
    · exact hd x hx

/-- The units of the code and of the specification. -/
def specUnits (l : List (Char × Nat)) : List (UInt8 × Nat) := l.map fun u => (UInt8.ofNat u.1.toNat, 1000 * u.2)
theorem units_eq : units = specUnits unitMicros := by decide

/-- The letters of a list of units are letters and different. -/
def Letters (l : List (Char × Nat)) : Prop :=
  (∀ u ∈ l, isAlpha (UInt8.ofNat u.1.toNat) = true) ∧ l.Pairwise (fun a b => UInt8.ofNat a.1.toNat ≠ UInt8.ofNat b.1.toNat)
theorem letters_units : Letters unitMicros := by unfold Letters; decide

theorem DurText.skips {l1 l2 : List (Char × Nat)} {s d} (h : DurText l2 s d) : DurText (l1 ++ l2) s d := by
  induction l1 with
  | nil => exact h
  | cons u l1 ih => exact .skip ih

theorem findUnit_some {c : UInt8} {l : List (Char × Nat)} {v : Nat} {r : List (UInt8 × Nat)} (h : findUnit c (specUnits l) = some (v, r)) :
    ∃ l1 k m l2, l = l1 ++ (k, m) :: l2 ∧ c = UInt8.ofNat k.toNat ∧ v = 1000 * m ∧ r = specUnits l2 := by
  induction l with
  | nil => cases h
  | cons u l ih =>
    rw [show specUnits (u :: l) = (UInt8.ofNat u.1.toNat, 1000 * u.2) :: specUnits l from rfl, findUnit] at h
    split at h
    · rename_i hc
      cases h
      exact ⟨[], u.1, u.2, l, rfl, hc.symm, rfl, rfl⟩
    · obtain ⟨l1, k, m, l2, rfl, h1⟩ := ih h
      exact ⟨u :: l1, k, m, l2, rfl, h1⟩

theorem findUnit_at {k : Char} {m : Nat} {l1 l2 : List (Char × Nat)} (h : ∀ u ∈ l1, UInt8.ofNat u.1.toNat ≠ UInt8.ofNat k.toNat) :
    findUnit (UInt8.ofNat k.toNat) (specUnits (l1 ++ (k, m) :: l2)) = some (1000 * m, specUnits l2) := by
  induction l1 with
  | nil => simp [specUnits, findUnit]
  | cons u l1 ih =>
    rw [show specUnits (u :: l1 ++ (k, m) :: l2) = (UInt8.ofNat u.1.toNat, 1000 * u.2) :: specUnits (l1 ++ (k, m) :: l2) from rfl,
      findUnit, if_neg (h u List.mem_cons_self)]
    exact ih (fun x hx => h x (List.mem_cons_of_mem _ hx))

theorem findUnit_mem {c : UInt8} {l : List (UInt8 × Nat)} (h : ∀ u ∈ l, u.1 ≠ c) : findUnit c l = none := by
  induction l with
  | nil => rfl
  | cons u l ih =>
    rw [findUnit, if_neg (h u List.mem_cons_self)]
    exact ih (fun x hx => h x (List.mem_cons_of_mem _ hx))

theorem durLoop_text {utf8 : Bytes → Bool} (hu : ∀ b : Bytes, (∀ x ∈ b, x.toNat < 128) → utf8 b = true) {us : List (Char × Nat)} {s : Bytes}
    {d : Nat} (h : DurText us s d) : ∀ l0, Letters (l0 ++ us) → ∀ a, durLoop utf8 a (specUnits (l0 ++ us)) (splitIncl isAlpha s) = .ok (a + 1000 * d) := by
  induction h with
  | done => intro l0 _ a; rfl
  | @skip u us s d _ ih =>
    intro l0 hl a
    have := ih (l0 ++ [u]) (by rw [List.append_assoc]; exact hl) a
    rw [List.append_assoc] at this
    exact this
  | @use k v us w n s d hc _ ih =>
    intro l0 hl a
    have hk : isAlpha (UInt8.ofNat k.toNat) = true := hl.1 (k, v) (by simp)
    rw [split_seg s (count_plain hc) hk, durLoop, List.getLast?_concat]
    dsimp only
    rw [List.dropLast_concat, if_neg (by simp [hu w (count_ascii hc)]), (count_iff w n).2 hc]
    dsimp only
    rw [findUnit_at]
    · dsimp only
      have hl2 : Letters us := by
        refine ⟨fun u hu => hl.1 u (by simp [hu]), ?_⟩
        have := (List.pairwise_append.1 hl.2).2.1
        exact (List.pairwise_cons.1 this).2
      have := ih [] hl2 (a + 1000 * v * n)
      rw [List.nil_append] at this
      rw [this, Nat.mul_add, Nat.mul_comm n v, Nat.mul_assoc, Nat.add_assoc]
    · intro u hu
      exact (List.pairwise_append.1 hl.2).2.2 u hu (k, v) List.mem_cons_self

theorem text_of_durLoop {utf8 : Bytes → Bool} {us : List (Char × Nat)} (hl : Letters us) (s : Bytes) (a r : Nat)
    (h : durLoop utf8 a (specUnits us) (splitIncl isAlpha s) = .ok r) : ∃ d, r = a + 1000 * d ∧ DurText us s d := by
  induction hn : s.length using Nat.strongRecOn generalizing us s a with
  | _ len ih =>
    rcases first_hit isAlpha s with hp | ⟨w, c, t, rfl, hc, hw⟩
    · by_cases hs : s = []
      · subst hs
        cases h
        exact ⟨0, rfl, .done⟩
      · rw [split_plain hp hs, durLoop] at h
        cases hg : s.getLast? with
        | none => rw [hg] at h; cases h
        | some u =>
          rw [hg] at h
          dsimp only at h
          have hm : u ∈ s := List.mem_of_getLast? hg
          have hnone : findUnit u (specUnits us) = none := by
            apply findUnit_mem
            intro x hx
            obtain ⟨y, hy, rfl⟩ := List.mem_map.1 hx
            intro he
            have := hl.1 y hy
            rw [show UInt8.ofNat y.1.toNat = u from he, hp u hm] at this
            cases this
          rw [hnone] at h
          split at h
          · cases h
          · cases hq : parseU 10 (2 ^ 32) s.dropLast with
            | none => rw [hq] at h; cases h
            | some n => rw [hq] at h; cases h
    · rw [split_seg t hw hc, durLoop, List.getLast?_concat] at h
      dsimp only at h
      rw [List.dropLast_concat] at h
      split at h
      · cases h
      · cases hq : parseU 10 (2 ^ 32) w with
        | none => rw [hq] at h; cases h
        | some n =>
          rw [hq] at h
          dsimp only at h
          cases hf : findUnit c (specUnits us) with
          | none => rw [hf] at h; cases h
          | some o =>
            obtain ⟨v, rest⟩ := o
            rw [hf] at h
            dsimp only at h
            obtain ⟨l1, k, m, l2, rfl, rfl, rfl, rfl⟩ := findUnit_some hf
            have hl2 : Letters l2 := by
              refine ⟨fun u hu => hl.1 u (by simp [hu]), ?_⟩
              exact (List.pairwise_cons.1 (List.pairwise_append.1 hl.2).2.1).2
            obtain ⟨d, hd, hr⟩ := ih t.length (by subst hn; simp; omega) hl2 t _ h rfl
            refine ⟨n * m + d, ?_, DurText.skips (.use ((count_iff w n).1 hq) hr)⟩
            rw [hd, Nat.mul_add, Nat.mul_comm n m, Nat.mul_assoc, Nat.add_assoc]

/-! ### printing -/

/-- A list of units whose divisions are exact for durations below the bound. -/
def Exact : Nat → List (Char × Nat) → Prop
  | _, [] => True
  | B, (_, m) :: r => 0 < m ∧ nanosF64 (1000 * m) = 1000 * m ∧ (2 ^ 9 ∣ 1000 * m ∨ B ≤ 2 ^ 53) ∧ B / (1000 * m) < 2 ^ 32 ∧ Exact (1000 * m) r

theorem exact_units : Exact (2 ^ 61) unitMicros := by
  refine ⟨?_, ?_, ?_, ?_, ?_, ?_, ?_, ?_, ?_, ?_, ?_, ?_, ?_, ?_, ?_, ?_, ?_, ?_, ?_, ?_, ?_, ?_, ?_, ?_, ?_, ?_, ?_, ?_, ?_, ?_, ?_, ?_, ?_, ?_, ?_, ?_, ?_⟩ <;>
    first | trivial | decide +kernel

theorem exact_drop {B X : Nat} {l : List (Char × Nat)} (hE : Exact B l) (hX : X < B) :
    ∃ B' l1 l2, l = l1 ++ l2 ∧ (specUnits l).dropWhile (fun f => !decide (f.2 ≤ X)) = specUnits l2 ∧ X < B' ∧ Exact B' l2 := by
  induction l generalizing B with
  | nil => exact ⟨B, [], [], rfl, rfl, hX, hE⟩
  | cons u l ih =>
    by_cases h : 1000 * u.2 ≤ X
    · exact ⟨B, [], u :: l, rfl, by rw [show specUnits (u :: l) = (UInt8.ofNat u.1.toNat, 1000 * u.2) :: specUnits l from rfl,
        List.dropWhile_cons_of_neg (by simp [h])], hX, hE⟩
    · obtain ⟨B', l1, l2, rfl, h2, h3, h5⟩ := ih hE.2.2.2.2 (by omega : X < 1000 * u.2)
      refine ⟨B', u :: l1, l2, rfl, ?_, h3, h5⟩
      rw [show specUnits (u :: (l1 ++ l2)) = (UInt8.ofNat u.1.toNat, 1000 * u.2) :: specUnits (l1 ++ l2) from rfl,
        List.dropWhile_cons_of_pos (by simp [h])]
      exact h2

theorem count_dec {n : Nat} (h : n < 2 ^ 32) : CountText (dec n) n := by
  rw [← count_iff, parseU_dec, if_pos h]

theorem parts_text {B X : Nat} {l : List (Char × Nat)} (hE : Exact B l) (hX : X < B) (hB : X < 2 ^ 61) (h0 : 1000 ∣ X) :
    ∃ d r, DurText l (partsLoop false [] X (specUnits l)) d ∧ X = 1000 * d + r ∧ 1000 ∣ r ∧ (∀ u ∈ l, r < 1000 * u.2) := by
  induction l generalizing B X with
  | nil => exact ⟨0, X, .done, by omega, h0, by simp⟩
  | cons u l ih =>
    obtain ⟨k, m⟩ := u
    obtain ⟨e1, e2, e3, e4, e5⟩ := hE
    have hq : X / (1000 * m) ≤ B / (1000 * m) := Nat.div_le_div_right (Nat.le_of_lt hX)
    have hdiv : durDiv X (1000 * m) = X / (1000 * m) :=
      durDiv_exact hB h0 (Nat.dvd_mul_right _ _) (by omega) e2 (e3.imp id fun h => Nat.lt_of_lt_of_le hX h) (by omega)
    have hdm := Nat.div_add_mod X (1000 * m)
    have hml := Nat.mod_lt X (show 0 < 1000 * m by omega)
    have hsub : X - 1000 * m * (X / (1000 * m)) = X % (1000 * m) := by omega
    have hd0 : 1000 ∣ X % (1000 * m) := (Nat.dvd_mod_iff (Nat.dvd_mul_right _ _)).2 h0
    obtain ⟨d, r, i1, i2, i3, i4⟩ := ih e5 hml (by omega) hd0
    rw [show specUnits ((k, m) :: l) = (UInt8.ofNat k.toNat, 1000 * m) :: specUnits l from rfl, partsLoop]
    simp only [hdiv, hsub, List.nil_append, Bool.false_or]
    have hr : r < 1000 * m := by omega
    refine ⟨X / (1000 * m) * m + d, r, ?_, ?_, i3, ?_⟩
    · by_cases hz : X / (1000 * m) = 0
      · rw [hz]; simp only [ne_eq, not_true_eq_false, decide_false, Bool.false_eq_true, if_false, List.nil_append, Nat.zero_mul, Nat.zero_add]
        exact .skip i1
      · rw [if_pos (by simpa using hz), List.append_assoc]
        exact .use (count_dec (by omega)) i1
    · rw [Nat.mul_add, Nat.mul_comm (X / _) m, ← Nat.mul_assoc]; omega
    · intro u hu
      rcases List.mem_cons.1 hu with rfl | hu
      · exact hr
      · exact i4 u hu

end Verif.Stamp
