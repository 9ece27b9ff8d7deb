import Verif.Lemmas.Arith
/-!
# C43: padding and cutting
-/
namespace Verif.Props
open Verif Verif.Num Verif.Fit Verif.Abe

/-- `fit_back` succeeds exactly when there is room, and puts the bytes at the end behind the fill byte. -/
theorem fit_back_iff (fill : UInt8) (n : Nat) (b r : Bytes) :
    fitBack fill n b = some r ↔ r.length = n ∧ ∃ k, r = List.replicate k fill ++ b := by
  unfold fitBack
  split
  · constructor
    · intro h; cases h
    · rintro ⟨h, k, rfl⟩; simp at h; omega
  · constructor
    · intro h; cases h; exact ⟨by simp; omega, _, rfl⟩
    · rintro ⟨h, k, rfl⟩
      simp at h
      have : n - b.length = k := by omega
      rw [this]

/-- `fit_front` puts them at the front, followed by zeros. -/
theorem fit_front_iff (n : Nat) (b r : Bytes) :
    fitFront n b = some r ↔ r.length = n ∧ ∃ k, r = b ++ List.replicate k 0 := by
  unfold fitFront
  split
  · constructor
    · intro h; cases h
    · rintro ⟨h, k, rfl⟩; simp at h; omega
  · constructor
    · intro h; cases h; exact ⟨by simp; omega, _, rfl⟩
    · rintro ⟨h, k, rfl⟩
      simp at h
      have : n - b.length = k := by omega
      rw [this]

/-- `fit` is exact: it accepts the right length only and changes nothing. -/
theorem fit_exact (n : Nat) (b r : Bytes) : fit n b = some r ↔ r = b ∧ b.length = n := by
  unfold fit fitFront
  by_cases h : b.length = n
  · rw [if_neg (by omega), if_neg (by omega)]
    simp [h, eq_comm]
  · rw [if_pos h]
    simp [h]

/-- They fail exactly when the bytes are too long. -/
theorem fit_fails_iff (fill : UInt8) (n : Nat) (b : Bytes) :
    (fitBack fill n b = none ↔ n < b.length) ∧ (fitFront n b = none ↔ n < b.length) := by
  unfold fitBack fitFront
  by_cases h : b.length > n <;> simp [h] <;> omega

theorem replicate_beNat (k : Nat) (b : Bytes) : beNat (List.replicate k 0 ++ b) = beNat b := by
  induction k with
  | zero => rfl
  | succ k ih => rw [List.replicate_succ, List.cons_append, beNat_cons, ih]; simp

/-- Fitting at the back keeps the number the bytes denote. -/
theorem fit_back_value (n : Nat) (b r : Bytes) (h : fitBack 0 n b = some r) : beNat r = beNat b := by
  obtain ⟨_, k, rfl⟩ := (fit_back_iff 0 n b r).1 h
  exact replicate_beNat k b

theorem cutPrefixEq_replicate (x : UInt8) (k : Nat) (b : Bytes) :
    cutPrefixEq x (List.replicate k x ++ b) = cutPrefixEq x b := by
  induction k with
  | zero => rfl
  | succ k ih => rw [List.replicate_succ, List.cons_append, cutPrefixEq, List.dropWhile_cons]; simpa [cutPrefixEq] using ih

/-- Cutting the fill bytes off again restores what was fitted, up to fill bytes it started with itself. -/
theorem fit_back_cut (fill : UInt8) (n : Nat) (b r : Bytes) (h : fitBack fill n b = some r) :
    cutPrefixEq fill r = cutPrefixEq fill b := by
  obtain ⟨_, k, rfl⟩ := (fit_back_iff fill n b r).1 h
  exact cutPrefixEq_replicate fill k b

theorem cutPrefixEq_of_head (x : UInt8) (b : Bytes) (h : b.head? ≠ some x) : cutPrefixEq x b = b := by
  cases b with
  | nil => rfl
  | cons c b => rw [cutPrefixEq, List.dropWhile_cons]; simp at h; simp [h]

/-- Cutting restores exactly bytes that do not start with the fill byte. -/
theorem fit_back_restore (fill : UInt8) (n : Nat) (b r : Bytes) (h : fitBack fill n b = some r) (hb : b.head? ≠ some fill) :
    cutPrefixEq fill r = b := by
  rw [fit_back_cut fill n b r h, cutPrefixEq_of_head fill b hb]

/-- Cutting and fitting again restores every value of the fitted length. -/
theorem cut_fit_back (fill : UInt8) (r : Bytes) : fitBack fill r.length (cutPrefixEq fill r) = some r := by
  rw [fit_back_iff]
  refine ⟨rfl, (r.takeWhile (· == fill)).length, ?_⟩
  have h1 : r.takeWhile (· == fill) = List.replicate (r.takeWhile (· == fill)).length fill := by
    rw [List.eq_replicate_iff]
    refine ⟨rfl, fun c hc => ?_⟩
    induction r with
    | nil => cases hc
    | cons x r ih =>
      rw [List.takeWhile_cons] at hc
      split at hc
      · rename_i hx
        rcases List.mem_cons.1 hc with rfl | hc
        · simpa using hx
        · exact ih hc
      · cases hc
  rw [← h1, cutPrefixEq, List.takeWhile_append_dropWhile]

/-- Same at the end: cutting the zeros behind and fitting at the front. -/
theorem cut_fit_front (r : Bytes) : fitFront r.length (cutEndingNulls r) = some r := by
  have h := cut_fit_back 0 r.reverse
  rw [fit_back_iff] at h
  obtain ⟨_, k, hk⟩ := h
  rw [fit_front_iff]
  refine ⟨rfl, k, ?_⟩
  have := congrArg List.reverse hk
  rw [List.reverse_reverse, List.reverse_append, List.reverse_replicate] at this
  exact this

/-- The text functions: `a`, `lpad`, `f` (with a length given) pad on the left, fail exactly when too long. -/
theorem lpad_iff (b : Bytes) (n : Nat) (p d : UInt8) (hn : n < 2 ^ 64) (r : Bytes) :
    (pad [b, dec n, [p]] true d true false = some r ↔ fitBack p n b = some r) ∧
    (pad [b, dec n] true d true false = some r ↔ fitBack d n b = some r) := by
  have h1 : ∀ t, padLen (b :: dec n :: t) = some n := by
    intro t
    simp only [padLen, List.getElem?_cons_succ, List.getElem?_cons_zero]
    have : (dec n).isEmpty = false := by
      cases h : dec n with
      | nil => exact absurd h (dec_ne n)
      | cons _ _ => rfl
    rw [this]
    exact parseUsize_dec n hn
  constructor <;> simp only [pad, h1, fitBack, List.headD_cons] <;> (by_cases h : n < b.length <;> simp [h] <;> omega)

/-- `rpad` pads on the right. -/
theorem rpad_iff (b : Bytes) (n : Nat) (hn : n < 2 ^ 64) (r : Bytes) :
    pad [b, dec n] false 0 true false = some r ↔ fitFront n b = some r := by
  have h1 : ∀ t, padLen (b :: dec n :: t) = some n := by
    intro t
    simp only [padLen, List.getElem?_cons_succ, List.getElem?_cons_zero]
    have : (dec n).isEmpty = false := by
      cases h : dec n with
      | nil => exact absurd h (dec_ne n)
      | cons _ _ => rfl
    rw [this]
    exact parseUsize_dec n hn
  simp only [pad, h1, fitFront, List.headD_cons]
  by_cases h : n < b.length <;> simp [h] <;> omega

/-- Without a length the functions fit into 16 bytes. -/
theorem pad_default_length (b : Bytes) (d : UInt8) (r : Bytes) : pad [b] true d true false = some r ↔ fitBack d 16 b = some r := by
  simp only [pad, padLen, fitBack, List.headD_cons]
  by_cases h : 16 < b.length <;> simp [h] <;> omega

/-- The fixed-length functions always give exactly that length: `lfixed` keeps the front of long bytes, `rfixed` the end. -/
theorem fixed_length (b : Bytes) (n : Nat) (hn : n < 2 ^ 64) (left : Bool) :
    ∃ r, pad [b, dec n] left 0 false true = some r ∧ r.length = n ∧
      (n ≤ b.length → r = if left then b.take n else b.drop (b.length - n)) ∧
      (b.length ≤ n → some r = if left then fitBack 0 n b else fitFront n b) := by
  have h1 : padLen [b, dec n] = some n := by
    simp only [padLen, List.getElem?_cons_succ, List.getElem?_cons_zero]
    have : (dec n).isEmpty = false := by
      cases h : dec n with
      | nil => exact absurd h (dec_ne n)
      | cons _ _ => rfl
    rw [this]
    exact parseUsize_dec n hn
  simp only [pad, h1, List.headD_cons]
  have hg : ([b, dec n][2]?).getD [(0 : UInt8)] = [0] := rfl
  rw [hg]
  by_cases h : n ≤ b.length
  · have hm : min n b.length = n := Nat.min_eq_left h
    cases left
    · refine ⟨b.drop (b.length - n), ?_, ?_, fun _ => rfl, ?_⟩
      · simp [hm]; omega
      · simp; omega
      · intro h2
        have : b.length = n := by omega
        simp [fitFront, this]
    · refine ⟨b.take n, ?_, ?_, fun _ => rfl, ?_⟩
      · simp [hm]
      · simp; omega
      · intro h2
        have : b.length = n := by omega
        simp [fitBack, ← this]
  · have hm : min n b.length = b.length := Nat.min_eq_right (by omega)
    cases left
    · refine ⟨b ++ List.replicate (n - b.length) 0, ?_, ?_, ?_, ?_⟩
      · simp [hm]; omega
      · simp; omega
      · omega
      · intro _; simp [fitFront]; omega
    · refine ⟨List.replicate (n - b.length) 0 ++ b, ?_, ?_, ?_, ?_⟩
      · simp [hm]; omega
      · simp; omega
      · omega
      · intro _; simp [fitBack]; omega

/-- `lcut` and `rcut` keep `n` bytes from the front or the end and fail exactly when there are fewer. -/
theorem cut_iff (b : Bytes) (n : Nat) (hn : n < 2 ^ 64) (left : Bool) (r : Bytes) :
    cut [b, dec n] left true = some r ↔ r.length = n ∧ (if left then r <+: b else r <:+ b) := by
  simp only [cut, List.headD_cons, List.getElem?_cons_succ, List.getElem?_cons_zero, parseUsize_dec n hn]
  cases left
  · simp only [Bool.false_eq_true, if_false, if_true]
    constructor
    · intro h
      split at h
      · cases h
      · cases h; exact ⟨by simp; omega, List.drop_suffix _ _⟩
    · rintro ⟨h, t, rfl⟩
      rw [if_neg (by simp; omega)]
      simp [← h]
  · simp only [if_true]
    constructor
    · intro h
      split at h
      · cases h
      · cases h; exact ⟨by simp; omega, List.take_prefix _ _⟩
    · rintro ⟨h, t, rfl⟩
      rw [if_neg (by simp; omega)]
      simp [← h]

example : fitBack 0 4 [7, 8] = some [0, 0, 7, 8] := by decide
example : pad [[7, 8], ascii "4"] true 255 true false = some [255, 255, 7, 8] := by decide +kernel
example : cut [[7, 8, 9], ascii "2"] false true = some [8, 9] := by decide +kernel

end Verif.Props
