import Verif.Lemmas.Arith
/-!
# C41, C42: byte arithmetic and slices in the evaluator
-/
namespace Verif.Props
open Verif Verif.Num Verif.Abe Verif.Spec

/-- `+` on one or more byte strings of one non-zero length adds them as big-endian numbers, saturating at all `0xff`. -/
theorem plus_adds (x : Bytes) (xs : List Bytes) (hx : x ≠ []) (h : ∀ y ∈ xs, y.length = x.length) :
    ∃ r, plus (x :: xs) = .value r ∧ r.length = x.length ∧
      beNat r = min (beNat x + (xs.map beNat).sum) (256 ^ x.length - 1) := by
  have : (x :: xs).all (fun v => v.length == x.length) = true := by
    simp only [List.all_cons, beq_self_eq_true, Bool.true_and, List.all_eq_true, beq_iff_eq]
    exact h
  rw [plus, if_pos this]
  exact plusLoop_spec x xs hx h

/-- `-` subtracts, saturating at zero. -/
theorem minus_subtracts (x : Bytes) (xs : List Bytes) (hx : x ≠ []) (h : ∀ y ∈ xs, y.length = x.length) :
    ∃ r, minus (x :: xs) = .value r ∧ r.length = x.length ∧ beNat r = beNat x - (xs.map beNat).sum := by
  have : (x :: xs).all (fun v => v.length == x.length) = true := by
    simp only [List.all_cons, beq_self_eq_true, Bool.true_and, List.all_eq_true, beq_iff_eq]
    exact h
  rw [minus, if_pos this]
  exact minusLoop_spec x xs hx h

example : ([1, 255] : Bytes) ≠ [] ∧ ∀ y ∈ ([[0, 2], [254, 0]] : List Bytes), y.length = ([1, 255] : Bytes).length := by decide
example : plus [[1, 255], [0, 2]] = .value [2, 1] := by decide
example : plus [[1, 255], [254, 1]] = .value [255, 255] := by decide
example : minus [[2, 1], [0, 2]] = .value [1, 255] := by decide

/-- Different lengths are refused, never added. -/
theorem plus_minus_mismatch (x : Bytes) (xs : List Bytes) (h : ∃ y ∈ xs, y.length ≠ x.length) :
    plus (x :: xs) = .err ∧ minus (x :: xs) = .err := by
  have : (x :: xs).all (fun v => v.length == x.length) = false := by
    rw [List.all_eq_false]
    obtain ⟨y, hy, hne⟩ := h
    exact ⟨y, List.mem_cons_of_mem _ hy, by simpa using hne⟩
  constructor
  · rw [plus, if_neg (by rw [this]; decide)]
  · rw [minus, if_neg (by rw [this]; decide)]

/-- The one exception: adding two empty byte strings aborts (`len - 1` underflows). -/
theorem plus_empty_aborts (n : Nat) : plus ([] :: List.replicate (n + 1) []) = .abort ∧
    minus ([] :: List.replicate (n + 1) []) = .abort := by
  constructor
  · have : plus ([] :: List.replicate (n + 1) []) = plusLoop [] (List.replicate (n + 1) []) := by
      rw [plus, if_pos (by simp)]
    rw [this]; simp [List.replicate_succ, plusLoop]
  · have : minus ([] :: List.replicate (n + 1) []) = minusLoop [] (List.replicate (n + 1) []) := by
      rw [minus, if_pos (by simp)]
    rw [this]; simp [List.replicate_succ, minusLoop]

/-- Printing and parsing numbers of `n` bytes: `?u` and `u8`..`u128` are inverse. -/
theorem uint_text_roundtrip (n : Nat) (b : Bytes) (h : b.length = n) :
    ∃ s, encUint n b = some s ∧ parseUint n s = some b := by
  refine ⟨dec (beNat b), by rw [encUint, if_pos h], ?_⟩
  have := beNat_lt b
  rw [h] at this
  rw [parseUint, parseU_dec, if_pos this, Option.map_some, ← h, beBytes_beNat]

example : ([0, 0, 1, 0] : Bytes).length = 4 := rfl

/-- How a slice argument is written. -/
def pyArg : Option Int → Bytes
  | none => []
  | some v => if v < 0 then 0x2d :: dec v.natAbs else dec v.natAbs

theorem parseSigned_pyArg (o : Option Int) (ho : ∀ v, o = some v → -(2 ^ 63) < v ∧ v < 2 ^ 63) (a : Option Bytes)
    (ha : a.getD [] = pyArg o) : parseSigned a = some (o.map fun v => (decide (v < 0), v.natAbs)) := by
  unfold parseSigned
  rw [ha]
  cases o with
  | none => rfl
  | some v =>
    have hv := ho v rfl
    simp only [pyArg, Option.map_some]
    by_cases hneg : v < 0
    · rw [if_pos hneg]
      show (parseUsize (dec v.natAbs)).map _ = _
      rw [parseUsize_dec _ (by omega)]
      simp [hneg]
    · rw [if_neg hneg]
      have hne := dec_ne v.natAbs
      have hm : ∀ c ∈ dec v.natAbs, c ≠ 0x2d := by
        intro c hc heq
        have := mem_dec hc
        rw [heq] at this
        exact absurd this (by decide)
      have hp := parseUsize_dec v.natAbs (by omega)
      generalize dec v.natAbs = s at *
      split
      · exact absurd rfl hne
      · exact absurd rfl (hm 0x2d List.mem_cons_self)
      · rw [hp]; simp [hneg]

theorem parseI_pyArg (v : Int) (hv : -(2 ^ 63) ≤ v ∧ v < 2 ^ 63) : parseI (pyArg (some v)) = some v := by
  simp only [pyArg]
  by_cases hneg : v < 0
  · rw [if_pos hneg]
    simp only [parseI]
    rw [if_neg (dec_ne _), digits_dec]
    simp only
    rw [if_pos (by omega)]
    congr 1; omega
  · rw [if_neg hneg]
    have hm : ∀ c ∈ dec v.natAbs, c ≠ 0x2d := by
      intro c hc heq
      have := mem_dec hc
      rw [heq] at this
      exact absurd this (by decide)
    have hp := parseU_dec (2 ^ 63) v.natAbs
    rw [if_pos (by omega)] at hp
    generalize dec v.natAbs = s at *
    unfold parseI
    split
    · exact absurd rfl (hm 0x2d List.mem_cons_self)
    · rw [hp, Option.map_some]
      congr 1
      simp; omega

theorem toBound_py (len : Nat) (step : Int) (hs : step ≠ 0) (hl : (len : Int) < 2 ^ 63) (o : Option Int)
    (ho : ∀ v, o = some v → -(2 ^ 63) < v ∧ v < 2 ^ 63) (sb eb : Int)
    (hb : (sb, eb) = if step ≥ 0 then ((0 : Int), (len : Int)) else ((len : Int) - 1, -1)) :
    toBound len sb eb (o.map fun v => (decide (v < 0), v.natAbs)) = some (o.map (pyIndex len step)) := by
  cases o with
  | none => rfl
  | some v =>
    have hv := ho v rfl
    simp only [Option.map_some]
    by_cases hneg : v < 0
    · have h1 : decide (v < 0) = true := by simpa using hneg
      rw [h1]
      have h2 : asIsize v.natAbs = -v := by unfold asIsize; rw [if_pos (by omega)]; omega
      have h3 : isizeOk (len - asIsize v.natAbs) = true := by
        rw [h2, isizeOk, decide_eq_true_eq]; omega
      rw [toBound, if_pos h3, h2]
      congr 2
      unfold clamp pyIndex
      rw [if_pos hneg]
      by_cases h0 : step ≥ 0
      · rw [if_pos h0] at hb; simp at hb; obtain ⟨rfl, rfl⟩ := hb
        simp only [show step > 0 by omega, if_true]; omega
      · rw [if_neg h0] at hb; simp at hb; obtain ⟨rfl, rfl⟩ := hb
        simp only [show ¬ step > 0 by omega, if_false]; omega
    · have h1 : decide (v < 0) = false := by simpa using hneg
      rw [h1]
      have h2 : asIsize v.natAbs = v := by unfold asIsize; rw [if_pos (by omega)]; omega
      simp only [toBound, h2]
      congr 2
      unfold clamp pyIndex
      rw [if_neg hneg]
      by_cases h0 : step ≥ 0
      · rw [if_pos h0] at hb; simp at hb; obtain ⟨rfl, rfl⟩ := hb
        simp only [show step > 0 by omega, if_true]; omega
      · rw [if_neg h0] at hb; simp at hb; obtain ⟨rfl, rfl⟩ := hb
        simp only [show ¬ step > 0 by omega, if_false]; omega

/-- `slice` is Python's slicing, for every start, stop and step the machine word holds, as long as a step past the end
still fits in it (see `slice_overflow_aborts`). -/
theorem slice_py_partial {α : Type} (bytes : List α) (args : List Bytes) (start stop : Option Int) (step : Int)
    (h0 : args[0]?.getD [] = pyArg start) (h1 : args[1]?.getD [] = pyArg stop)
    (h2 : (args[2]? = none ∧ step = 1) ∨ args[2]? = some (pyArg (some step)))
    (hstart : ∀ v, start = some v → -(2 ^ 63) < v ∧ v < 2 ^ 63) (hstop : ∀ v, stop = some v → -(2 ^ 63) < v ∧ v < 2 ^ 63)
    (hne : step ≠ 0) (hlo : -(2 ^ 63) ≤ step) (hmax : step < 2 ^ 63) (hhi : step + bytes.length ≤ 2 ^ 63) (hl : (bytes.length : Int) < 2 ^ 63) :
    ∃ out, slice bytes args = .value out ∧ PySlice bytes start stop step out := by
  have e0 := parseSigned_pyArg start hstart _ h0
  have e1 := parseSigned_pyArg stop hstop _ h1
  have e2 : stepArg args[2]? = some step := by
    rcases h2 with ⟨h2, h3⟩ | h2
    · rw [h2, h3]; rfl
    · rw [h2]; exact parseI_pyArg step ⟨hlo, hmax⟩
  unfold slice
  rw [e0, e1, e2]
  simp only
  have hb : ∃ sb eb, (if step ≥ 0 then ((0 : Int), (bytes.length : Int)) else ((bytes.length : Int) - 1, -1)) = (sb, eb) := ⟨_, _, rfl⟩
  obtain ⟨sb, eb, hb⟩ := hb
  rw [hb]
  simp only
  rw [toBound_py bytes.length step hne hl start hstart sb eb hb.symm, toBound_py bytes.length step hne hl stop hstop sb eb hb.symm]
  simp only
  have hS : (start.map (pyIndex bytes.length step)).getD sb = pyStart bytes.length step start := by
    cases start with
    | some v => rfl
    | none =>
      simp only [pyStart, Option.map_none, Option.getD_none]
      by_cases h0 : step ≥ 0
      · rw [if_pos h0] at hb; simp at hb; rw [if_pos (by omega)]; omega
      · rw [if_neg h0] at hb; simp at hb; rw [if_neg (by omega)]; omega
  have hE : (stop.map (pyIndex bytes.length step)).getD eb = pyStop bytes.length step stop := by
    cases stop with
    | some v => rfl
    | none =>
      simp only [pyStop, Option.map_none, Option.getD_none]
      by_cases h0 : step ≥ 0
      · rw [if_pos h0] at hb; simp at hb; rw [if_pos (by omega)]; omega
      · rw [if_neg h0] at hb; simp at hb; rw [if_neg (by omega)]; omega
  rw [hS, hE]
  have bS : (step > 0 → 0 ≤ pyStart bytes.length step start ∧ pyStart bytes.length step start ≤ bytes.length) ∧
      (step < 0 → -1 ≤ pyStart bytes.length step start ∧ pyStart bytes.length step start ≤ bytes.length - 1) := by
    cases start with
    | some v =>
      simp only [pyStart, pyIndex]
      constructor <;> intro h
      · rw [if_pos h]; omega
      · rw [if_neg (by omega)]; omega
    | none =>
      simp only [pyStart]
      constructor <;> intro h
      · rw [if_pos h]; omega
      · rw [if_neg (by omega)]; omega
  have bE : (step > 0 → 0 ≤ pyStop bytes.length step stop ∧ pyStop bytes.length step stop ≤ bytes.length) ∧
      (step < 0 → -1 ≤ pyStop bytes.length step stop ∧ pyStop bytes.length step stop ≤ bytes.length - 1) := by
    cases stop with
    | some v =>
      simp only [pyStop, pyIndex]
      constructor <;> intro h
      · rw [if_pos h]; omega
      · rw [if_neg (by omega)]; omega
    | none =>
      simp only [pyStop]
      constructor <;> intro h
      · rw [if_pos h]; omega
      · rw [if_neg (by omega)]; omega
  obtain ⟨out, ho, hk⟩ := sliceLoop_spec bytes step (pyStop bytes.length step stop) hne bytes.length
    (pyStart bytes.length step start)
    (fun h => by have := bS.1 h; have := bE.1 h; omega) (fun h => by have := bS.2 h; have := bE.2 h; omega)
  rw [ho]
  exact ⟨out, rfl, hk⟩

example : ([ascii "-3", ascii "", ascii "2"])[0]?.getD [] = pyArg (some (-3)) := by decide +kernel
example : slice (ascii "abcdef") [ascii "-3", ascii "", ascii "2"] = .value (ascii "df") := by decide +kernel
example : slice (ascii "abcdef") [ascii "", ascii "", ascii "-2"] = .value (ascii "fdb") := by decide +kernel

/-- What is missing from the full claim, first: stepping past the end with a huge step aborts. -/
theorem slice_overflow_aborts : slice (ascii "ab") [ascii "1", ascii "", ascii "9223372036854775807"] = .abort := by
  decide +kernel

/-- Second: an index of 2^63 or more counts as negative, so "from far past the end" yields everything. -/
theorem slice_huge_index_wraps : slice (ascii "ab") [ascii "9223372036854775808"] = .value (ascii "ab") ∧
    PySlice (ascii "ab") (some 9223372036854775808) none 1 [] := by
  refine ⟨by decide +kernel, fun k => ?_⟩
  have : pyStart (ascii "ab").length 1 (some 9223372036854775808) = 2 := by decide
  have h2 : pyStop (ascii "ab").length 1 none = 2 := by decide
  simp only [this, h2]
  rw [if_neg (by omega)]; simp

/-- Third: a zero step is an error in Python and an empty result here. -/
theorem slice_zero_step : slice (ascii "ab") [[], [], ascii "0"] = .value [] := by decide +kernel

end Verif.Props
