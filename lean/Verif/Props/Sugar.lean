import Verif.Props.Predicates
/-!
# C21: the extended operators `>=`, `<=`, and comparing the first or last bytes
-/
namespace Verif.Props
open Verif Verif.Spec Verif.Pred Verif.Pkt Verif.Abl Verif.Abe

/-! ### one more and one less -/

theorem subOne_fold (b : Bytes) : ∃ (c : Bytes) (k : Bool),
    b.foldr (fun x (acc : Bytes × Bool) =>
      let k := if acc.2 then 1 else 0
      (UInt8.ofNat (x.toNat + 256 - k) :: acc.1, decide (x.toNat < k))) ([], true) = (c, k) ∧ c.length = b.length ∧
      beNat c + 1 = beNat b + (if k then 256 ^ b.length else 0) := by
  induction b with
  | nil => exact ⟨[], true, rfl, rfl, rfl⟩
  | cons x xs ih =>
    obtain ⟨c, k, e, hl, hv⟩ := ih
    rw [List.foldr_cons, e]
    have hx := UInt8.toNat_lt x
    cases k with
    | false =>
      refine ⟨_, _, rfl, by simp [hl], ?_⟩
      simp only [Bool.false_eq_true, if_false, Nat.sub_zero, Nat.not_lt_zero, decide_false, Nat.add_zero] at hv ⊢
      rw [beNat_cons, beNat_cons, hl]
      have : (UInt8.ofNat (x.toNat + 256)).toNat = x.toNat := by simp
      rw [this]; omega
    | true =>
      refine ⟨_, _, rfl, by simp [hl], ?_⟩
      simp only [if_true] at hv ⊢
      rw [beNat_cons, beNat_cons, hl]
      by_cases h0 : x.toNat = 0
      · have : (UInt8.ofNat (x.toNat + 256 - 1)).toNat = 255 := by rw [h0]; rfl
        rw [this, h0]
        simp only [Nat.lt_one_iff, decide_true, if_true, List.length_cons, Nat.pow_succ]
        omega
      · have : (UInt8.ofNat (x.toNat + 256 - 1)).toNat = x.toNat - 1 := by
          simp only [UInt8.toNat_ofNat']; omega
        rw [this]
        have hlt : ¬ x.toNat < 1 := by omega
        simp only [hlt, decide_false, Bool.false_eq_true, if_false, Nat.add_zero]
        obtain ⟨m, hm⟩ : ∃ m, x.toNat = m + 1 := ⟨x.toNat - 1, by omega⟩
        rw [hm, Nat.add_sub_cancel, Nat.add_mul]
        omega

theorem addOne_fold (b : Bytes) : ∃ (c : Bytes) (k : Bool),
    b.foldr (fun x (acc : Bytes × Bool) =>
      let s := x.toNat + (if acc.2 then 1 else 0)
      (UInt8.ofNat s :: acc.1, decide (s ≥ 256))) ([], true) = (c, k) ∧ c.length = b.length ∧
      beNat c + (if k then 256 ^ b.length else 0) = beNat b + 1 := by
  induction b with
  | nil => exact ⟨[], true, rfl, rfl, rfl⟩
  | cons x xs ih =>
    obtain ⟨c, k, e, hl, hv⟩ := ih
    rw [List.foldr_cons, e]
    have hx := UInt8.toNat_lt x
    cases k with
    | false =>
      refine ⟨_, _, rfl, by simp [hl], ?_⟩
      have hlt : ¬ x.toNat ≥ 256 := by omega
      simp only [Bool.false_eq_true, if_false, Nat.add_zero, hlt, decide_false] at hv ⊢
      rw [beNat_cons, beNat_cons, hl]
      have : (UInt8.ofNat x.toNat).toNat = x.toNat := by simp
      rw [this]; omega
    | true =>
      refine ⟨_, _, rfl, by simp [hl], ?_⟩
      simp only [if_true] at hv ⊢
      rw [beNat_cons, beNat_cons, hl]
      by_cases h0 : x.toNat = 255
      · have : (UInt8.ofNat (x.toNat + 1)).toNat = 0 := by rw [h0]; rfl
        rw [this, h0]
        simp only [Nat.reduceAdd, ge_iff_le, Nat.le_refl, decide_true, if_true, List.length_cons, Nat.pow_succ]
        omega
      · have : (UInt8.ofNat (x.toNat + 1)).toNat = x.toNat + 1 := by simp; omega
        rw [this]
        have hlt : ¬ x.toNat + 1 ≥ 256 := by omega
        simp only [hlt, decide_false, Bool.false_eq_true, if_false, Nat.add_zero, Nat.add_mul]
        omega

/-- One less, or nothing for zero. -/
theorem subOne_spec (b : Bytes) (h : b ≠ []) :
    (beNat b = 0 ∧ subOne b = .ok none) ∨ ∃ c, subOne b = .ok (some c) ∧ c.length = b.length ∧ beNat c + 1 = beNat b := by
  obtain ⟨c, k, e, hl, hv⟩ := subOne_fold b
  have h1 := beNat_lt c
  unfold subOne
  rw [if_neg h]
  simp only [e]
  cases k with
  | true => left; simp only [if_true] at hv ⊢; rw [hl] at h1; exact ⟨by omega, trivial⟩
  | false => right; simp only [Bool.false_eq_true, if_false] at hv ⊢; exact ⟨c, rfl, hl, hv⟩

/-- One more, or nothing for the largest value of that length. -/
theorem addOne_spec (b : Bytes) (h : b ≠ []) :
    (beNat b + 1 = 256 ^ b.length ∧ addOne b = .ok none) ∨ ∃ c, addOne b = .ok (some c) ∧ c.length = b.length ∧ beNat c = beNat b + 1 := by
  obtain ⟨c, k, e, hl, hv⟩ := addOne_fold b
  have h1 := beNat_lt b
  unfold addOne
  rw [if_neg h]
  simp only [e]
  cases k with
  | true => left; simp only [if_true] at hv ⊢; exact ⟨by omega, trivial⟩
  | false => right; simp only [Bool.false_eq_true, if_false] at hv ⊢; exact ⟨c, rfl, hl, by omega⟩

/-! ### values -/

theorem valueIs_full (f : VF) (b : Bytes) (h : b.length = f.bytes) (n : Nat) : ValueIs f [(none, b)] n ↔ n = beNat b := by
  have hb : ∀ c : Bytes, (([(none, b)] : ABList) = [(none, c)] ∨ (([(none, b)] : ABList) = [] ∧ c = [])) ↔ c = b := by
    intro c
    constructor
    · rintro (h | ⟨h, _⟩)
      · cases h; rfl
      · cases h
    · rintro rfl; exact .inl rfl
  have k1 : (∃ c : Bytes, (([(none, b)] : ABList) = [(none, c)] ∨ (([(none, b)] : ABList) = [] ∧ c = [])) ∧ c.length = f.bytes ∧ n = beNat c) ↔ n = beNat b := by
    simp only [hb, exists_eq_left, h, true_and]
  have k2 : f.bytes = 32 → ((∃ c : Bytes, (([(none, b)] : ABList) = [(none, c)] ∨ (([(none, b)] : ABList) = [] ∧ c = [])) ∧
      ∃ x : Bytes, x.length = 32 ∧ n = beNat x ∧ (c = x ∨ Base64 b64UrlSafe c x)) ↔ n = beNat b) := by
    intro h32
    rw [h32] at h
    simp only [hb, exists_eq_left]
    constructor
    · rintro ⟨x, h1, rfl, h2 | h2⟩
      · rw [h2]
      · have := b64_length x
        rw [(b64_encode_iff _ _).2 h2, h1] at this
        omega
    · rintro rfl; exact ⟨b, h, rfl, .inl rfl⟩
  have k3 : f.bytes = 16 → ((∃ c : Bytes, (([(none, b)] : ABList) = [(none, c)] ∨ (([(none, b)] : ABList) = [] ∧ c = [])) ∧ c.length ≤ 16 ∧ n = beNat c) ↔ n = beNat b) := by
    intro h16
    rw [h16] at h
    simp only [hb, exists_eq_left]
    constructor
    · rintro ⟨_, h⟩; exact h
    · rintro rfl; exact ⟨by omega, rfl⟩
  cases f <;> first | exact k1 | exact k2 rfl | exact k3 rfl

theorem sat_field_full (f : VF) (op : TestOp) (b : Bytes) (h : b.length = f.bytes) (x : Seen) :
    Sat ⟨.field f, op, [(none, b)]⟩ x ↔ HasType x (needs f) ∧ Allows op (x.num f) (beNat b) := by
  show (HasType x (needs f) ∧ ∃ n, ValueIs f [(none, b)] n ∧ Allows op (x.num f) n) ↔ _
  simp only [valueIs_full f b h, exists_eq_left]

theorem pow_bytes (f : VF) : (256 : Nat) ^ f.bytes = 2 ^ f.width := by
  rw [show (256:Nat) = 2 ^ 8 from rfl, ← Nat.pow_mul]

theorem bytes_pos (f : VF) : 0 < f.bytes := by cases f <;> decide +revert

/-! ### the theorems -/

/-- **C21** `>=` on a field with a value of full size is never an error and says what it says; for zero it says
nothing, not even which points have the field. -/
theorem ge_exact (f : VF) (b : Bytes) (h : b.length = f.bytes) :
    ∃ rs, ExtStmt.stmts ⟨.field f, .greaterEq, [(none, b)]⟩ = .ok rs ∧
      ∀ x, (∀ r ∈ rs, Sat r x) ↔ (beNat b = 0 ∨ HasType x (needs f)) ∧ x.num f ≥ beNat b := by
  have hb : b ≠ [] := by rintro rfl; have := bytes_pos f; rw [← h] at this; cases this
  simp only [ExtStmt.stmts]
  rcases subOne_spec b hb with ⟨h0, e⟩ | ⟨c, e, hl, hv⟩
  · rw [e]
    refine ⟨[], rfl, fun x => ?_⟩
    simp [h0]
  · rw [e]
    refine ⟨_, rfl, fun x => ?_⟩
    simp only [List.mem_singleton, forall_eq]
    rw [sat_field_full f _ c (by omega)]
    show HasType x (needs f) ∧ x.num f > beNat c ↔ _
    constructor
    · rintro ⟨h1, h2⟩; exact ⟨.inr h1, by omega⟩
    · rintro ⟨h1, h2⟩; exact ⟨h1.resolve_left (by omega), by omega⟩

/-- **C21** `<=` on a field with a value of full size; for the largest value it says nothing. -/
theorem le_exact (f : VF) (b : Bytes) (h : b.length = f.bytes) :
    ∃ rs, ExtStmt.stmts ⟨.field f, .lessEq, [(none, b)]⟩ = .ok rs ∧
      ∀ x, x.num f < 2 ^ f.width →
        ((∀ r ∈ rs, Sat r x) ↔ (beNat b + 1 = 2 ^ f.width ∨ HasType x (needs f)) ∧ x.num f ≤ beNat b) := by
  have hb : b ≠ [] := by rintro rfl; have := bytes_pos f; rw [← h] at this; cases this
  simp only [ExtStmt.stmts]
  rcases addOne_spec b hb with ⟨h0, e⟩ | ⟨c, e, hl, hv⟩
  · rw [e]
    refine ⟨[], rfl, fun x hx => ?_⟩
    rw [h, pow_bytes] at h0
    simp [h0]; omega
  · rw [e]
    refine ⟨_, rfl, fun x hx => ?_⟩
    simp only [List.mem_singleton, forall_eq]
    rw [sat_field_full f _ c (by omega)]
    show HasType x (needs f) ∧ x.num f < beNat c ↔ _
    have hc := beNat_lt c
    rw [hl, h, pow_bytes] at hc
    constructor
    · rintro ⟨h1, h2⟩; exact ⟨.inr h1, by omega⟩
    · rintro ⟨h1, h2⟩; exact ⟨h1.resolve_left (by omega), by omega⟩

/-- **C21** the same for a counter. -/
theorem ge_limit (q : QScope) (b : Bytes) (h : b.length = 4) :
    ∃ rs, ExtStmt.stmts ⟨.limit q, .greaterEq, [(none, b)]⟩ = .ok rs ∧
      ∀ t c, (∀ r ∈ rs, SatWhen r t c) ↔ c q ≥ beNat b := by
  have hb : b ≠ [] := by rintro rfl; cases h
  simp only [ExtStmt.stmts]
  rcases subOne_spec b hb with ⟨h0, e⟩ | ⟨d, e, hl, hv⟩
  · rw [e]; exact ⟨[], rfl, fun t c => by simp [h0]⟩
  · rw [e]
    refine ⟨_, rfl, fun t c => ?_⟩
    simp only [List.mem_singleton, forall_eq]
    show (∃ b' : Bytes, b'.length = 4 ∧ ([(none, d)] : ABList) = [(none, b')] ∧ c q > beNat b') ↔ _
    constructor
    · rintro ⟨b', _, h2, h3⟩; cases h2; omega
    · intro h; exact ⟨d, by omega, rfl, by omega⟩
theorem le_limit (q : QScope) (b : Bytes) (h : b.length = 4) :
    ∃ rs, ExtStmt.stmts ⟨.limit q, .lessEq, [(none, b)]⟩ = .ok rs ∧
      ∀ t c, c q < 2 ^ 32 → ((∀ r ∈ rs, SatWhen r t c) ↔ c q ≤ beNat b) := by
  have hb : b ≠ [] := by rintro rfl; cases h
  simp only [ExtStmt.stmts]
  rcases addOne_spec b hb with ⟨h0, e⟩ | ⟨d, e, hl, hv⟩
  · rw [e]
    refine ⟨[], rfl, fun t c hc => ?_⟩
    rw [h] at h0
    simp; omega
  · rw [e]
    refine ⟨_, rfl, fun t c _ => ?_⟩
    simp only [List.mem_singleton, forall_eq]
    show (∃ b' : Bytes, b'.length = 4 ∧ ([(none, d)] : ABList) = [(none, b')] ∧ c q < beNat b') ↔ _
    constructor
    · rintro ⟨b', _, h2, h3⟩; cases h2; omega
    · intro h; exact ⟨d, by omega, rfl, by omega⟩
/-- **C21** and for the receive time. -/
theorem ge_recv (b : Bytes) (h : b.length = 8) :
    ∃ rs, ExtStmt.stmts ⟨.recv, .greaterEq, [(none, b)]⟩ = .ok rs ∧
      ∀ t c, (∀ r ∈ rs, SatWhen r t c) ↔ t ≥ beNat b := by
  have hb : b ≠ [] := by rintro rfl; cases h
  simp only [ExtStmt.stmts]
  rcases subOne_spec b hb with ⟨h0, e⟩ | ⟨d, e, hl, hv⟩
  · rw [e]; exact ⟨[], rfl, fun t c => by simp [h0]⟩
  · rw [e]
    refine ⟨_, rfl, fun t c => ?_⟩
    simp only [List.mem_singleton, forall_eq]
    show (∃ b' : Bytes, b'.length = 8 ∧ ([(none, d)] : ABList) = [(none, b')] ∧ t > beNat b') ↔ _
    constructor
    · rintro ⟨b', _, h2, h3⟩; cases h2; omega
    · intro h; exact ⟨d, by omega, rfl, by omega⟩
theorem le_recv (b : Bytes) (h : b.length = 8) :
    ∃ rs, ExtStmt.stmts ⟨.recv, .lessEq, [(none, b)]⟩ = .ok rs ∧
      ∀ t c, t < 2 ^ 64 → ((∀ r ∈ rs, SatWhen r t c) ↔ t ≤ beNat b) := by
  have hb : b ≠ [] := by rintro rfl; cases h
  simp only [ExtStmt.stmts]
  rcases addOne_spec b hb with ⟨h0, e⟩ | ⟨d, e, hl, hv⟩
  · rw [e]
    refine ⟨[], rfl, fun t c hc => ?_⟩
    rw [h] at h0
    simp; omega
  · rw [e]
    refine ⟨_, rfl, fun t c _ => ?_⟩
    simp only [List.mem_singleton, forall_eq]
    show (∃ b' : Bytes, b'.length = 8 ∧ ([(none, d)] : ABList) = [(none, b')] ∧ t < beNat b') ↔ _
    constructor
    · rintro ⟨b', _, h2, h3⟩; cases h2; omega
    · intro h; exact ⟨d, by omega, rfl, by omega⟩

/-! ### first and last bytes -/

theorem beNat_app (a b : Bytes) : beNat (a ++ b) = 2 ^ (8 * b.length) * beNat a + beNat b := by
  induction a with
  | nil => simp [beNat_nil]
  | cons x xs ih =>
    rw [List.cons_append, beNat_cons, beNat_cons, ih, List.length_append, Nat.pow_add, ← pow8 b.length, Nat.mul_add]
    rw [← Nat.add_assoc]
    congr 2
    rw [Nat.mul_comm (256 ^ xs.length), ← Nat.mul_assoc, Nat.mul_comm, Nat.mul_comm (256 ^ b.length), Nat.mul_comm x.toNat (256 ^ xs.length), Nat.mul_comm x.toNat, Nat.mul_assoc, Nat.mul_comm (256 ^ b.length) x.toNat]
where
  pow8 (n : Nat) : (256 : Nat) ^ n = 2 ^ (8 * n) := by rw [show (256:Nat) = 2 ^ 8 from rfl, ← Nat.pow_mul]

theorem beNat_lt2 (b : Bytes) : beNat b < 2 ^ (8 * b.length) := by
  have := beNat_lt b
  rwa [show (256:Nat) = 2 ^ 8 from rfl, ← Nat.pow_mul] at this

theorem ff_testBit (m i : Nat) : (beNat (List.replicate m 255)).testBit i = decide (i < 8 * m) := by
  have h : beNat (List.replicate m 255) = 2 ^ (8 * m) - 1 := by
    induction m with
    | zero => rfl
    | succ m ih =>
      rw [List.replicate_succ, beNat_cons, ih, List.length_replicate, show (256:Nat) = 2 ^ 8 from rfl, ← Nat.pow_mul, Nat.mul_succ, Nat.pow_add]
      have : 0 < 2 ^ (8 * m) := Nat.pow_pos (by decide)
      show 255 * 2 ^ (8 * m) + (2 ^ (8 * m) - 1) = 2 ^ (8 * m) * 256 - 1
      omega
  rw [h, Nat.testBit_two_pow_sub_one]

theorem zeros_nat (m : Nat) : beNat (List.replicate m 0) = 0 := beNat_zeros' m

/-- Two masks around some bytes leave exactly the numbers that end with these bytes. -/
theorem mask_tail (m : Nat) (b : Bytes) (v : Nat) (hv : v < 2 ^ (8 * (m + b.length))) :
    (Allows .mask0 v (beNat (List.replicate m 255 ++ b)) ∧ Allows .mask1 v (beNat (List.replicate m 0 ++ b))) ↔
      v % 2 ^ (8 * b.length) = beNat b := by
  have hb := beNat_lt2 b
  have e1 : ∀ i, (beNat (List.replicate m 255 ++ b)).testBit i = if i < 8 * b.length then (beNat b).testBit i else decide (i - 8 * b.length < 8 * m) := by
    intro i
    rw [beNat_app, Nat.testBit_two_pow_mul_add _ hb, ff_testBit]
  have e2 : ∀ i, (beNat (List.replicate m 0 ++ b)).testBit i = (beNat b).testBit i := by
    intro i; rw [Pred.beNat_zeros]
  have vhi : ∀ i, v.testBit i = true → i < 8 * (m + b.length) := by
    intro i hi
    have := Nat.ge_two_pow_of_testBit hi
    apply Nat.lt_of_not_le
    intro hle
    have := Nat.pow_le_pow_right (n := 2) (by decide) hle
    omega
  have bhi : ∀ i, (beNat b).testBit i = true → i < 8 * b.length := by
    intro i hi
    have := Nat.ge_two_pow_of_testBit hi
    apply Nat.lt_of_not_le
    intro hle
    have := Nat.pow_le_pow_right (n := 2) (by decide) hle
    omega
  constructor
  · rintro ⟨h0, h1⟩
    apply Nat.eq_of_testBit_eq
    intro i
    rw [Nat.testBit_mod_two_pow]
    by_cases hi : i < 8 * b.length
    · simp only [hi, decide_true, Bool.true_and]
      rw [Bool.eq_iff_iff]
      constructor
      · intro h
        have := h0 i h
        rw [e1, if_pos hi] at this; exact this
      · intro h
        exact h1 i (by rw [e2]; exact h)
    · simp only [hi, decide_false, Bool.false_and]
      cases hbi : (beNat b).testBit i with
      | false => rfl
      | true => exact absurd (bhi i hbi) hi
  · intro h
    have hbit : ∀ i, i < 8 * b.length → v.testBit i = (beNat b).testBit i := by
      intro i hi
      rw [← h, Nat.testBit_mod_two_pow]; simp [hi]
    constructor
    · intro i hi
      rw [e1]
      split
      · rename_i hlt; rw [← hbit i hlt]; exact hi
      · have := vhi i hi
        simp; omega
    · intro i hi
      rw [e2] at hi
      rw [hbit i (bhi i hi)]; exact hi

/-- ... that start with these bytes. -/
theorem mask_head (m : Nat) (b : Bytes) (v : Nat) (hv : v < 2 ^ (8 * (m + b.length))) :
    (Allows .mask0 v (beNat (b ++ List.replicate m 255)) ∧ Allows .mask1 v (beNat (b ++ List.replicate m 0))) ↔
      v / 2 ^ (8 * m) = beNat b := by
  have hb := beNat_lt2 b
  have e1 : ∀ i, (beNat (b ++ List.replicate m 255)).testBit i = if i < 8 * m then true else (beNat b).testBit (i - 8 * m) := by
    intro i
    have h255 := beNat_lt2 (List.replicate m 255)
    rw [List.length_replicate] at h255
    rw [beNat_app, List.length_replicate, Nat.testBit_two_pow_mul_add _ h255, ff_testBit]
    split
    · rename_i h; simp [h]
    · rfl
  have e2 : ∀ i, (beNat (b ++ List.replicate m 0)).testBit i = if i < 8 * m then false else (beNat b).testBit (i - 8 * m) := by
    intro i
    rw [beNat_app, List.length_replicate, zeros_nat, Nat.testBit_two_pow_mul_add _ (Nat.pow_pos (by decide))]
    simp
  constructor
  · rintro ⟨h0, h1⟩
    apply Nat.eq_of_testBit_eq
    intro i
    rw [Nat.testBit_div_two_pow]
    rw [Bool.eq_iff_iff]
    constructor
    · intro h
      have := h0 _ h
      rw [e1, if_neg (by omega)] at this
      rwa [Nat.add_sub_cancel] at this
    · intro h
      apply h1
      rw [e2, if_neg (by omega), Nat.add_sub_cancel]; exact h
  · intro h
    have hbit : ∀ i, 8 * m ≤ i → v.testBit i = (beNat b).testBit (i - 8 * m) := by
      intro i hi
      rw [← h, Nat.testBit_div_two_pow, Nat.sub_add_cancel hi]
    constructor
    · intro i hi
      rw [e1]
      split
      · rfl
      · rw [← hbit i (by omega)]; exact hi
    · intro i hi
      rw [e2] at hi
      split at hi
      · cases hi
      · rw [hbit i (by omega)]; exact hi

/-- The last bytes of a number written in `n` bytes. -/
theorem last_bytes (n : Nat) (v : Nat) (b : Bytes) (hb : b.length ≤ n) (hv : v < 256 ^ n) :
    (beBytes n v).drop (n - b.length) = b ↔ v % 2 ^ (8 * b.length) = beNat b := by
  have hl : (beBytes n v).length = n := beBytes_length n v
  have hn := beNat_beBytes n v hv
  have h1 := beNat_app ((beBytes n v).take (n - b.length)) ((beBytes n v).drop (n - b.length))
  rw [List.take_append_drop, hn, List.length_drop, hl, show n - (n - b.length) = b.length by omega] at h1
  have h2 := beNat_lt2 ((beBytes n v).drop (n - b.length))
  rw [List.length_drop, hl, show n - (n - b.length) = b.length by omega] at h2
  have h3 : v % 2 ^ (8 * b.length) = beNat ((beBytes n v).drop (n - b.length)) := by
    conv => lhs; rw [h1]
    rw [Nat.mul_add_mod, Nat.mod_eq_of_lt h2]
  rw [h3]
  constructor
  · intro h; rw [h]
  · intro h; exact beNat_inj (by rw [List.length_drop, hl]; omega) h

/-- The first bytes. -/
theorem first_bytes (n : Nat) (v : Nat) (b : Bytes) (hb : b.length ≤ n) (hv : v < 256 ^ n) :
    (beBytes n v).take b.length = b ↔ v / 2 ^ (8 * (n - b.length)) = beNat b := by
  have hl : (beBytes n v).length = n := beBytes_length n v
  have hn := beNat_beBytes n v hv
  have h1 := beNat_app ((beBytes n v).take b.length) ((beBytes n v).drop b.length)
  rw [List.take_append_drop, hn, List.length_drop, hl] at h1
  have h2 := beNat_lt2 ((beBytes n v).drop b.length)
  rw [List.length_drop, hl] at h2
  have h3 : v / 2 ^ (8 * (n - b.length)) = beNat ((beBytes n v).take b.length) := by
    conv => lhs; rw [h1]
    rw [Nat.mul_add_div (Nat.pow_pos (by decide)), Nat.div_eq_of_lt h2, Nat.add_zero]
  rw [h3]
  constructor
  · intro h; rw [h]
  · intro h; exact beNat_inj (by rw [List.length_take, hl]; omega) h

/-- **C21** comparing the last bytes of a field: accepted exactly for values that fit, and the bytes written are the last
bytes of the field. -/
theorem tail_exact (f : VF) (b : Bytes) (h : b.length ≤ f.bytes) :
    ∃ rs, ExtStmt.stmts ⟨.field f, .tailMask, [(none, b)]⟩ = .ok rs ∧
      ∀ x, x.num f < 2 ^ f.width →
        ((∀ r ∈ rs, Sat r x) ↔ HasType x (needs f) ∧ (beBytes f.bytes (x.num f)).drop (f.bytes - b.length) = b) := by
  simp only [ExtStmt.stmts, Kind.fixedSize, asExactBytes]
  rw [if_neg (by omega)]
  refine ⟨_, rfl, fun x hx => ?_⟩
  simp only [List.mem_cons, List.not_mem_nil, or_false, forall_eq_or_imp, forall_eq, if_true, ofBytes]
  rw [sat_field_full f _ _ (by simp; omega), sat_field_full f _ _ (by simp; omega), last_bytes _ _ _ h (by rw [pow_bytes]; exact hx)]
  have := mask_tail (f.bytes - b.length) b (x.num f) (by rw [show 8 * (f.bytes - b.length + b.length) = f.width by unfold VF.width; omega]; exact hx)
  rw [← this]
  constructor
  · rintro ⟨⟨h1, h2⟩, _, h3⟩; exact ⟨h1, h2, h3⟩
  · rintro ⟨h1, h2, h3⟩; exact ⟨⟨h1, h2⟩, h1, h3⟩

/-- **C21** comparing the first bytes of a field. -/
theorem head_exact (f : VF) (b : Bytes) (h : b.length ≤ f.bytes) :
    ∃ rs, ExtStmt.stmts ⟨.field f, .headMask, [(none, b)]⟩ = .ok rs ∧
      ∀ x, x.num f < 2 ^ f.width →
        ((∀ r ∈ rs, Sat r x) ↔ HasType x (needs f) ∧ (beBytes f.bytes (x.num f)).take b.length = b) := by
  simp only [ExtStmt.stmts, Kind.fixedSize, asExactBytes]
  rw [if_neg (by omega)]
  refine ⟨_, rfl, fun x hx => ?_⟩
  simp only [List.mem_cons, List.not_mem_nil, or_false, forall_eq_or_imp, forall_eq, reduceCtorEq, if_false, ofBytes]
  rw [sat_field_full f _ _ (by simp; omega), sat_field_full f _ _ (by simp; omega), first_bytes _ _ _ h (by rw [pow_bytes]; exact hx)]
  have := mask_head (f.bytes - b.length) b (x.num f) (by rw [show 8 * (f.bytes - b.length + b.length) = f.width by unfold VF.width; omega]; exact hx)
  rw [← this]
  constructor
  · rintro ⟨⟨h1, h2⟩, _, h3⟩; exact ⟨h1, h2, h3⟩
  · rintro ⟨h1, h2, h3⟩; exact ⟨⟨h1, h2⟩, h1, h3⟩

/-- Longer values are refused. -/
theorem mask_too_long (f : VF) (o : ExtOp) (ho : o = .headMask ∨ o = .tailMask) (b : Bytes) (h : f.bytes < b.length) :
    ExtStmt.stmts ⟨.field f, o, [(none, b)]⟩ = .error (.err ()) := by
  rcases ho with rfl | rfl <;> simp only [ExtStmt.stmts, Kind.fixedSize, asExactBytes] <;> rw [if_pos h]

/-- Expanding never aborts when the value has a byte. -/
theorem sugar_no_abort (e : ExtStmt) (h : ∀ c, e.val ≠ [(c, [])]) : e.stmts ≠ .error .panic := by
  obtain ⟨k, o, val⟩ := e
  cases o with
  | op o => simp [ExtStmt.stmts]
  | greaterEq =>
    simp only [ExtStmt.stmts]
    split
    · rename_i c b
      have hb : b ≠ [] := by rintro rfl; exact h c rfl
      rcases subOne_spec b hb with ⟨_, e⟩ | ⟨_, e, _⟩ <;> rw [e] <;> simp
    · simp
  | lessEq =>
    simp only [ExtStmt.stmts]
    split
    · rename_i c b
      have hb : b ≠ [] := by rintro rfl; exact h c rfl
      rcases addOne_spec b hb with ⟨_, e⟩ | ⟨_, e, _⟩ <;> rw [e] <;> simp
    · simp
  | headMask => simp only [ExtStmt.stmts]; split; simp; split; simp; split <;> simp
  | tailMask => simp only [ExtStmt.stmts]; split; simp; split; simp; split <;> simp

/-- An empty value aborts. -/
theorem sugar_empty_aborts (k : Kind) : ExtStmt.stmts ⟨k, .greaterEq, [(none, [])]⟩ = .error .panic ∧
    ExtStmt.stmts ⟨k, .lessEq, [(none, [])]⟩ = .error .panic := ⟨rfl, rfl⟩

/-- A domain may be written short, but `<=` with a short value of 255 bytes is dropped: the query says nothing, although
the comparison excludes domains. -/
theorem le_short_domain_dropped : ExtStmt.stmts ⟨.field .domain, .lessEq, [(none, [255])]⟩ = .ok [] ∧
    ValueIs .domain [(none, [255])] 255 ∧ ¬ (256 : Nat) ≤ 255 :=
  ⟨rfl, ⟨[255], .inl rfl, by decide, rfl⟩, by decide⟩

set_option maxRecDepth 8000 in
/-- A hash written in base64 is changed as text: `>=` of a text whose last character is `E` becomes one that is not base64
of 32 bytes, and the query is refused. -/
theorem ge_text_refused : ∃ t : Bytes, (∃ n, ValueIs .hash [(none, t)] n) ∧
    ∃ r, ExtStmt.stmts ⟨.field .hash, .greaterEq, [(none, t)]⟩ = .ok [r] ∧ ∀ x, ¬ Sat r x := by
  have hbytes : base64 (List.replicate 31 0 ++ [1]) = List.replicate 42 65 ++ [69] := by decide +kernel
  refine ⟨List.replicate 42 65 ++ [69], ⟨beNat (List.replicate 31 0 ++ [1]), _, .inl rfl, _, by simp, rfl, .inr ((b64_encode_iff _ _).1 hbytes)⟩,
    ⟨.field .hash, .greater, [(none, List.replicate 42 65 ++ [68])]⟩, by rfl, ?_⟩
  rintro x ⟨_, n, ⟨b, hb, y, hy, hn, hby⟩, _⟩
  have hb : b = List.replicate 42 65 ++ [68] := by
    rcases hb with hb | ⟨hb, _⟩
    · cases hb; rfl
    · cases hb
  rcases hby with h | h
  · rw [← h, hb] at hy; revert hy; simp
  · have h1 := (b64_decode_iff _ _).2 h
    have h2 : base64Decode (List.replicate 42 65 ++ [68]) = none := by decide +kernel
    rw [hb, h2] at h1; cases h1

example : ExtStmt.stmts ⟨.field .size, .greaterEq, [(none, [1, 0])]⟩ = .ok [⟨.field .size, .greater, [(none, [0, 255])]⟩] := by rfl
example : ExtStmt.stmts ⟨.field .hop, .tailMask, [(none, [7])]⟩ =
    .ok [⟨.field .hop, .mask0, [(none, [255, 255, 255, 7])]⟩, ⟨.field .hop, .mask1, [(none, [0, 0, 0, 7])]⟩] := by rfl

end Verif.Props
