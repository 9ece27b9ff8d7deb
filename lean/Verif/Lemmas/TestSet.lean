import Verif.Lemmas.Bits
/-! Lemmas about predicate sets. -/
namespace Verif.Pred
open Verif Verif.Spec

theorem holds_iff {w : Nat} (op : TestOp) (v r : BitVec w) : op.holds v r = true ↔ Allows op v.toNat r.toNat := by
  cases op with
  | nop => simp [TestOp.holds, Allows]
  | equal => simp [TestOp.holds, Allows, BitVec.toNat_inj]
  | less => simp [TestOp.holds, Allows, BitVec.lt_def]
  | greater => simp [TestOp.holds, Allows, BitVec.lt_def]
  | mask0 =>
    simp only [TestOp.holds, Allows, beq_iff_eq, toNat_testBit]
    constructor
    · intro h i hi; rw [← h]; simp [hi]
    · intro h; apply BitVec.eq_of_getLsbD_eq; intro i _
      have := h i
      rw [BitVec.getLsbD_or]; cases hv : v.getLsbD i <;> simp_all
  | mask1 =>
    simp only [TestOp.holds, Allows, beq_iff_eq, toNat_testBit]
    constructor
    · intro h i hi; rw [← h] at hi; simp at hi; exact hi.1
    · intro h; apply BitVec.eq_of_getLsbD_eq; intro i _
      have := h i
      rw [BitVec.getLsbD_and]; cases hv : r.getLsbD i <;> simp_all

/-- The values inside a bound. -/
def Bound.Mem {w} (b : Bound w) (v : BitVec w) : Prop := b.low.toNat ≤ v.toNat ∧ v.toNat ≤ b.high.toNat
/-- The values of a test set. -/
def TestSet.Mem {w} (t : TestSet w) (v : BitVec w) : Prop := t.bound.Mem v ∧ t.mask.test v = true

theorem minV_toNat (w : Nat) : (minV w).toNat = 0 := by simp [minV]
theorem maxV_toNat (w : Nat) : (maxV w).toNat = 2 ^ w - 1 := by simp [maxV]
theorem eq_minV {w} (v : BitVec w) : v = minV w ↔ v.toNat = 0 := by
  rw [← minV_toNat w, BitVec.toNat_inj]
theorem eq_maxV {w} (v : BitVec w) : v = maxV w ↔ v.toNat = 2 ^ w - 1 := by
  rw [← maxV_toNat w, BitVec.toNat_inj]

theorem inc_none {w} {v : BitVec w} (h : inc v = none) : v.toNat = 2 ^ w - 1 := by
  unfold inc at h; split at h
  · exact (eq_maxV v).1 ‹_›
  · cases h
theorem inc_some {w} {v x : BitVec w} (h : inc v = some x) : x.toNat = v.toNat + 1 := by
  unfold inc at h; split at h
  · cases h
  · rename_i hv
    cases h
    rw [eq_maxV] at hv
    have := v.isLt
    rcases Nat.eq_zero_or_pos w with rfl | hw
    · simp at hv; omega
    · rw [BitVec.toNat_add, BitVec.toNat_ofNat, Nat.mod_eq_of_lt (Nat.one_lt_two_pow (by omega)), Nat.mod_eq_of_lt (by omega)]
theorem decr_none {w} {v : BitVec w} (h : decr v = none) : v.toNat = 0 := by
  unfold decr at h; split at h
  · exact (eq_minV v).1 ‹_›
  · cases h
theorem decr_some {w} {v x : BitVec w} (h : decr v = some x) : x.toNat + 1 = v.toNat := by
  unfold decr at h; split at h
  · cases h
  · rename_i hv
    cases h
    rw [eq_minV] at hv
    have := v.isLt
    rcases Nat.eq_zero_or_pos w with rfl | hw
    · simp at this; omega
    · rw [BitVec.toNat_sub, BitVec.toNat_ofNat, Nat.mod_eq_of_lt (Nat.one_lt_two_pow (by omega))]
      have h1 : 2 ^ w - 1 + v.toNat = (v.toNat - 1) + 2 ^ w := by omega
      rw [h1, Nat.add_mod_right, Nat.mod_eq_of_lt (by omega)]; omega

theorem bmax_toNat {w} (a b : BitVec w) : (bmax a b).toNat = max a.toNat b.toNat := by
  unfold bmax; simp only [BitVec.le_def]; split <;> omega
theorem bmin_toNat {w} (a b : BitVec w) : (bmin a b).toNat = min a.toNat b.toNat := by
  unfold bmin; simp only [BitVec.le_def]; split <;> omega

theorem empty_mem {w} (h0 : 0 < w) (v : BitVec w) : ¬ (Bound.empty w).Mem v := by
  simp only [Bound.Mem, Bound.empty, minV_toNat, maxV_toNat]
  have : 2 ≤ 2 ^ w := by
    have := Nat.pow_le_pow_right (n := 2) (by omega) h0
    simpa using this
  omega

theorem bound_add_mem {w} (h0 : 0 < w) (b : Bound w) (op : TestOp) (r v : BitVec w)
    (hop : op ≠ .mask0) (hop1 : op ≠ .mask1) : (b.add op r).Mem v ↔ b.Mem v ∧ Allows op v.toNat r.toNat := by
  cases op with
  | nop => simp [Bound.add, Allows]
  | mask0 => exact absurd rfl hop
  | mask1 => exact absurd rfl hop1
  | equal => simp only [Bound.add, Bound.Mem, Allows, bmax_toNat, bmin_toNat]; omega
  | less =>
    simp only [Bound.add, Allows]
    cases h : decr r with
    | none => have := decr_none h; simp only [empty_mem h0, false_iff]; omega
    | some x => have := decr_some h; simp only [Bound.Mem, bmin_toNat]; omega
  | greater =>
    simp only [Bound.add, Allows]
    cases h : inc r with
    | none => have := inc_none h; have := v.isLt; simp only [empty_mem h0, false_iff]; omega
    | some x => have := inc_some h; simp only [Bound.Mem, bmax_toNat]; omega

theorem add_mem {w} (h0 : 0 < w) (t : TestSet w) (op : TestOp) (r v : BitVec w) :
    (t.add op r).Mem v ↔ t.Mem v ∧ Allows op v.toNat r.toNat := by
  simp only [TestSet.Mem, TestSet.add]
  by_cases h0' : op = .mask0
  · subst h0'
    simp only [Bound.add, Mask.add, mask_test_iff, Allows, toNat_testBit, BitVec.getLsbD_and, Bool.and_eq_true]
    constructor
    · rintro ⟨h1, h2⟩; exact ⟨⟨h1, fun i => ⟨fun h => ((h2 i).1 h).1, (h2 i).2⟩⟩, fun i h => ((h2 i).1 h).2⟩
    · rintro ⟨⟨h1, h2⟩, h3⟩; exact ⟨h1, fun i => ⟨fun h => ⟨(h2 i).1 h, h3 i h⟩, (h2 i).2⟩⟩
  by_cases h1' : op = .mask1
  · subst h1'
    simp only [Bound.add, Mask.add, mask_test_iff, Allows, toNat_testBit, BitVec.getLsbD_or, Bool.or_eq_true]
    constructor
    · rintro ⟨h1, h2⟩; exact ⟨⟨h1, fun i => ⟨(h2 i).1, fun h => (h2 i).2 (.inl h)⟩⟩, fun i h => (h2 i).2 (.inr h)⟩
    · rintro ⟨⟨h1, h2⟩, h3⟩; exact ⟨h1, fun i => ⟨(h2 i).1, fun h => h.elim ((h2 i).2) (h3 i)⟩⟩
  · rw [bound_add_mem h0 _ _ _ _ h0' h1']
    have : t.mask.add op r = t.mask := by cases op <;> first | rfl | exact absurd rfl h0' | exact absurd rfl h1'
    rw [this]
    constructor
    · rintro ⟨⟨a, b⟩, c⟩; exact ⟨⟨a, c⟩, b⟩
    · rintro ⟨⟨a, c⟩, b⟩; exact ⟨⟨a, b⟩, c⟩

theorem default_mem (w : Nat) (v : BitVec w) : (TestSet.default w).Mem v := by
  refine ⟨⟨by simp [TestSet.default, Bound.default, minV_toNat], ?_⟩, ?_⟩
  · simp only [TestSet.default, Bound.default, maxV_toNat]; have := v.isLt; omega
  · rw [mask_test_iff]
    intro i
    refine ⟨fun h => ?_, fun h => ?_⟩
    · simp only [TestSet.default, Mask.default, maxV, BitVec.getLsbD_allOnes]
      have := BitVec.lt_of_getLsbD h
      simpa using this
    · simp [TestSet.default, Mask.default, minV] at h

/-- Adding a list of predicates one after another. -/
def addAll {w} (t : TestSet w) (ps : List (TestOp × BitVec w)) : TestSet w := ps.foldl (fun t p => t.add p.1 p.2) t

theorem addAll_mem {w} (h0 : 0 < w) (t : TestSet w) (ps : List (TestOp × BitVec w)) (v : BitVec w) :
    (addAll t ps).Mem v ↔ t.Mem v ∧ AllowsAll ps v := by
  induction ps generalizing t with
  | nil => simp [addAll, AllowsAll]
  | cons p ps ih =>
    have : addAll t (p :: ps) = addAll (t.add p.1 p.2) ps := rfl
    rw [this, ih, add_mem h0]
    simp only [AllowsAll, List.mem_cons, forall_eq_or_imp]
    constructor
    · rintro ⟨⟨a, b⟩, c⟩; exact ⟨a, b, c⟩
    · rintro ⟨a, b, c⟩; exact ⟨⟨a, b⟩, c⟩

theorem minValue_isNext {w} (h0 : 1 < w) (h32 : w < 2 ^ 32) (dbg : Bool) (t : TestSet w) (ha : t.mask.hasAny = true) :
    ∃ r, t.minValue dbg = .ok r ∧ IsNext t.Mem (minV w) r := by
  have hn := inSet_isNext t.mask t.bound.low h0 h32 ha
  unfold TestSet.minValue Mask.inSetD
  simp only [ha, Bool.not_true, Bool.and_false, Bool.false_eq_true, if_false]
  cases hi : t.mask.inSet t.bound.low with
  | none =>
    rw [hi] at hn
    exact ⟨_, rfl, fun y hy _ => hn y hy.2 hy.1.1⟩
  | some x =>
    rw [hi] at hn
    refine ⟨_, rfl, ?_⟩
    simp only [BitVec.lt_def]
    split
    · intro y hy _
      have := hn.2.2 y hy.2 hy.1.1
      have := hy.1.2
      omega
    · refine ⟨⟨⟨hn.2.1, by omega⟩, hn.1⟩, by simp [minV_toNat], ?_⟩
      intro y hy _
      exact hn.2.2 y hy.2 hy.1.1

theorem hasAny_iff {w} (h0 : 1 < w) (h32 : w < 2 ^ 32) (dbg : Bool) (t : TestSet w) (ha : t.mask.hasAny = true) :
    (t.hasAny dbg = .ok true ∧ ∃ v, t.Mem v) ∨ (t.hasAny dbg = .ok false ∧ ∀ v, ¬ t.Mem v) := by
  obtain ⟨r, hr, hn⟩ := minValue_isNext h0 h32 dbg t ha
  unfold TestSet.hasAny
  rw [hr]
  cases r with
  | none => exact .inr ⟨rfl, fun v hv => hn v hv (by simp [minV_toNat])⟩
  | some x => exact .inl ⟨rfl, x, hn.1⟩

theorem not_mem_of_mask {w} {t : TestSet w} (ha : t.mask.hasAny = false) (v : BitVec w) : ¬ t.Mem v := by
  intro h
  have := mask_hasAny_of_test h.2
  rw [ha] at this; cases this

theorem bound_iter_iff {w} (b : Bound w) (v : BitVec w) :
    b.iter.all (fun r => r.1.holds v r.2) = true ↔ b.Mem v := by
  have hv := v.isLt
  unfold Bound.iter Bound.asEq
  split
  · rename_i x hx
    split at hx
    · rename_i he
      cases hx
      simp only [List.all_cons, List.all_nil, Bool.and_true, holds_iff, Allows, Bound.Mem, he]; omega
    · cases hx
  · rw [List.all_append, Bool.and_eq_true]
    unfold Bound.less Bound.greater Bound.Mem
    have h1 : (((inc b.high).map (fun v => (TestOp.less, v))).toList.all (fun r => r.1.holds v r.2) = true) ↔ v.toNat ≤ b.high.toNat := by
      cases h : inc b.high with
      | none => have := inc_none h; simp; omega
      | some x => have := inc_some h; simp only [Option.map_some, Option.toList_some, List.all_cons, List.all_nil, Bool.and_true, holds_iff, Allows]; omega
    have h2 : (((decr b.low).map (fun v => (TestOp.greater, v))).toList.all (fun r => r.1.holds v r.2) = true) ↔ b.low.toNat ≤ v.toNat := by
      cases h : decr b.low with
      | none => have := decr_none h; simp; omega
      | some x => have := decr_some h; simp only [Option.map_some, Option.toList_some, List.all_cons, List.all_nil, Bool.and_true, holds_iff, Allows]; omega
    rw [h1, h2]; omega

theorem holds_min_ones {w} (v : BitVec w) : TestOp.mask1.holds v (minV w) = true := by
  rw [holds_iff]; intro i h; simp [minV_toNat] at h
theorem holds_max_zeros {w} (v : BitVec w) : TestOp.mask0.holds v (maxV w) = true := by
  rw [holds_iff]; intro i h
  rw [toNat_testBit] at *
  simp only [maxV, BitVec.getLsbD_allOnes]
  have := BitVec.lt_of_getLsbD h
  simpa using this

theorem ruleList_iff {w} (t : TestSet w) (v : BitVec w) :
    (t.bound.iter ++ (if t.mask.ones = minV w then [] else [(TestOp.mask1, t.mask.ones)])
      ++ (if t.mask.zeros = maxV w then [] else [(TestOp.mask0, t.mask.zeros)])).all (fun r => r.1.holds v r.2) = true ↔ t.Mem v := by
  rw [List.all_append, List.all_append, Bool.and_eq_true, Bool.and_eq_true, bound_iter_iff]
  have h1 : ((if t.mask.ones = minV w then [] else [(TestOp.mask1, t.mask.ones)]).all (fun r => r.1.holds v r.2) = true) ↔ TestOp.mask1.holds v t.mask.ones = true := by
    split
    · rename_i h; rw [h]; simp [holds_min_ones]
    · simp
  have h2 : ((if t.mask.zeros = maxV w then [] else [(TestOp.mask0, t.mask.zeros)]).all (fun r => r.1.holds v r.2) = true) ↔ TestOp.mask0.holds v t.mask.zeros = true := by
    split
    · rename_i h; rw [h]; simp [holds_max_zeros]
    · simp
  rw [h1, h2, TestSet.Mem, Mask.test, Bool.and_eq_true]
  constructor
  · rintro ⟨⟨a, b⟩, c⟩; exact ⟨a, c, b⟩
  · rintro ⟨a, c, b⟩; exact ⟨⟨a, b⟩, c⟩

theorem less_min {w} (v : BitVec w) : ¬ Allows .less v.toNat (minV w).toNat := by simp [Allows, minV_toNat]

theorem rules_iff {w} (h0 : 1 < w) (h32 : w < 2 ^ 32) (dbg : Bool) (t : TestSet w)
    (h : dbg = false ∨ t.mask.hasAny = true) :
    ∃ rs, t.rules dbg = .ok rs ∧ ∀ v, rs.all (fun r => r.1.holds v r.2) = true ↔ t.Mem v := by
  unfold TestSet.rules
  by_cases ha : t.mask.hasAny = true
  · rcases hasAny_iff h0 h32 dbg t ha with ⟨e, _⟩ | ⟨e, hn⟩
    · rw [e]; exact ⟨_, rfl, ruleList_iff t⟩
    · rw [e]
      refine ⟨_, rfl, fun v => ?_⟩
      simp only [List.all_cons, List.all_nil, Bool.and_true, holds_iff, less_min, hn v]
  · have hd : dbg = false := h.resolve_right ha
    subst hd
    have ha : t.mask.hasAny = false := by simpa using ha
    have : ∃ b, t.hasAny false = .ok b := by
      unfold TestSet.hasAny TestSet.minValue Mask.inSetD
      simp only [Bool.false_and, Bool.false_eq_true, if_false]
      cases t.mask.inSet t.bound.low <;> exact ⟨_, rfl⟩
    obtain ⟨b, hb⟩ := this
    rw [hb]
    cases b with
    | true => exact ⟨_, rfl, ruleList_iff t⟩
    | false =>
      refine ⟨_, rfl, fun v => ?_⟩
      simp only [List.all_cons, List.all_nil, Bool.and_true, holds_iff, less_min, not_mem_of_mask ha v]

theorem test_iff {w} (h0 : 1 < w) (h32 : w < 2 ^ 32) (dbg : Bool) (t : TestSet w) (v : BitVec w)
    (h : dbg = false ∨ t.mask.hasAny = true) :
    (t.test dbg v = .ok true ∧ t.Mem v) ∨ (t.test dbg v = .ok false ∧ ¬ t.Mem v) := by
  obtain ⟨rs, e, hr⟩ := rules_iff h0 h32 dbg t h
  unfold TestSet.test
  rw [e]
  show (Except.ok (rs.all _) = _ ∧ _) ∨ (Except.ok (rs.all _) = _ ∧ _)
  cases hb : rs.all (fun r => r.1.holds v r.2) with
  | true => exact .inl ⟨rfl, (hr v).1 hb⟩
  | false => exact .inr ⟨rfl, fun hm => by rw [(hr v).2 hm] at hb; cases hb⟩

theorem bound_cmp_of_mem {w} {b : Bound w} {x : BitVec w} (hx : b.Mem x) (v : BitVec w) :
    (b.cmp v = some .lt ∧ v.toNat < b.low.toNat) ∨ (b.cmp v = some .eq ∧ b.Mem v) ∨ (b.cmp v = some .gt ∧ b.high.toNat < v.toNat) := by
  obtain ⟨h1, h2⟩ := hx
  unfold Bound.cmp Bound.Mem
  simp only [BitVec.lt_def, GT.gt, ← BitVec.toNat_inj]
  split
  · split
    · exact .inl ⟨rfl, by omega⟩
    · omega
  · split
    · exact .inr (.inl ⟨rfl, by omega, by omega⟩)
    · split
      · exact .inr (.inr ⟨rfl, by omega⟩)
      · exact .inr (.inl ⟨rfl, by omega, by omega⟩)

theorem info_eq {w} (h0 : 1 < w) (h32 : w < 2 ^ 32) (dbg : Bool) (t : TestSet w) (hne : ∃ x, t.Mem x) (v : BitVec w) :
    ∃ i, t.info dbg v = .ok i ∧ IsNext t.Mem v i.val ∧ (i.inSet = true ↔ t.Mem v) := by
  obtain ⟨x, hx⟩ := hne
  have ha := mask_hasAny_of_test hx.2
  have hany : t.hasAny dbg = .ok true := by
    rcases hasAny_iff h0 h32 dbg t ha with ⟨e, _⟩ | ⟨_, hn⟩
    · exact e
    · exact absurd hx (hn x)
  unfold TestSet.info
  have : (if dbg then t.hasAny dbg else .ok true : PRes Bool) = .ok true := by cases dbg <;> simp [hany]
  rw [this]
  simp only [Mask.inSetD, ha, Bool.not_true, Bool.and_false, Bool.false_eq_true, if_false]
  rcases bound_cmp_of_mem hx.1 v with ⟨e, hv⟩ | ⟨e, hv⟩ | ⟨e, hv⟩
  · rw [e]
    refine ⟨_, rfl, ?_, by simp [TestSet.Mem, Bound.Mem]; omega⟩
    have hn := inSet_isNext t.mask t.bound.low h0 h32 ha
    simp only
    cases hi : t.mask.inSet t.bound.low with
    | none => rw [hi] at hn; exact absurd hx.1.1 (hn x hx.2)
    | some y =>
      rw [hi] at hn
      have h1 := hn.2.2 x hx.2 hx.1.1
      have h2 := hx.1.2
      exact ⟨⟨⟨hn.2.1, by omega⟩, hn.1⟩, by have := hn.2.1; omega, fun z hz _ => hn.2.2 z hz.2 hz.1.1⟩
  · rw [e]
    have hn := inSet_isNext t.mask v h0 h32 ha
    cases hi : t.mask.inSet v with
    | none =>
      rw [hi] at hn
      refine ⟨_, rfl, fun y hy hvy => hn y hy.2 hvy, ?_⟩
      simp only [Bool.false_eq_true, false_iff]
      exact fun h => hn v h.2 (Nat.le_refl _)
    | some y =>
      rw [hi] at hn
      simp only [GT.gt, BitVec.lt_def]
      split
      · refine ⟨_, rfl, ?_, ?_⟩
        · intro z hz hvz
          have := hn.2.2 z hz.2 hvz
          have := hz.1.2
          omega
        · simp only [Bool.false_eq_true, false_iff]
          intro h
          have := hn.2.2 v h.2 (Nat.le_refl _)
          have := h.1.2
          omega
      · refine ⟨_, rfl, ⟨⟨⟨by have := hn.2.1; have := hv.1; omega, by omega⟩, hn.1⟩, hn.2.1, fun z hz hvz => hn.2.2 z hz.2 hvz⟩, ?_⟩
        simp only [beq_iff_eq]
        constructor
        · rintro rfl; exact ⟨hv, hn.1⟩
        · intro h
          exact BitVec.eq_of_toNat_eq (Nat.le_antisymm (hn.2.2 v h.2 (Nat.le_refl _)) hn.2.1)
  · rw [e]
    refine ⟨_, rfl, ?_, ?_⟩
    · intro y hy hvy; have := hy.1.2; omega
    · simp only [Bool.false_eq_true, false_iff]; intro h; have := h.1.2; omega

end Verif.Pred
