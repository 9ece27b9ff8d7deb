import Verif.Model.Query
import Verif.Spec.Query
import Verif.Lemmas.Predicates3
/-!
# Counting, stamp ranges and depth sets
-/
namespace Verif.Query
open Verif Verif.Pkt Verif.Tree Verif.Pred Verif.Env Verif.Spec

/-! ### selecting by position -/

/-- The last position a counter reaches. -/
def capPos (n : Nat) : Nat := min n (2 ^ 32 - 1)

theorem memberNext_cases (t : TestSet 32) (hm : t.mask.hasAny = true) (n : BitVec 32) :
    (t.memberNext true n = .ok none ∧ ∀ i, n.toNat ≤ i → ¬ t.Mem (BitVec.ofNat 32 (capPos i))) ∨
      ∃ b n', t.memberNext true n = .ok (some (b, n')) ∧ (b = true ↔ t.Mem n) ∧ n'.toNat = capPos (n.toNat + 1) := by
  have hn := n.isLt
  have hh := t.bound.high.isLt
  unfold TestSet.memberNext
  split
  · rename_i hlt
    refine .inl ⟨rfl, fun i hi hmem => ?_⟩
    have h1 := hmem.1.2
    rw [BitVec.toNat_ofNat] at h1
    simp only [BitVec.lt_def] at hlt
    unfold capPos at h1
    omega
  · rename_i hlt
    rcases test_iff (w := 32) (by decide) (by decide) true t n (.inr hm) with ⟨e, h⟩ | ⟨e, h⟩
    · rw [e]; simp only
      cases hi : inc n with
      | some x => exact .inr ⟨true, x, rfl, by simp [h], by have := inc_some hi; have := x.isLt; unfold capPos; omega⟩
      | none => exact .inr ⟨true, n, rfl, by simp [h], by have := inc_none hi; unfold capPos; omega⟩
    · rw [e]; simp only
      cases hi : inc n with
      | some x => exact .inr ⟨false, x, rfl, by simp [h], by have := inc_some hi; have := x.isLt; unfold capPos; omega⟩
      | none =>
        refine .inl ⟨rfl, fun i hi' hmem => h ?_⟩
        have := inc_none hi
        have e : capPos i = n.toNat := by unfold capPos; omega
        rw [e, BitVec.ofNat_toNat, BitVec.setWidth_eq] at hmem
        exact hmem

theorem picks_none {α} {P : Nat → Prop} {n : Nat} (xs : List α) (h : ∀ i, n ≤ i → ¬ P i) : Picks P n xs [] := by
  induction xs generalizing n with
  | nil => exact .nil n
  | cons x xs ih => exact .skip x (h n (Nat.le_refl _)) (ih (fun i hi => h i (by omega)))

theorem picks_congr {α} {P Q : Nat → Prop} {n : Nat} {xs out : List α} (h : ∀ i, n ≤ i → (P i ↔ Q i)) (hp : Picks P n xs out) :
    Picks Q n xs out := by
  induction hp with
  | nil n => exact .nil n
  | take x hx _ ih => exact .take x ((h _ (Nat.le_refl _)).1 hx) (ih (fun i hi => h i (by omega)))
  | skip x hx _ ih => exact .skip x (fun hq => hx ((h _ (Nat.le_refl _)).2 hq)) (ih (fun i hi => h i (by omega)))

theorem picks_congr' {α} {P Q : Nat → Prop} {n : Nat} {xs out : List α}
    (h : ∀ i, n ≤ i → i < n + xs.length → (P i ↔ Q i)) (hp : Picks P n xs out) : Picks Q n xs out := by
  induction hp with
  | nil n => exact .nil n
  | take x hx _ ih =>
    refine .take x ((h _ (Nat.le_refl _) (by simp)).1 hx) (ih (fun i hi hl => h i (by omega) (by simp; omega)))
  | skip x hx _ ih =>
    refine .skip x (fun hq => hx ((h _ (Nat.le_refl _) (by simp)).2 hq)) (ih (fun i hi hl => h i (by omega) (by simp; omega)))

theorem picks_all {α} {P : Nat → Prop} {n : Nat} {xs out : List α} (h : ∀ i, P i) (hp : Picks P n xs out) : out = xs := by
  induction hp with
  | nil n => rfl
  | take x _ _ ih => rw [ih]
  | skip x hx _ _ => exact absurd (h _) hx

theorem picks_sublist {α} {P : Nat → Prop} {n : Nat} {xs out : List α} (hp : Picks P n xs out) : out.Sublist xs := by
  induction hp with
  | nil n => exact .slnil
  | take x _ _ ih => exact ih.cons_cons x
  | skip x _ _ ih => exact ih.cons x

theorem picks_unique {α} {P : Nat → Prop} {n : Nat} {xs a b : List α} (ha : Picks P n xs a) (hb : Picks P n xs b) : a = b := by
  induction ha generalizing b with
  | nil n => cases hb; rfl
  | take x hx _ ih => cases hb with
    | take _ _ h => rw [ih h]
    | skip _ h' _ => exact absurd hx h'
  | skip x hx _ ih => cases hb with
    | take _ h' _ => exact absurd h' hx
    | skip _ _ h => exact ih h

theorem picks_mem {α} {P : Nat → Prop} {n : Nat} {xs out : List α} (hp : Picks P n xs out) (i : Nat) (hi : i < xs.length)
    (h : P (n + i)) : xs[i] ∈ out := by
  induction hp generalizing i with
  | nil n => simp at hi
  | take x _ _ ih =>
    cases i with
    | zero => simp
    | succ i =>
      simp only [List.getElem_cons_succ, List.mem_cons]
      exact .inr (ih i (by simpa using hi) (by rw [Nat.add_assoc, Nat.add_comm 1 i]; exact h))
  | skip x hx _ ih =>
    cases i with
    | zero => exact absurd h hx
    | succ i =>
      simp only [List.getElem_cons_succ]
      exact ih i (by simpa using hi) (by rw [Nat.add_assoc, Nat.add_comm 1 i]; exact h)

theorem picks_get {α} {P : Nat → Prop} {n : Nat} {xs out : List α} (hp : Picks P n xs out) {y : α} (h : y ∈ out) :
    ∃ i, ∃ hi : i < xs.length, xs[i] = y ∧ P (n + i) := by
  induction hp with
  | nil n => cases h
  | take x hx _ ih =>
    rcases List.mem_cons.1 h with rfl | h
    · exact ⟨0, by simp, rfl, hx⟩
    · obtain ⟨i, hi, h1, h2⟩ := ih h
      exact ⟨i + 1, by simpa using hi, by simpa using h1, by rw [Nat.add_comm i 1, ← Nat.add_assoc]; exact h2⟩
  | skip x hx _ ih =>
    obtain ⟨i, hi, h1, h2⟩ := ih h
    exact ⟨i + 1, by simpa using hi, by simpa using h1, by rw [Nat.add_comm i 1, ← Nat.add_assoc]; exact h2⟩

theorem picks_cap {α} {Q : Nat → Prop} {n : Nat} {xs out : List α}
    (hp : Picks (fun i => Q (capPos i)) (capPos (n + 1)) xs out) : Picks (fun i => Q (capPos i)) (n + 1) xs out := by
  by_cases h : n + 1 ≤ 2 ^ 32 - 1
  · have : capPos (n + 1) = n + 1 := by unfold capPos; omega
    rw [this] at hp; exact hp
  · -- both stay at the last position
    have key : ∀ (m k : Nat) (xs out : List α), 2 ^ 32 - 1 ≤ m → 2 ^ 32 - 1 ≤ k →
        Picks (fun i => Q (capPos i)) m xs out → Picks (fun i => Q (capPos i)) k xs out := by
      intro m k xs
      induction xs generalizing m k with
      | nil => intro out _ _ h; cases h; exact .nil k
      | cons x xs ih =>
        intro out hm hk h
        have e1 : capPos m = 2 ^ 32 - 1 := by unfold capPos; omega
        have e2 : capPos k = 2 ^ 32 - 1 := by unfold capPos; omega
        cases h with
        | take _ h1 h2 => exact .take x (by simp only [e1] at h1; simp only [e2]; exact h1) (ih (m + 1) (k + 1) _ (by omega) (by omega) h2)
        | skip _ h1 h2 => exact .skip x (by simp only [e1] at h1; simp only [e2]; exact h1) (ih (m + 1) (k + 1) _ (by omega) (by omega) h2)
    exact key _ _ _ _ (by unfold capPos; omega) (by omega) hp

/-- The positions in a set, the counter staying at its last value. -/
def InSet (t : TestSet 32) (i : Nat) : Prop := t.Mem (BitVec.ofNat 32 (capPos i))

theorem inSet_toNat (t : TestSet 32) (n : BitVec 32) : InSet t n.toNat ↔ t.Mem n := by
  have : capPos n.toNat = n.toNat := by have := n.isLt; unfold capPos; omega
  rw [InSet, this, BitVec.ofNat_toNat, BitVec.setWidth_eq]

theorem select_picks {α} (t : TestSet 32) (hm : t.mask.hasAny = true) (n : BitVec 32) (xs : List α) :
    ∃ out m, select t n xs = .ok (out, m) ∧ Picks (InSet t) n.toNat xs out := by
  induction xs generalizing n with
  | nil => exact ⟨[], n, rfl, .nil _⟩
  | cons x xs ih =>
    rcases memberNext_cases t hm n with ⟨e, h⟩ | ⟨b, n', e, hb, hn'⟩
    · exact ⟨[], n, by simp only [select, e], picks_none _ h⟩
    · obtain ⟨out, m, h1, h2⟩ := ih n'
      refine ⟨if b then x :: out else out, m, by simp only [select, e, h1], ?_⟩
      rw [hn'] at h2
      have h3 := picks_cap (Q := fun i => t.Mem (BitVec.ofNat 32 i)) h2
      have h0 := inSet_toNat t n
      cases b with
      | true => exact .take x (h0.2 (hb.1 rfl)) h3
      | false => exact .skip x (fun h => by have := hb.2 (h0.1 h); cases this) h3

/-- Nothing past the upper bound is looked at, except for one item. -/
theorem select_stops {α} (t : TestSet 32) (n : BitVec 32) (xs ys : List α) (hh : t.bound.high.toNat < 2 ^ 32 - 1)
    (hne : xs ≠ []) (h : t.bound.high.toNat + 1 < n.toNat + xs.length) : select t n (xs ++ ys) = select t n xs := by
  induction xs generalizing n with
  | nil => exact absurd rfl hne
  | cons x xs ih =>
    simp only [List.cons_append, select]
    by_cases hlt : t.bound.high < n
    · have : t.memberNext true n = .ok none := by unfold TestSet.memberNext; rw [if_pos hlt]
      rw [this]
    · have hle : n.toNat ≤ t.bound.high.toNat := by simp only [BitVec.lt_def] at hlt; omega
      unfold TestSet.memberNext
      rw [if_neg hlt]
      cases t.test true n with
      | error e => rfl
      | ok r =>
        simp only
        cases hi : inc n with
        | none => have := inc_none hi; omega
        | some n' =>
          have := inc_some hi
          simp only [List.length_cons] at h
          simp only
          rw [ih n' (by rintro rfl; simp at h; omega) (by omega)]

/-! ### stamp ranges -/

theorem contains_iff (r : StampRange) (i : Nat) : r.contains i = true ↔ min r.start r.stop ≤ i ∧ i ≤ max r.start r.stop := by
  unfold StampRange.contains StampRange.boundCmp
  rcases Nat.lt_trichotomy r.start i with h1 | h1 | h1 <;> rcases Nat.lt_trichotomy r.stop i with h2 | h2 | h2 <;>
    simp only [Nat.compare_eq_lt.2, Nat.compare_eq_gt.2, Nat.compare_eq_eq.2, h1, h2] <;> simp <;> omega

theorem iterCmp_eq (r : StampRange) (i : Nat) : r.iterCmp i =
    if r.start ≤ r.stop then (if i < r.start then .pre else if i ≤ r.stop then .inside else .post)
    else (if r.start < i then .pre else if r.stop ≤ i then .inside else .post) := by
  unfold StampRange.iterCmp
  have c1 : ∀ a b : Nat, a < b → compare a b = .lt := fun a b h => Nat.compare_eq_lt.2 h
  have c2 : ∀ a b : Nat, b < a → compare a b = .gt := fun a b h => Nat.compare_eq_gt.2 h
  have c3 : ∀ a b : Nat, a = b → compare a b = .eq := fun a b h => Nat.compare_eq_eq.2 h
  obtain ⟨s, e⟩ := r
  simp only
  rcases Nat.lt_trichotomy s e with h3 | h3 | h3
  · rw [c1 _ _ h3]
    rcases Nat.lt_trichotomy s i with h1 | h1 | h1
    · rw [c1 _ _ h1]
      rcases Nat.lt_trichotomy e i with h2 | h2 | h2
      · rw [c1 _ _ h2]; show IterCmp.post = _; rw [if_pos (by omega), if_neg (by omega), if_neg (by omega)]
      · rw [c3 _ _ h2]; show IterCmp.inside = _; rw [if_pos (by omega), if_neg (by omega), if_pos (by omega)]
      · rw [c2 _ _ h2]; show IterCmp.inside = _; rw [if_pos (by omega), if_neg (by omega), if_pos (by omega)]
    · rw [c3 _ _ h1, c2 e i (by omega)]; show IterCmp.inside = _; rw [if_pos (by omega), if_neg (by omega), if_pos (by omega)]
    · rw [c2 _ _ h1, c2 e i (by omega)]; show IterCmp.pre = _; rw [if_pos (by omega), if_pos h1]
  · subst h3
    rw [c3 s s rfl]
    rcases Nat.lt_trichotomy s i with h1 | h1 | h1
    · rw [c1 _ _ h1]; show IterCmp.post = _; rw [if_pos (by omega), if_neg (by omega), if_neg (by omega)]
    · rw [c3 _ _ h1]; show IterCmp.inside = _; rw [if_pos (by omega), if_neg (by omega), if_pos (by omega)]
    · rw [c2 _ _ h1]; show IterCmp.pre = _; rw [if_pos (by omega), if_pos h1]
  · rw [c2 _ _ h3]
    rcases Nat.lt_trichotomy s i with h1 | h1 | h1
    · rw [c1 _ _ h1, c1 e i (by omega)]; show IterCmp.pre = _; rw [if_neg (by omega), if_pos h1]
    · rw [c3 _ _ h1, c1 e i (by omega)]; show IterCmp.inside = _; rw [if_neg (by omega), if_neg (by omega), if_pos (by omega)]
    · rw [c2 _ _ h1]
      rcases Nat.lt_trichotomy e i with h2 | h2 | h2
      · rw [c1 _ _ h2]; show IterCmp.inside = _; rw [if_neg (by omega), if_neg (by omega), if_pos (by omega)]
      · rw [c3 _ _ h2]; show IterCmp.inside = _; rw [if_neg (by omega), if_neg (by omega), if_pos (by omega)]
      · rw [c2 _ _ h2]; show IterCmp.post = _; rw [if_neg (by omega), if_neg (by omega), if_neg (by omega)]

/-! ### depth sets -/

theorem bits_ofList (l : List Nat) (b : BitSet) (d : Nat) (hd : d < 32) :
    (l.foldl (fun b i => b ||| (if i < 32 then 1#32 <<< i else 0#32)) b).getLsbD d = true ↔ b.getLsbD d = true ∨ d ∈ l := by
  induction l generalizing b with
  | nil => simp
  | cons i l ih =>
    rw [List.foldl_cons, ih, BitVec.getLsbD_or, Bool.or_eq_true, List.mem_cons, or_assoc]
    have : (if i < 32 then 1#32 <<< i else 0#32).getLsbD d = true ↔ d = i := by
      split
      · rw [BitVec.getLsbD_shiftLeft]
        simp [hd, BitVec.getLsbD_one]; omega
      · simp; omega
    rw [this]

theorem has_ofList (l : List Nat) (d : Nat) (hl : ∀ i ∈ l, i < 32) : BitSet.has (BitSet.ofList l) d = true ↔ d ∈ l := by
  unfold BitSet.has BitSet.ofList
  rw [Bool.and_eq_true, decide_eq_true_iff]
  constructor
  · rintro ⟨h1, h2⟩
    have := (bits_ofList l 0#32 d h1).1 h2
    simpa using this
  · intro h
    exact ⟨hl d h, (bits_ofList l 0#32 d (hl d h)).2 (.inr h)⟩

theorem fromRules_ok (t : TestSet 8) (hm : t.mask.hasAny = true) : ∃ b, BitSet.fromRules t = .ok b ∧
    ∀ d, BitSet.has b d = true ↔ d ≤ 8 ∧ t.Mem (BitVec.ofNat 8 d) := by
  obtain ⟨rs, e, h⟩ := rules_iff (by decide) (by decide) true t (.inr hm)
  refine ⟨_, by unfold BitSet.fromRules; rw [e], fun d => ?_⟩
  rw [has_ofList _ _ (by intro i hi; have := (List.mem_filter.1 hi).1; simp at this; omega), List.mem_filter, h]
  simp; omega

theorem next_some {b : BitSet} {d n : Nat} (h : BitSet.next b d = some n) :
    d < n ∧ n < 32 ∧ BitSet.has b n = true ∧ ∀ i, d < i → i < n → BitSet.has b i = false := by
  unfold BitSet.next at h
  rw [List.find?_eq_some_iff_append] at h
  obtain ⟨h1, as, bs, h2, h3⟩ := h
  have hmem : n ∈ (List.range 32).filter (fun i => decide (d < i)) := by rw [h2]; simp
  simp only [List.mem_filter, List.mem_range, decide_eq_true_eq] at hmem
  refine ⟨hmem.2, hmem.1, h1, fun i hi hn => ?_⟩
  have hi' : i ∈ (List.range 32).filter (fun i => decide (d < i)) := by simp; omega
  have hs : ((List.range 32).filter (fun i => decide (d < i))).Pairwise (· < ·) := List.Pairwise.filter _ List.pairwise_lt_range
  rw [h2] at hs hi'
  rcases List.mem_append.1 hi' with hi' | hi'
  · simpa using h3 i hi'
  · rcases List.mem_cons.1 hi' with rfl | hi'
    · omega
    · have := (List.pairwise_cons.1 (List.pairwise_append.1 hs).2.1).1 i hi'
      omega

theorem next_none (b : BitSet) (d : Nat) : BitSet.next b d = none ↔ ∀ i, d < i → BitSet.has b i = false := by
  unfold BitSet.next
  rw [List.find?_eq_none]
  constructor
  · intro h i hi
    by_cases h32 : i < 32
    · have := h i (by simp [h32, hi])
      simpa using this
    · simp [BitSet.has, h32]
  · intro h i hi
    simp only [List.mem_filter, List.mem_range, decide_eq_true_eq] at hi
    simp [h i hi.2]

end Verif.Query
