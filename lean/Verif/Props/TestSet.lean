import Verif.Lemmas.TestSet
/-!
# Predicate sets of one field: C15, C16, C17, C18, C19 (per field), C20 (per counter)

`ps` is the list of predicates a user wrote about one field, in order.  `dbg` says whether debug assertions are
compiled in; the shipped profile has them on.  The width `w` of a field is 8, 16, 32, 64, 128 or 256; the
theorems hold for every width from 2 up.
-/
namespace Verif.Props
open Verif Verif.Spec Verif.Pred

/-- The set a list of predicates builds with the unchecked `add`. -/
def setOf {w : Nat} (ps : List (TestOp × BitVec w)) : TestSet w := ps.foldl (fun t p => t.add p.1 p.2) (.default w)

/-- The set a list of predicates builds with `try_add`, stopping at the first failure. -/
def trySetFrom {w : Nat} (dbg : Bool) (t : TestSet w) : List (TestOp × BitVec w) → PRes (TestSet w)
  | [] => .ok t
  | p :: ps => match t.tryAdd dbg p.1 p.2 with
    | .error e => .error e
    | .ok t' => trySetFrom dbg t' ps
def trySetOf {w : Nat} (dbg : Bool) (ps : List (TestOp × BitVec w)) : PRes (TestSet w) := trySetFrom dbg (.default w) ps

/-- The bit masks among the predicates do not contradict each other. -/
def MasksOk {w : Nat} (ps : List (TestOp × BitVec w)) : Prop :=
  ∃ v : BitVec w, AllowsAll (ps.filter (fun p => p.1 = .mask0 ∨ p.1 = .mask1)) v

theorem setOf_mem {w : Nat} (h0 : 0 < w) (ps : List (TestOp × BitVec w)) (v : BitVec w) :
    (setOf ps).Mem v ↔ AllowsAll ps v := by
  have := addAll_mem h0 (.default w) ps v
  unfold addAll at this
  rw [setOf, this]
  simp [default_mem]

theorem mask_of_filter {w : Nat} (t : TestSet w) (ps : List (TestOp × BitVec w)) :
    (addAll t ps).mask = (addAll t (ps.filter (fun p => p.1 = .mask0 ∨ p.1 = .mask1))).mask := by
  have key : ∀ (ps : List (TestOp × BitVec w)) (t u : TestSet w), t.mask = u.mask →
      (addAll t ps).mask = (addAll u (ps.filter (fun p => p.1 = .mask0 ∨ p.1 = .mask1))).mask := by
    intro ps
    induction ps with
    | nil => intro t u h; exact h
    | cons p ps ih =>
      intro t u h
      have e1 : addAll t (p :: ps) = addAll (t.add p.1 p.2) ps := rfl
      rw [e1]
      by_cases hp : p.1 = .mask0 ∨ p.1 = .mask1
      · rw [List.filter_cons_of_pos (by simpa using hp)]
        exact ih _ _ (by simp [TestSet.add, h])
      · rw [List.filter_cons_of_neg (by simpa using hp)]
        apply ih
        have : t.mask.add p.1 p.2 = t.mask := by
          cases hq : p.1 <;> simp_all [Mask.add]
        simp only [TestSet.add]; rw [this, h]
  exact key ps t t rfl

theorem bound_of_masks {w : Nat} (t : TestSet w) (ps : List (TestOp × BitVec w)) (h : ∀ p ∈ ps, p.1 = .mask0 ∨ p.1 = .mask1) :
    (addAll t ps).bound = t.bound := by
  induction ps generalizing t with
  | nil => rfl
  | cons p ps ih =>
    have e1 : addAll t (p :: ps) = addAll (t.add p.1 p.2) ps := rfl
    rw [e1, ih _ (fun q hq => h q (List.mem_cons_of_mem _ hq))]
    rcases h p List.mem_cons_self with hp | hp <;> simp [TestSet.add, hp, Bound.add]

/-- The mask of the set is satisfiable exactly when the mask predicates are. -/
theorem masksOk_iff {w : Nat} (h0 : 0 < w) (ps : List (TestOp × BitVec w)) : (setOf ps).mask.hasAny = true ↔ MasksOk ps := by
  have hf : (setOf ps).mask = (addAll (.default w) (ps.filter (fun p => p.1 = .mask0 ∨ p.1 = .mask1))).mask := mask_of_filter _ ps
  have hb : (addAll (.default w) (ps.filter (fun p => p.1 = .mask0 ∨ p.1 = .mask1))).bound = Bound.default w :=
    bound_of_masks _ _ (by intro p hp; simpa using (List.mem_filter.1 hp).2)
  rw [hf]
  constructor
  · intro ha
    refine ⟨(addAll (.default w) (ps.filter (fun p => p.1 = .mask0 ∨ p.1 = .mask1))).mask.ones, ?_⟩
    refine ((addAll_mem h0 (.default w) (ps.filter (fun p => p.1 = .mask0 ∨ p.1 = .mask1)) _).1 ⟨?_, ?_⟩).2
    · rw [hb]; exact (default_mem w _).1
    · rw [mask_test_iff]
      rw [mask_hasAny_iff] at ha
      exact fun i => ⟨ha i, id⟩
  · rintro ⟨v, hv⟩
    have := (addAll_mem h0 (.default w) _ v).2 ⟨default_mem w v, hv⟩
    exact mask_hasAny_of_test this.2

/-! ## C15: a set of predicates is their conjunction -/

/-- Testing a value against the set built from the predicates is testing it against each of them. -/
theorem set_conjunction {w : Nat} (hw : 1 < w) (hw2 : w < 2 ^ 32) (dbg : Bool) (ps : List (TestOp × BitVec w))
    (h : dbg = false ∨ MasksOk ps) (v : BitVec w) :
    ((setOf ps).test dbg v = .ok true ↔ AllowsAll ps v) ∧ ((setOf ps).test dbg v = .ok false ↔ ¬ AllowsAll ps v) := by
  rw [← setOf_mem (by omega) ps v]
  rw [← masksOk_iff (by omega)] at h
  rcases test_iff hw hw2 dbg (setOf ps) v h with ⟨e, m⟩ | ⟨e, m⟩ <;> rw [e] <;> simp [m]

example : MasksOk [(.mask1, 0x05#8), (.mask0, 0x0f#8), (.less, 9#8)] := ⟨0x05#8, by
  intro p hp
  rw [← holds_iff]
  simp at hp
  rcases hp with rfl | rfl <;> decide⟩
example : (setOf [(.mask1, 0x05#8), (.mask0, 0x0f#8), (.less, 9#8)]).test true 7#8 = .ok true
    ∧ (setOf [(.mask1, 0x05#8), (.mask0, 0x0f#8), (.less, 9#8)]).test true 13#8 = .ok false
    ∧ (setOf [(.mask1, 0x05#8), (.mask0, 0x0f#8), (.less, 9#8)]).test true 6#8 = .ok false := by decide

/-- With debug assertions, contradictory masks make every test panic. -/
theorem set_test_panics {w : Nat} (hw : 1 < w) (ps : List (TestOp × BitVec w)) (h : ¬ MasksOk ps) (v : BitVec w) :
    (setOf ps).test true v = .error .panic := by
  rw [← masksOk_iff (by omega)] at h
  simp [TestSet.test, TestSet.rules, TestSet.hasAny, TestSet.minValue, Mask.inSetD, h]

/-- Adding is order independent: the set itself is the same. -/
theorem bmax_comm' {w} (a b c : BitVec w) : bmax (bmax a b) c = bmax (bmax a c) b := by
  apply BitVec.eq_of_toNat_eq; simp only [bmax_toNat]; omega
theorem bmin_comm' {w} (a b c : BitVec w) : bmin (bmin a b) c = bmin (bmin a c) b := by
  apply BitVec.eq_of_toNat_eq; simp only [bmin_toNat]; omega
theorem bmax_maxV {w} (a : BitVec w) : bmax (maxV w) a = maxV w := by
  apply BitVec.eq_of_toNat_eq; simp only [bmax_toNat, maxV_toNat]; have := a.isLt; omega
theorem bmin_minV {w} (a : BitVec w) : bmin (minV w) a = minV w := by
  apply BitVec.eq_of_toNat_eq; simp only [bmin_toNat, minV_toNat]; omega

theorem add_comm {w} (t : TestSet w) (a b : TestOp × BitVec w) :
    (t.add a.1 a.2).add b.1 b.2 = (t.add b.1 b.2).add a.1 a.2 := by
  obtain ⟨a, x⟩ := a
  obtain ⟨b, y⟩ := b
  obtain ⟨⟨lo, hi⟩, ⟨on, ze⟩⟩ := t
  have e1 : ∀ (r : BitVec w), (Bound.empty w).add .equal r = Bound.empty w := by
    intro r; simp [Bound.add, Bound.empty, bmax_maxV, bmin_minV]
  have e2 : ∀ (r : BitVec w), (Bound.empty w).add .less r = Bound.empty w := by
    intro r; simp only [Bound.add]; cases decr r <;> simp [Bound.empty, bmin_minV]
  have e3 : ∀ (r : BitVec w), (Bound.empty w).add .greater r = Bound.empty w := by
    intro r; simp only [Bound.add]; cases inc r <;> simp [Bound.empty, bmax_maxV]
  simp only [TestSet.add]
  congr 1
  · cases a <;> cases b <;> try rfl
    all_goals first
      | (simp only [Bound.add]; rw [bmax_comm', bmin_comm'])
      | skip
    · show (Bound.add _ .less y) = (Bound.add (Bound.add _ .less y) .equal x)
      simp only [Bound.add]
      cases decr y with
      | none => exact (e1 x).symm
      | some d => simp [bmin_comm']
    · show (Bound.add _ .greater y) = (Bound.add (Bound.add _ .greater y) .equal x)
      simp only [Bound.add]
      cases inc y with
      | none => exact (e1 x).symm
      | some d => simp [bmax_comm']
    · show (Bound.add (Bound.add _ .less x) .equal y) = _
      simp only [Bound.add]
      cases decr x with
      | none => exact (e1 y)
      | some d => simp [bmin_comm']
    · simp only [Bound.add]
      cases decr x <;> cases decr y <;> simp [Bound.empty, bmin_minV, bmin_comm']
    · simp only [Bound.add]
      cases decr x <;> cases inc y <;> simp [Bound.empty, bmin_minV, bmax_maxV]
    · show (Bound.add (Bound.add _ .greater x) .equal y) = _
      simp only [Bound.add]
      cases inc x with
      | none => exact (e1 y)
      | some d => simp [bmax_comm']
    · simp only [Bound.add]
      cases inc x <;> cases decr y <;> simp [Bound.empty, bmin_minV, bmax_maxV]
    · simp only [Bound.add]
      cases inc x <;> cases inc y <;> simp [Bound.empty, bmax_maxV, bmax_comm']
  · cases a <;> cases b <;> try rfl
    · simp only [Mask.add, BitVec.and_assoc, BitVec.and_comm x y]
    · simp only [Mask.add, BitVec.or_assoc, BitVec.or_comm x y]

theorem addAll_perm {w} {ps qs : List (TestOp × BitVec w)} (h : ps.Perm qs) (t : TestSet w) :
    addAll t ps = addAll t qs := by
  induction h generalizing t with
  | nil => rfl
  | cons p _ ih => exact ih _
  | swap a b l =>
    show addAll ((t.add b.1 b.2).add a.1 a.2) l = addAll ((t.add a.1 a.2).add b.1 b.2) l
    rw [add_comm]
  | trans _ _ ih1 ih2 => rw [ih1, ih2]

theorem set_order {w} {ps qs : List (TestOp × BitVec w)} (h : ps.Perm qs) : setOf ps = setOf qs := addAll_perm h _

/-! ## C16: the search for the next candidate -/

/-- `Mask::in_set` finds the least number at or above the given one that has the required bits. -/
theorem mask_next {w : Nat} (hw : 1 < w) (hw2 : w < 2 ^ 32) (m : Mask w)
    (hm : ∃ x, m.test x = true) (v : BitVec w) : IsNext (fun x => m.test x = true) v (m.inSet v) := by
  obtain ⟨x, hx⟩ := hm
  exact inSet_isNext m v hw hw2 (mask_hasAny_of_test hx)

example : (Mask.mk 0x05#8 0x3d#8).inSet 0x16#8 = some 0x1d#8 ∧ (Mask.mk 0x05#8 0x3d#8).inSet 0x3e#8 = none := by decide

/-- `info` says whether the value is in the set, and gives the least value at or after it which is. -/
theorem next_candidate {w : Nat} (hw : 1 < w) (hw2 : w < 2 ^ 32) (dbg : Bool) (ps : List (TestOp × BitVec w))
    (hne : ∃ x, AllowsAll ps x) (v : BitVec w) :
    ∃ i, (setOf ps).info dbg v = .ok i ∧ IsNext (AllowsAll ps) v i.val ∧ (i.inSet = true ↔ AllowsAll ps v) := by
  have hm : ∀ x, (setOf ps).Mem x ↔ AllowsAll ps x := setOf_mem (by omega) ps
  have he : (setOf ps).Mem = AllowsAll ps := funext fun x => propext (hm x)
  obtain ⟨x, hx⟩ := hne
  obtain ⟨i, h1, h2, h3⟩ := info_eq hw hw2 dbg (setOf ps) ⟨x, (hm x).2 hx⟩ v
  rw [he] at h2 h3
  exact ⟨i, h1, h2, h3⟩

/-- `min_value` gives the least member of all. -/
theorem least_member {w : Nat} (hw : 1 < w) (hw2 : w < 2 ^ 32) (dbg : Bool) (ps : List (TestOp × BitVec w))
    (h : MasksOk ps) :
    ∃ r, (setOf ps).minValue dbg = .ok r ∧ IsNext (AllowsAll ps) 0#w r := by
  have he : (setOf ps).Mem = AllowsAll ps := funext fun x => propext (setOf_mem (by omega) ps x)
  obtain ⟨r, h1, h2⟩ := minValue_isNext hw hw2 dbg (setOf ps) ((masksOk_iff (by omega) ps).2 h)
  rw [he] at h2
  exact ⟨r, h1, h2⟩

example : ∃ x, AllowsAll [(.mask1, 0x05#8), (.mask0, 0x3d#8), (.greater, 0x16#8)] x := ⟨0x1d#8, by
  intro p hp
  rw [← holds_iff]
  simp at hp
  rcases hp with rfl | rfl | rfl <;> decide⟩
example : (setOf [(.mask1, 0x05#8), (.mask0, 0x3d#8), (.greater, 0x16#8)]).info true 0x02#8 = .ok ⟨false, some 0x1d#8⟩
    ∧ (setOf [(.mask1, 0x05#8), (.mask0, 0x3d#8), (.greater, 0x16#8)]).info true 0x1d#8 = .ok ⟨true, some 0x1d#8⟩
    ∧ (setOf [(.mask1, 0x05#8), (.mask0, 0x3d#8), (.greater, 0x16#8)]).info true 0x1e#8 = .ok ⟨false, some 0x25#8⟩ := by decide

/-- Without a member the search panics when debug assertions are on. -/
theorem next_empty_panics {w : Nat} (hw : 1 < w) (hw2 : w < 2 ^ 32) (ps : List (TestOp × BitVec w))
    (hne : ∀ x, ¬ AllowsAll ps x) (v : BitVec w) : (setOf ps).info true v = .error .panic := by
  have hm : ∀ x, (setOf ps).Mem x ↔ AllowsAll ps x := setOf_mem (by omega) ps
  unfold TestSet.info
  simp only [if_true]
  by_cases ha : (setOf ps).mask.hasAny = true
  · rcases hasAny_iff hw hw2 true (setOf ps) ha with ⟨_, x, hx⟩ | ⟨e, _⟩
    · exact absurd ((hm x).1 hx) (hne x)
    · rw [e]
  · have e : (setOf ps).hasAny true = .error .panic := by simp [TestSet.hasAny, TestSet.minValue, Mask.inSetD, ha]
    rw [e]

/-! ## C17: contradictory predicates -/

/-- Adding a predicate to a set whose masks stay consistent: an error exactly when no value is left, otherwise the
conjunction. -/
theorem try_add_exact {w : Nat} (hw : 1 < w) (hw2 : w < 2 ^ 32) (dbg : Bool) (ps : List (TestOp × BitVec w))
    (p : TestOp × BitVec w) (h : MasksOk (ps ++ [p])) :
    ((setOf ps).tryAdd dbg p.1 p.2 = .error (.err ()) ∧ ∀ x, ¬ AllowsAll (ps ++ [p]) x)
      ∨ ((setOf ps).tryAdd dbg p.1 p.2 = .ok (setOf (ps ++ [p])) ∧ ∃ x, AllowsAll (ps ++ [p]) x) := by
  have e : (setOf ps).add p.1 p.2 = setOf (ps ++ [p]) := by simp [setOf, List.foldl_append]
  have hm : ∀ x, (setOf (ps ++ [p])).Mem x ↔ AllowsAll (ps ++ [p]) x := setOf_mem (by omega) _
  rw [← masksOk_iff (by omega)] at h
  simp only [TestSet.tryAdd, e]
  rcases hasAny_iff hw hw2 dbg _ h with ⟨he, x, hx⟩ | ⟨he, hx⟩
  · exact .inr ⟨by rw [he], x, (hm x).1 hx⟩
  · exact .inl ⟨by rw [he], fun x hx' => hx x ((hm x).2 hx')⟩

theorem tryAdd_ok {w} {dbg : Bool} {t t' : TestSet w} {op : TestOp} {v : BitVec w} (h : t.tryAdd dbg op v = .ok t') :
    t' = t.add op v ∧ (t.add op v).hasAny dbg = .ok true := by
  simp only [TestSet.tryAdd] at h
  split at h
  · cases h
  · rename_i hh; cases h; exact ⟨rfl, hh⟩
  · cases h

theorem trySetFrom_ok {w} {dbg : Bool} {t t' : TestSet w} {ps : List (TestOp × BitVec w)}
    (h : trySetFrom dbg t ps = .ok t') : t' = addAll t ps ∧ (ps ≠ [] → t'.hasAny dbg = .ok true) := by
  induction ps generalizing t with
  | nil => cases h; exact ⟨rfl, fun h => absurd rfl h⟩
  | cons p ps ih =>
    simp only [trySetFrom] at h
    split at h
    · cases h
    · rename_i t1 h1
      obtain ⟨rfl, h2⟩ := tryAdd_ok h1
      obtain ⟨h3, h4⟩ := ih h
      refine ⟨h3, fun _ => ?_⟩
      cases ps with
      | nil => cases h; exact h2
      | cons q qs => exact h4 (by simp)

/-- In the shipped profile a list of predicates that is accepted has a value satisfying all of them, and the set
built is their conjunction. -/
theorem accepted_satisfiable {w : Nat} (hw : 1 < w) (hw2 : w < 2 ^ 32) (ps : List (TestOp × BitVec w)) (t : TestSet w)
    (h : trySetOf true ps = .ok t) : t = setOf ps ∧ ∃ x, AllowsAll ps x := by
  obtain ⟨h1, h2⟩ := trySetFrom_ok h
  refine ⟨h1, ?_⟩
  by_cases hp : ps = []
  · subst hp; exact ⟨0#w, by intro p hp; cases hp⟩
  · have h2 := h2 hp
    by_cases ha : t.mask.hasAny = true
    · rcases hasAny_iff hw hw2 true t ha with ⟨_, x, hx⟩ | ⟨e, _⟩
      · rw [h1] at hx; exact ⟨x, (setOf_mem (by omega) ps x).1 hx⟩
      · rw [e] at h2; cases h2
    · have e : t.hasAny true = .error .panic := by simp [TestSet.hasAny, TestSet.minValue, Mask.inSetD, ha]
      rw [e] at h2; cases h2

theorem trySetFrom_of_mem {w : Nat} (hw : 1 < w) (hw2 : w < 2 ^ 32) (dbg : Bool) (ps : List (TestOp × BitVec w)) (t : TestSet w)
    (x : BitVec w) (hx : (addAll t ps).Mem x) : trySetFrom dbg t ps = .ok (addAll t ps) := by
  induction ps generalizing t with
  | nil => rfl
  | cons p ps ih =>
    have e1 : addAll t (p :: ps) = addAll (t.add p.1 p.2) ps := rfl
    rw [e1] at hx
    have hm : (t.add p.1 p.2).Mem x := ((addAll_mem (by omega) _ _ _).1 hx).1
    have ha : (t.add p.1 p.2).hasAny dbg = .ok true := by
      rcases hasAny_iff hw hw2 dbg _ (mask_hasAny_of_test hm.2) with ⟨e, _⟩ | ⟨_, hn⟩
      · exact e
      · exact absurd hm (hn x)
    have : t.tryAdd dbg p.1 p.2 = .ok (t.add p.1 p.2) := by simp only [TestSet.tryAdd, ha]
    simp only [trySetFrom, this]
    exact ih _ hx

/-- A list of predicates that some value satisfies is accepted, in every profile. -/
theorem satisfiable_accepted {w : Nat} (hw : 1 < w) (hw2 : w < 2 ^ 32) (dbg : Bool) (ps : List (TestOp × BitVec w))
    (h : ∃ x, AllowsAll ps x) : trySetOf dbg ps = .ok (setOf ps) := by
  obtain ⟨x, hx⟩ := h
  exact trySetFrom_of_mem hw hw2 dbg ps _ x ((setOf_mem (by omega) ps x).2 hx)

/-- C15 for the sets the query interface builds: whatever the profile, if a list of predicates is accepted the set
tests exactly their conjunction, without panic. -/
theorem accepted_set_conjunction {w : Nat} (hw : 1 < w) (hw2 : w < 2 ^ 32) (dbg : Bool) (ps : List (TestOp × BitVec w))
    (t : TestSet w) (h : trySetOf dbg ps = .ok t) (v : BitVec w) :
    (t.test dbg v = .ok true ↔ AllowsAll ps v) ∧ (t.test dbg v = .ok false ↔ ¬ AllowsAll ps v) := by
  have h1 : t = setOf ps := (trySetFrom_ok h).1
  subst h1
  apply set_conjunction hw hw2
  cases dbg with
  | false => exact .inl rfl
  | true =>
    obtain ⟨_, x, hx⟩ := accepted_satisfiable hw hw2 ps _ h
    exact .inr ⟨x, fun p hp => hx p (List.mem_filter.1 hp).1⟩

example : trySetOf true [(.mask1, 0x05#8), (.mask0, 0x0f#8), (.less, 9#8)]
    = .ok (setOf [(.mask1, 0x05#8), (.mask0, 0x0f#8), (.less, 9#8)]) := by decide

/-- What is missing for C17: contradictory masks are a panic in the shipped profile... -/
theorem contradictory_masks_panic {w : Nat} (hw : 1 < w) (ps : List (TestOp × BitVec w)) (p : TestOp × BitVec w)
    (h : ¬ MasksOk (ps ++ [p])) : (setOf ps).tryAdd true p.1 p.2 = .error .panic := by
  have e : (setOf ps).add p.1 p.2 = setOf (ps ++ [p]) := by simp [setOf, List.foldl_append]
  rw [← masksOk_iff (by omega)] at h
  simp only [TestSet.tryAdd, e]
  simp [TestSet.hasAny, TestSet.minValue, Mask.inSetD, h]

/-- ... and without debug assertions they may be accepted. -/
theorem contradictory_masks_accepted :
    ∃ ps : List (TestOp × BitVec 8), (∀ x, ¬ AllowsAll ps x) ∧ ∃ t, trySetOf false ps = .ok t := by
  refine ⟨[(.mask1, 0x01#8), (.mask0, 0xfe#8)], ?_, setOf [(.mask1, 0x01#8), (.mask0, 0xfe#8)], by decide⟩
  intro x hx
  have h1 := hx (.mask1, 0x01#8) (by simp) 0 (by decide)
  have h2 := hx (.mask0, 0xfe#8) (by simp) 0 h1
  revert h2; decide

/-- C17 in full for the shipped profile, the panic on contradictory masks aside: a list is accepted exactly when some
value satisfies it. -/
theorem accepted_iff_satisfiable {w : Nat} (hw : 1 < w) (hw2 : w < 2 ^ 32) (ps : List (TestOp × BitVec w)) :
    (∃ t, trySetOf true ps = .ok t) ↔ ∃ x, AllowsAll ps x :=
  ⟨fun ⟨t, h⟩ => (accepted_satisfiable hw hw2 ps t h).2, fun h => ⟨_, satisfiable_accepted hw hw2 true ps h⟩⟩

/-- Rejection by a proper error instead of a panic, when the masks are consistent. -/
theorem contradiction_error_partial {w : Nat} (hw : 1 < w) (hw2 : w < 2 ^ 32) (dbg : Bool) (ps : List (TestOp × BitVec w))
    (h : MasksOk ps) (hn : ∀ x, ¬ AllowsAll ps x) : trySetOf dbg ps = .error (.err ()) := by
  have key : ∀ (qs pre : List (TestOp × BitVec w)), MasksOk (pre ++ qs) → (∀ x, ¬ AllowsAll (pre ++ qs) x) →
      (∃ x, AllowsAll pre x) → trySetFrom dbg (setOf pre) qs = .error (.err ()) := by
    intro qs
    induction qs with
    | nil => intro pre _ hn ⟨x, hx⟩; exact absurd (by simpa using hx) (hn x)
    | cons q qs ih =>
      intro pre hm hn hpre
      have hm' : MasksOk (pre ++ [q]) := by
        obtain ⟨v, hv⟩ := hm
        refine ⟨v, fun p hp => hv p ?_⟩
        rw [List.mem_filter] at hp ⊢
        refine ⟨?_, hp.2⟩
        have := hp.1
        simp only [List.mem_append, List.mem_cons, List.not_mem_nil, or_false] at this ⊢
        rcases this with h | h
        · exact .inl h
        · exact .inr (.inl h)
      simp only [trySetFrom]
      rcases try_add_exact hw hw2 dbg pre q hm' with ⟨e, _⟩ | ⟨e, hx⟩
      · rw [e]
      · rw [e]
        apply ih (pre ++ [q]) (by simpa using hm) (by simpa using hn) hx
  exact key ps [] h hn ⟨0#w, by intro p hp; cases hp⟩

example : MasksOk [(.less, 3#8), (.greater, 7#8)] ∧ ∀ x, ¬ AllowsAll [(TestOp.less, 3#8), (.greater, 7#8)] x := by
  refine ⟨⟨0#8, by intro p hp; simp at hp⟩, fun x hx => ?_⟩
  have h1 : x.toNat < 3 := hx (.less, 3#8) (by simp)
  have h2 : x.toNat > 7 := hx (.greater, 7#8) (by simp)
  omega

/-! ## C18: the printed rules of a set build the same set again -/

/-- The rules printed for the set admit the same values. -/
theorem rules_same {w : Nat} (hw : 1 < w) (hw2 : w < 2 ^ 32) (dbg : Bool) (ps : List (TestOp × BitVec w))
    (h : dbg = false ∨ MasksOk ps) :
    ∃ rs, (setOf ps).rules dbg = .ok rs ∧ ∀ v, AllowsAll rs v ↔ AllowsAll ps v := by
  rw [← masksOk_iff (by omega)] at h
  obtain ⟨rs, h1, h2⟩ := rules_iff hw hw2 dbg (setOf ps) h
  refine ⟨rs, h1, fun v => ?_⟩
  rw [← setOf_mem (by omega) ps v, ← h2 v, List.all_eq_true]
  constructor
  · intro h p hp; exact (holds_iff _ _ _).2 (h p hp)
  · intro h p hp; exact (holds_iff _ _ _).1 (h p hp)

/-- Reading the rules of an accepted set back gives a set that is accepted, has the same members and prints the same
rules. -/
theorem rules_again {w : Nat} (hw : 1 < w) (hw2 : w < 2 ^ 32) (dbg : Bool) (ps : List (TestOp × BitVec w))
    (hne : ∃ x, AllowsAll ps x) :
    ∃ rs t, (setOf ps).rules dbg = .ok rs ∧ trySetOf dbg rs = .ok t ∧ ∀ v, t.test dbg v = (setOf ps).test dbg v := by
  obtain ⟨x, hx⟩ := hne
  have hok : MasksOk ps := ⟨x, fun p hp => hx p (List.mem_filter.1 hp).1⟩
  obtain ⟨rs, h1, h2⟩ := rules_same hw hw2 dbg ps (.inr hok)
  have hx' := (h2 x).2 hx
  have hok' : MasksOk rs := ⟨x, fun p hp => hx' p (List.mem_filter.1 hp).1⟩
  refine ⟨rs, _, h1, satisfiable_accepted hw hw2 dbg rs ⟨x, hx'⟩, fun v => ?_⟩
  have a := set_conjunction hw hw2 dbg rs (.inr hok') v
  have b := set_conjunction hw hw2 dbg ps (.inr hok) v
  rw [h2 v] at a
  by_cases hv : AllowsAll ps v
  · rw [a.1.2 hv, b.1.2 hv]
  · rw [a.2.2 hv, b.2.2 hv]

example : (setOf [(TestOp.greater, 2#8), (.less, 9#8), (.mask1, 1#8), (.greater, 3#8)]).rules true
    = .ok [(.less, 9#8), (.greater, 3#8), (.mask1, 1#8)] := by decide

/-! ## C19, the tests of one field -/

/-- The compiled test of a set with a member decides membership. -/
theorem compileTest_iff {w : Nat} (t : TestSet w) (hne : ∃ x, t.Mem x) (v : BitVec w) :
    (compileTest t).elim True (fun f => f v = true) ↔ t.Mem v := by
  obtain ⟨x, hx⟩ := hne
  unfold compileTest
  split
  · rename_i h; rw [h]; simp [default_mem]
  · have h1 := bound_iter_iff t.bound v
    unfold Bound.iter at h1
    cases he : t.bound.asEq with
    | some e =>
      rw [he] at h1
      simp only [List.all_cons, List.all_nil, Bool.and_true] at h1
      simp only [Option.elim_some, h1, TestSet.Mem]
      unfold Bound.asEq at he
      split at he
      · rename_i hh
        refine ⟨fun hv => ⟨hv, ?_⟩, fun h => h.1⟩
        have hxv : x = v := BitVec.eq_of_toNat_eq (by
          have := hx.1.1; have := hx.1.2; have := hv.1; have := hv.2; rw [hh] at *; omega)
        rw [← hxv]; exact hx.2
      · cases he
    | none =>
      rw [he, List.all_append, Bool.and_eq_true] at h1
      simp only [Option.elim_some, Bool.and_eq_true, TestSet.Mem, ← h1, Mask.test]
      have e1 : ∀ (o : Option (BitVec w)) (op : TestOp),
          ((o.map (fun v => (op, v))).toList.all (fun r => r.1.holds v r.2)) = (o.map (op.holds v)).getD true := by
        intro o op; cases o <;> simp
      rw [e1, e1]
      have e2 : ((t.mask.zeros?.map (TestOp.mask0.holds v)).getD true) = TestOp.mask0.holds v t.mask.zeros := by
        unfold Mask.zeros?; split
        · rename_i h; rw [h, holds_max_zeros]; rfl
        · rfl
      have e3 : ((t.mask.ones?.map (TestOp.mask1.holds v)).getD true) = TestOp.mask1.holds v t.mask.ones := by
        unfold Mask.ones?; split
        · rename_i h; rw [h, holds_min_ones]; rfl
        · rfl
      rw [e2, e3]
      constructor
      · rintro ⟨⟨⟨a, b⟩, c⟩, d⟩; exact ⟨⟨a, b⟩, c, d⟩
      · rintro ⟨⟨a, b⟩, c, d⟩; exact ⟨⟨⟨a, b⟩, c⟩, d⟩

/-- The compiled test of a field whose set has a member decides the conjunction of its predicates. -/
theorem compiled_field {w : Nat} (hw : 1 < w) (ps : List (TestOp × BitVec w)) (hne : ∃ x, AllowsAll ps x) (v : BitVec w) :
    (compileTest (setOf ps)).elim True (fun f => f v = true) ↔ AllowsAll ps v := by
  rw [← setOf_mem (by omega) ps v]
  obtain ⟨x, hx⟩ := hne
  rw [← setOf_mem (by omega) ps x] at hx
  exact compileTest_iff _ ⟨x, hx⟩ v

example : (compileTest (setOf [(TestOp.equal, 5#8), (.mask1, 1#8)])).isSome = true := by decide

/-- The hypothesis is needed: for an equality that contradicts a mask the compiled test drops the mask. -/
theorem compiled_field_drops_mask :
    ∃ (ps : List (TestOp × BitVec 8)) (v : BitVec 8), (compileTest (setOf ps)).elim True (fun f => f v = true) ∧ ¬ AllowsAll ps v := by
  refine ⟨[(.equal, 4#8), (.mask1, 1#8)], 4#8, by show TestOp.equal.holds 4#8 4#8 = true; decide, fun h => ?_⟩
  have h1 := h (.mask1, 1#8) (by simp) 0 (by decide)
  revert h1; decide

end Verif.Props
