import Verif.Model.PyWhile
import Verif.Props.Runtime
/-!
# C99: waiting in Python
-/
namespace Verif.Props
open Verif Verif.Env Verif.Matcher Verif.Spec Verif.Rt Verif.Ffi

variable {C : Type} {p : Prog C}

/-- When the time of a slice is up, the watch is as it was when the slice began. -/
theorem rounds_zero {q : Option (Bytes × Nat × BitVec 32)} {late : Nat → Bool} {others : Nat → List SaveEv} {call : Call C} {fuel i : Nat} {rt rt' : RT C}
    (h : rounds p call q late others fuel i rt = .ok (rt', 0)) : decided rt' q = none := by
  induction fuel generalizing i rt with
  | zero => unfold rounds at h; cases h
  | succ fuel ih =>
    unfold rounds at h
    split at h
    · cases h
    rename_i rt1 _
    cases hd : decided rt1 q with
    | some r =>
      rw [hd] at h
      simp only [Except.ok.injEq, Prod.mk.injEq] at h
      obtain ⟨rfl, rfl⟩ := h
      unfold decided at hd
      split at hd
      · cases hd
      · split at hd
        · cases hd
        · split at hd
          · cases hd
          · split at hd <;> cases hd
    | none =>
      rw [hd] at h
      simp only at h
      split at h
      · cases h; exact hd
      · split at h
        · cases h
        · cases h
        · exact ih h

theorem while_zero {id : Option Bytes} {late : Nat → Bool} {others : Nat → List SaveEv} {call : Call C} {fuel : Nat} {rt rt' : RT C}
    (h : runWhile p call id late others fuel rt = some (.ok (rt', 0))) : ∀ i, id = some i → status rt' i = status rt i := by
  rintro i rfl
  unfold runWhile at h
  cases hs : status rt i with
  | none => simp only [hs] at h; cases h
  | some x =>
    obtain ⟨n, nth⟩ := x
    simp only [hs, Option.some.injEq] at h
    have hd := rounds_zero h
    simp only [decided] at hd
    split at hd
    · cases hd
    · rename_i n' nth' e
      split at hd
      · cases hd
      · split at hd
        · cases hd
        · rename_i h1 h2
          rw [e]
          rw [Decidable.not_not.1 h1, Decidable.not_not.1 h2]

theorem while_none {id : Option Bytes} {late : Nat → Bool} {others : Nat → List SaveEv} {call : Call C} {fuel : Nat} {rt : RT C} :
    runWhile p call id late others fuel rt = none ↔ ∃ i, id = some i ∧ status rt i = none := by
  unfold runWhile
  cases id with
  | none => exact ⟨nofun, fun ⟨_, h, _⟩ => nomatch h⟩
  | some i =>
    cases hs : status rt i with
    | none => simp only [hs]; exact ⟨fun _ => ⟨i, rfl, hs⟩, fun _ => trivial⟩
    | some x => simp only [hs]; exact ⟨nofun, fun ⟨j, e, h⟩ => by cases e; rw [hs] at h; cases h⟩

theorem status_saves (rt : RT C) (es : List SaveEv) (i : Bytes) : status { rt with disk := runSaves rt.disk es } i = status rt i := rfl

/-- **C99**: waiting raises exactly if there is no watch with the id when it is called, however the time is cut. -/
theorem slices_raise {id : Option Bytes} {a : Around} {till : Option Nat} {call : Call C} {fuel : Nat} (n s : Nat) (rt : RT C) :
    pySlices p call id a till fuel (n + 1) s rt = none ↔ ∃ i, id = some i ∧ get rt.watches i = none := by
  have hst : ∀ (rt : RT C) i, status rt i = none ↔ get rt.watches i = none := by
    intro rt i; unfold status; cases get rt.watches i <;> simp
  have key : ∀ n s (rt : RT C), (∀ i, id = some i → status rt i ≠ none) → pySlices p call id a till fuel n s rt ≠ none := by
    intro n
    induction n with
    | zero => intro s rt _; exact nofun
    | succ n ih =>
      intro s rt h
      unfold pySlices
      split
      · rename_i e
        obtain ⟨i, e1, e2⟩ := while_none.1 e
        exact absurd e2 (h i e1)
      · exact nofun
      · rename_i rt1 r e
        split
        · exact nofun
        · rename_i hr
          have hr0 : r = 0 := Decidable.byContradiction fun hne => hr (.inl hne)
          subst hr0
          refine ih _ _ fun i hi => ?_
          rw [status_saves, while_zero e i hi]
          exact h i hi
  constructor
  · intro h
    apply Classical.byContradiction
    intro hc
    refine key (n + 1) s rt (fun i hi hs => hc ⟨i, hi, (hst rt i).1 hs⟩) h
  · rintro ⟨i, hi, hg⟩
    unfold pySlices
    rw [while_none.2 ⟨i, hi, (hst rt i).2 hg⟩]

/-- **C99**: the reasons for which waiting ends are those of the library, told of the watch as it was when the call began: 0 only if there is a timeout and a reading
of the clock lies behind it, -1 only if the same watch is still there and has counted packets since, 1 only if it is not there any more or nothing is watched. -/
theorem slices_end {id : Option Bytes} {a : Around} {till : Option Nat} {k fuel : Nat} (n s : Nat) {rt rt' : RT C} {r : Int} (hR : Reach p rt)
    (h : pySlices p (Rt.run p k) id a till fuel n s rt = some (.ok (rt', r))) :
    Reach p rt' ∧ ((r = 0 ∧ ∃ u j i, till = some u ∧ s ≤ j ∧ u < a.round j i) ∨
      (r = -1 ∧ ∃ i w w', id = some i ∧ get rt.watches i = some w ∧ get rt'.watches i = some w' ∧ w'.ctx.1 = w.ctx.1 ∧ w'.nthQuery ≠ w.nthQuery) ∨
      (r = 1 ∧ ((∃ i w, id = some i ∧ get rt.watches i = some w ∧ ∀ w', get rt'.watches i = some w' → w'.ctx.1 ≠ w.ctx.1) ∨
        (rt'.watches = [] ∧ rt'.pending = [])))) := by
  induction n generalizing s rt with
  | zero => cases h
  | succ n ih =>
    unfold pySlices at h
    split at h
    · cases h
    · cases h
    · rename_i rt1 r1 e
      obtain ⟨hR1, hend⟩ := run_while_ends hR e
      split at h
      · rename_i hc
        cases h
        refine ⟨hR1, ?_⟩
        rcases hend with ⟨h0, j, hj⟩ | h1
        · subst h0
          have ht := hc.resolve_left (by simp)
          refine .inl ⟨rfl, _, s, j, ht.symm, Nat.le_refl _, of_decide_eq_true hj⟩
        · exact .inr h1
      · rename_i hr
        have hr0 : r1 = 0 := Decidable.byContradiction fun hne => hr (.inl hne)
        subst hr0
        obtain ⟨h1, h2⟩ := ih (s + 1) (reach_saves hR1 _) h
        refine ⟨h1, ?_⟩
        have back : ∀ i w1, id = some i → get rt1.watches i = some w1 → ∃ w, get rt.watches i = some w ∧ w1.ctx.1 = w.ctx.1 ∧ w1.nthQuery = w.nthQuery := by
          intro i w1 hi hg
          have := while_zero e i hi
          unfold status at this
          rw [hg] at this
          cases hg' : get rt.watches i with
          | none => rw [hg'] at this; cases this
          | some w =>
            rw [hg'] at this
            simp only [Option.map_some, Option.some.injEq, Prod.mk.injEq] at this
            exact ⟨w, rfl, this.1, this.2⟩
        rcases h2 with ⟨h0, u, j, i, hu, hj, hlt⟩ | ⟨h0, i, w, w', hi, hg, hg', e1, e2⟩ | ⟨h0, ⟨i, w, hi, hg, hall⟩ | hnone⟩
        · exact .inl ⟨h0, u, j, i, hu, by omega, hlt⟩
        · obtain ⟨w0, b1, b2, b3⟩ := back i w hi hg
          exact .inr (.inl ⟨h0, i, w0, w', hi, b1, hg', e1.trans b2, by rw [← b3]; exact e2⟩)
        · obtain ⟨w0, b1, b2, b3⟩ := back i w hi hg
          exact .inr (.inr ⟨h0, .inl ⟨i, w0, hi, b1, fun w' hw' => by rw [← b2]; exact hall w' hw'⟩⟩)
        · exact .inr (.inr ⟨h0, .inr hnone⟩)

theorem one_second {c u b b' n : Nat} (h : u ≤ b + c * (n + 1 + 1)) (h1 : b + c < b') : u ≤ b' + c * (n + 1) := by
  rw [Nat.mul_succ] at h
  generalize c * (n + 1) = x at h ⊢
  omega

/-- **C99**: with a timeout, after as many seconds as it has no slice begins any more: the number of slices is bounded, so waiting ends if each slice does. -/
theorem slices_bounded {id : Option Bytes} {a : Around} {u k fuel : Nat} (hc : ∀ s i, a.round s i ≤ a.begin (s + 1)) (n s : Nat) (rt : RT C) (hR : Reach p rt)
    (hu : u ≤ a.begin s + 1000000 * (n + 1)) (m : Nat) :
    pySlices p (Rt.run p k) id a (some u) fuel (n + 1 + m) s rt = pySlices p (Rt.run p k) id a (some u) fuel (n + 1) s rt := by
  induction n generalizing s rt with
  | zero =>
    rw [show 0 + 1 + m = m + 1 by omega]
    unfold pySlices
    have hch : checkAt a (some u) s = u := by unfold checkAt; simp only; omega
    rw [hch]
    split
    · rfl
    · rfl
    · rw [if_pos (.inr rfl), if_pos (.inr rfl)]
  | succ n ih =>
    rw [show n + 1 + 1 + m = (n + 1 + m) + 1 by omega]
    conv => lhs; unfold pySlices
    conv => rhs; unfold pySlices
    split
    · rfl
    · rfl
    · rename_i rt1 r e
      by_cases hr : r ≠ 0 ∨ some (checkAt a (some u) s) = some u
      · rw [if_pos hr, if_pos hr]
      · rw [if_neg hr, if_neg hr]
        have hr0 : r = 0 := Decidable.byContradiction fun hne => hr (.inl hne)
        subst hr0
        obtain ⟨hR1, hend⟩ := run_while_ends hR e
        refine ih (s + 1) _ (reach_saves hR1 _) ?_
        have hne : checkAt a (some u) s ≠ u := fun h => hr (.inr (by rw [h]))
        have hch : checkAt a (some u) s = a.begin s + 1000000 := by unfold checkAt at hne ⊢; simp only at hne ⊢; omega
        rcases hend with ⟨_, j, hj⟩ | ⟨h0, _⟩ | ⟨h0, _⟩
        · have h1 : checkAt a (some u) s < a.round s j := of_decide_eq_true hj
          have h2 := hc s j
          rw [hch] at h1
          exact one_second hu (Nat.lt_of_lt_of_le h1 h2)
        · cases h0
        · cases h0

/-- **C99**: `lk_process_while` as it is called. -/
theorem process_while_end {id : Option Bytes} {timeout : Option Bytes} {start : Nat} {a : Around} {k fuel n : Nat} {rt rt' : RT C} {r : Int} (hR : Reach p rt)
    (h : pyProcessWhile p (Rt.run p k) id timeout start a fuel n rt = some (.ok (rt', r))) :
    Reach p rt' ∧ ((r = 0 ∧ ∃ b j i, timeout = some b ∧ b.length = 8 ∧ beNat b ≠ 0 ∧ start + beNat b < a.round j i) ∨
      (r = -1 ∧ ∃ i w w', id = some i ∧ get rt.watches i = some w ∧ get rt'.watches i = some w' ∧ w'.ctx.1 = w.ctx.1 ∧ w'.nthQuery ≠ w.nthQuery) ∨
      (r = 1 ∧ ((∃ i w, id = some i ∧ get rt.watches i = some w ∧ ∀ w', get rt'.watches i = some w' → w'.ctx.1 ≠ w.ctx.1) ∨
        (rt'.watches = [] ∧ rt'.pending = [])))) := by
  unfold pyProcessWhile at h
  cases ht : pyTimeout timeout with
  | none => rw [ht] at h; cases h
  | some t =>
    rw [ht] at h
    obtain ⟨h1, h2⟩ := slices_end n 0 hR h
    refine ⟨h1, ?_⟩
    rcases h2 with ⟨h0, u, j, i, hu, _, hlt⟩ | h2
    · refine .inl ⟨h0, ?_⟩
      cases t with
      | none => cases hu
      | some t =>
        simp only [Option.map_some, Option.some.injEq] at hu
        cases timeout with
        | none => cases ht
        | some b =>
          unfold pyTimeout at ht
          simp only at ht
          split at ht
          · rename_i hb
            split at ht
            · cases ht
            · rename_i hz
              cases ht
              exact ⟨b, j, i, rfl, hb, hz, by omega⟩
          · cases ht
    · exact .inr h2

/-- **C99**: an exception is raised exactly for a timeout that is not eight bytes or an id that is not watched. -/
theorem process_while_raise {id : Option Bytes} {timeout : Option Bytes} {start : Nat} {a : Around} {call : Call C} {fuel n : Nat} {rt : RT C} :
    pyProcessWhile p call id timeout start a fuel (n + 1) rt = none ↔
      (∃ b, timeout = some b ∧ b.length ≠ 8) ∨ ∃ i, id = some i ∧ get rt.watches i = none := by
  have hpt : pyTimeout timeout = none ↔ ∃ b, timeout = some b ∧ b.length ≠ 8 := by
    cases timeout with
    | none => exact ⟨nofun, fun ⟨_, h, _⟩ => nomatch h⟩
    | some b =>
      unfold pyTimeout
      by_cases hb : b.length = 8
      · simp only [if_pos hb]
        constructor
        · intro h; split at h <;> cases h
        · rintro ⟨_, h, h'⟩; cases h; exact absurd hb h'
      · simp only [if_neg hb]
        exact ⟨fun _ => ⟨b, rfl, hb⟩, fun _ => trivial⟩
  unfold pyProcessWhile
  cases ht : pyTimeout timeout with
  | none => exact ⟨fun _ => .inl (hpt.1 ht), fun _ => rfl⟩
  | some t =>
    simp only
    rw [slices_raise]
    constructor
    · exact .inr
    · rintro (h | h)
      · rw [hpt.2 h] at ht; cases ht
      · exact h

/-! ### cases -/

/-- A clock on which every slice has ten rounds of 0.2 seconds. -/
def exAround : Around where
  begin s := s * 2000000
  round s i := s * 2000000 + i * 200000
  others s i := if s = 1 ∧ i = 2 then [⟨fun _ => .ok, 200, [(exPkt [[65]] 9 7, .pending)]⟩] else []
  between _ := []

/-- Two watches and a packet in the second slice: the watch that ends with it gives 1, the other -1; with a timeout of 1.5 seconds the answer is 0, and an id that is not
watched raises. -/
theorem exWhile :
    (match Rt.run exProg 20 (start exDb) (exMain [.watch [1] ⟨.log, true⟩ (exPreds [createStmt .greater 8]) 2, .watch [2] ⟨.log, true⟩ (exPreds []) 0]) with
      | .ok (rt, _) => ([([1], none), ([2], none), ([2], some 1500000), ([2], some 9), ([3], none)] : List (Bytes × Option Nat)).map (fun q =>
          match pyProcessWhile exProg (Rt.run exProg 20) (some q.1) (q.2.map (beBytes 8)) 0 exAround 12 3 rt with
        | some (.ok (_, r)) => some r
        | _ => none)
      | .error _ => []) = [some 1, some (-1), some 0, some 0, none] := by decide +kernel

end Verif.Props
