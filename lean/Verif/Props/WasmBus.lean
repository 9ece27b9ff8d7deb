import Verif.Spec.WasmBus
/-!
# C107: the bus of a browser
-/
namespace Verif.Props
open Verif.Spec Verif.WasmBus

theorem bus_concat (ops : List BusOp) (o : BusOp) :
    busAfter (ops ++ [o]) = match o with | .emit v => WasmBus.emit (busAfter ops) v | .next => (WasmBus.next (busAfter ops)).1 := by
  unfold busAfter
  rw [List.foldl_append]
  cases o <;> rfl

theorem highest_append (a b : List BusOp) : highest (a ++ b) = max (highest a) (highest b) := by
  induction a with
  | nil => simp [highest]
  | cons o a ih => cases o <;> simp [highest, ih, Nat.max_assoc]

theorem foldl_max_le {l : List Nat} {m n : Nat} (hm : m ≤ n) (h : ∀ x ∈ l, x ≤ n) : l.foldl max m ≤ n := by
  induction l generalizing m with
  | nil => exact hm
  | cons x l ih =>
    have := h x (by simp)
    exact ih (by omega) fun y hy => h y (by simp [hy])

/-- Induction over the newest event of a history. -/
theorem history_induction {P : List BusOp → Prop} (nil : P []) (add : ∀ ops o, P ops → P (ops ++ [o])) (ops : List BusOp) : P ops := by
  have : ∀ l : List BusOp, P l.reverse := by
    intro l
    induction l with
    | nil => exact nil
    | cons o l ih => rw [List.reverse_cons]; exact add _ _ ih
  have h := this ops.reverse
  rwa [List.reverse_reverse] at h

/-- **C107**: the value of the bus is the greatest value emitted. -/
theorem bus_value (ops : List BusOp) : (busAfter ops).val = highest ops ∧ ∀ x ∈ (busAfter ops).queue, x ≤ highest ops := by
  induction ops using history_induction with
  | nil => exact ⟨rfl, fun x hx => nomatch hx⟩
  | add ops o ih =>
    obtain ⟨h1, h2⟩ := ih
    rw [bus_concat, highest_append]
    cases o with
    | emit v =>
      simp only [WasmBus.emit, highest, Nat.max_zero]
      split
      · rename_i hv
        rw [h1] at hv
        exact ⟨by rw [h1]; omega, fun x hx => by have := h2 x hx; omega⟩
      · rename_i hv
        rw [h1] at hv
        refine ⟨by show v = _; omega, fun x hx => ?_⟩
        simp at hx
        rcases hx with hx | hx
        · have := h2 x hx; omega
        · omega
    | next =>
      have hl := foldl_max_le (Nat.zero_le _) h2
      simp only [WasmBus.next, highest, Nat.max_zero]
      rw [if_pos (by rw [h1]; exact hl)]
      exact ⟨h1, fun x hx => nomatch hx⟩

/-- **C107 is false**: whatever happened, a wait returns at once. -/
theorem bus_never_waits (ops : List BusOp) : ∃ v, (WasmBus.next (busAfter ops)).2 = .value v := by
  obtain ⟨h1, h2⟩ := bus_value ops
  have hl := foldl_max_le (Nat.zero_le _) h2
  unfold WasmBus.next
  rw [if_pos (by rw [h1]; exact hl)]
  exact ⟨_, rfl⟩

/-- **C107 is false**: a wait right after a wait returns 0, whatever was emitted. -/
theorem bus_wait_twice (ops : List BusOp) : (WasmBus.next (busAfter (ops ++ [.next]))).2 = .value 0 := by
  obtain ⟨h1, h2⟩ := bus_value ops
  have hl := foldl_max_le (Nat.zero_le _) h2
  have hb : busAfter (ops ++ [.next]) = ⟨(busAfter ops).val, []⟩ := by
    rw [bus_concat]
    simp only [WasmBus.next]
    rw [if_pos (by rw [h1]; exact hl)]
  rw [hb]
  simp [WasmBus.next]

theorem foldl_max_append (l : List Nat) (m v : Nat) : (l ++ [v]).foldl max m = max (l.foldl max m) v := by rw [List.foldl_append]; rfl

/-- Where the greatest value of the channel stands, after a wait and then emits alone. -/
theorem queue_since (ops : List BusOp) (vs : List Nat) :
    (busAfter (ops ++ [.next] ++ vs.map .emit)).queue.foldl max 0 = if highest ops < highest (vs.map .emit) then highest (vs.map .emit) else 0 := by
  have : ∀ l : List Nat, (busAfter (ops ++ [.next] ++ l.reverse.map .emit)).queue.foldl max 0 =
      if highest ops < highest (l.reverse.map .emit) then highest (l.reverse.map .emit) else 0 := by
    intro l
    induction l with
    | nil =>
      obtain ⟨h1, h2⟩ := bus_value ops
      simp only [List.reverse_nil, List.map_nil, List.append_nil, highest, Nat.not_lt_zero, if_false]
      rw [bus_concat]
      simp only [WasmBus.next]
      split <;> rfl
    | cons v l ih =>
      obtain ⟨h1, _⟩ := bus_value (ops ++ [.next] ++ l.reverse.map .emit)
      simp only [List.reverse_cons, List.map_append, List.map_cons, List.map_nil]
      rw [← List.append_assoc, bus_concat]
      rw [highest_append, highest_append] at h1
      rw [highest_append]
      simp only [highest, Nat.max_zero] at h1 ⊢
      simp only [WasmBus.emit, h1]
      by_cases hv : max (highest ops) (highest (l.reverse.map .emit)) ≥ v
      · rw [if_pos hv, ih]
        split <;> split <;> omega
      · rw [if_neg hv]
        simp only [foldl_max_append, ih]
        split <;> split <;> omega
  have h := this vs.reverse
  rwa [List.reverse_reverse] at h

/-- **C107**, what does hold: a wait yields the greatest value emitted since the one before if that is a new high, and 0 otherwise. -/
theorem bus_wait_partial (ops : List BusOp) (vs : List Nat) :
    (WasmBus.next (busAfter (ops ++ [.next] ++ vs.map .emit))).2 =
      .value (if highest ops < highest (vs.map .emit) then highest (vs.map .emit) else 0) := by
  obtain ⟨v, hv⟩ := bus_never_waits (ops ++ [.next] ++ vs.map .emit)
  rw [hv, ← queue_since]
  simp only [WasmBus.next] at hv
  split at hv
  · exact hv.symm
  · cases hv

/-- 5 and 3 are emitted, then a wait and 9 and 7: the wait yields 9, the next one 0. -/
theorem bus_example : (WasmBus.next (busAfter [.emit 5, .emit 3, .next, .emit 9, .emit 7])).2 = .value 9 ∧
    (WasmBus.next (busAfter [.emit 5, .emit 3, .next, .emit 9, .emit 7, .next])).2 = .value 0 := by decide

end Verif.Props
