import Verif.Lemmas.Runtime2
/-!
# The invariant of the runtime: requests
-/
namespace Verif.Rt
open Verif Verif.Pkt Verif.Pred Verif.Env Verif.Query Verif.Matcher Verif.Spec

variable {C : Type} {p : Prog C} {call : Call C}

/-- `Rel` for the functions that change the list of watches themselves. -/
structure Mild (rt rt' : RT C) (X : List Nat) : Prop where
  locked : rt'.locked = rt.locked
  draining : rt'.draining = rt.draining
  snap : rt'.snap = rt.snap
  upto : rt'.upto = rt.upto
  next : rt.next ≤ rt'.next
  keep : ∀ x ∈ X, about x rt'.trace = about x rt.trace
  drainP : rt.draining = true → rt'.pending = rt.pending

theorem Rel.mild {rt rt' : RT C} {X : List Nat} (h : Rel rt rt' X) : Mild rt rt' X :=
  ⟨h.locked, h.draining, h.snap, h.upto, h.next, h.keep, h.drainP⟩
theorem Mild.refl (rt : RT C) (X : List Nat) : Mild rt rt X := (Rel.refl rt X).mild
theorem Mild.trans {a b c : RT C} {X : List Nat} (h1 : Mild a b X) (h2 : Mild b c X) : Mild a c X :=
  ⟨h2.locked.trans h1.locked, h2.draining.trans h1.draining, h2.snap.trans h1.snap, h2.upto.trans h1.upto, Nat.le_trans h1.next h2.next,
    fun x hx => (h2.keep x hx).trans (h1.keep x hx), fun h => (h2.drainP (h1.draining.trans h)).trans (h1.drainP h)⟩
theorem Mild.sub {a b : RT C} {X Y : List Nat} (h : Mild a b X) (hs : ∀ y ∈ Y, y ∈ X) : Mild a b Y := { h with keep := fun x hx => h.keep x (hs x hx) }

theorem nums_append (a b : List (Watch (Nat × C))) : nums (a ++ b) = nums a ++ nums b := List.map_append
theorem nums_cons (w : Watch (Nat × C)) (b : List (Watch (Nat × C))) : nums (w :: b) = w.ctx.1 :: nums b := rfl
theorem nums_nil : nums ([] : List (Watch (Nat × C))) = [] := rfl

theorem perm_count {a b : List Nat} (h : ∀ x, a.count x = b.count x) : a.Perm b := List.perm_iff_count.2 h

theorem register_perm (now : Nat) (m : Matcher (Nat × C)) (w : Watch (Nat × C)) :
    (nums (register now m w).1 ++ nums (register now m w).2.toList).Perm
      (if w.recv.high.toNat > now then w.ctx.1 :: nums m else nums m) := by
  have hb := before_append m w.queryId
  unfold register
  cases hf : fromId m w.queryId with
  | nil =>
    rw [hf, List.append_nil] at hb
    simp only [decide_eq_true_iff]
    by_cases hk : w.recv.high.toNat > now
    · rw [if_pos hk, if_pos hk, hb]
      refine perm_count fun x => ?_
      simp only [nums_append, nums_cons, nums_nil, Option.toList, List.count_append, List.count_cons, List.count_nil]
      omega
    · rw [if_neg hk, if_neg hk]
      simp [nums_nil]
  | cons e r =>
    rw [hf] at hb
    simp only [decide_eq_true_iff]
    by_cases he : e.queryId = w.queryId
    · rw [if_pos he]
      by_cases hk : w.recv.high.toNat > now
      · rw [if_pos hk, if_pos hk]
        conv => rhs; rw [← hb]
        refine perm_count fun x => ?_
        simp only [nums_append, nums_cons, nums_nil, Option.toList, List.count_append, List.count_cons, List.count_nil]
        omega
      · rw [if_neg hk, if_neg hk]
        conv => rhs; rw [← hb]
        refine perm_count fun x => ?_
        simp only [nums_append, nums_cons, nums_nil, Option.toList, List.count_append, List.count_cons, List.count_nil]
        omega
    · rw [if_neg he]
      by_cases hk : w.recv.high.toNat > now
      · rw [if_pos hk, if_pos hk]
        conv => rhs; rw [← hb]
        refine perm_count fun x => ?_
        simp only [nums_append, nums_cons, nums_nil, Option.toList, List.count_append, List.count_cons, List.count_nil]
        omega
      · rw [if_neg hk, if_neg hk]
        simp [nums_nil]

theorem deregister_perm (m : Matcher (Nat × C)) (id : Bytes) (range : Bool) :
    (nums (deregister m id range).1 ++ nums (deregister m id range).2).Perm (nums m) := by
  have hb := before_append m id
  unfold deregister
  cases hf : fromId m id with
  | nil => simp [nums_nil]
  | cons e r =>
    rw [hf] at hb
    simp only
    split
    · split
      · conv => rhs; rw [← hb]
        refine perm_count fun x => ?_
        simp only [nums_append, nums_cons, nums_nil, List.count_append, List.count_cons, List.count_nil]
        omega
      · conv => rhs; rw [← hb, ← List.takeWhile_append_dropWhile (p := fun v : Watch (Nat × C) => id.isPrefixOf v.queryId) (l := e :: r)]
        refine perm_count fun x => ?_
        simp only [nums_append, List.count_append]
        omega
    · simp [nums_nil]

theorem deregister_mem {m : Matcher (Nat × C)} (hs : Sorted m) (id : Bytes) (range : Bool) :
    Sorted (deregister m id range).1 ∧ (∀ w ∈ (deregister m id range).1, w ∈ m) ∧ ∀ w ∈ (deregister m id range).2, w ∈ m ∧ (w.queryId = id ∨ range = true ∧ id <+: w.queryId) := by
  cases range with
  | false =>
    obtain ⟨h1, h2, h3⟩ := deregister_one hs id
    refine ⟨h1, fun w hw => ((h2 w).1 hw).1, fun w hw => ?_⟩
    rw [h3, Option.mem_toList, get_iff hs] at hw
    exact ⟨hw.1, .inl hw.2⟩
  | true =>
    obtain ⟨h1, h2⟩ := deregister_range hs id
    cases hg : get m id with
    | none => rw [h1 hg]; exact ⟨hs, fun _ h => h, fun _ h => by cases h⟩
    | some x =>
      obtain ⟨h3, h4⟩ := h2 (by rw [hg]; rfl)
      rw [h3, h4]
      exact ⟨List.Pairwise.filter _ hs, fun w hw => (List.mem_filter.1 hw).1, fun w hw =>
        ⟨(List.mem_filter.1 hw).1, .inr ⟨rfl, List.isPrefixOf_iff_prefix.1 (List.mem_filter.1 hw).2⟩⟩⟩

theorem registerNow_spec (hq : QuietProg p) (hg : Good call) {rt rt' : RT C} {pos : Nat} {X : List Nat} {w : Watch (Nat × C)} (hl : rt.locked = true)
    (h : Inv rt pos (w.ctx.1 :: X)) (he : Entry (about w.ctx.1 rt.trace) rt.snap.log pos w)
    (ho : registerNow p call rt w = .ok rt') : Inv rt' pos X ∧ Mild rt rt' X := by
  obtain ⟨s1, s2, s3⟩ := register_spec (p.clock rt.ticks) h.sorted w
  have hp := register_perm (p.clock rt.ticks) rt.watches w
  have hold : ∀ o, (register (p.clock rt.ticks) rt.watches w).2 = some o → o ∈ rt.watches := by
    intro o hx
    rw [s3, get_iff h.sorted] at hx
    exact hx.1
  unfold registerNow at ho
  simp only at ho
  generalize hr : register (p.clock rt.ticks) rt.watches w = r at *
  obtain ⟨m, old⟩ := r
  simp only at ho hp s1 s2 hold
  -- the new list
  have main : ∃ rt1 : RT C, rt1 = (if w.recv.high.toNat > p.clock rt.ticks then { rt with ticks := rt.ticks + 1, watches := m }
      else { rt with ticks := rt.ticks + 1, watches := m }.note (.gone w.ctx.1 (.late (p.clock rt.ticks)))) ∧ Inv rt1 pos (nums old.toList ++ X) ∧ Mild rt rt1 (nums old.toList ++ X) ∧
      (∀ o, old = some o → Entry (about o.ctx.1 rt1.trace) rt1.snap.log pos o) := by
    refine ⟨_, rfl, ?_⟩
    by_cases hk : w.recv.high.toNat > p.clock rt.ticks
    · rw [if_pos hk] at hp ⊢
      refine ⟨h.change rfl rfl rfl rfl s1 ?_ h.posle (fun x hx => ?_) h.pend (fun hx => absurd (hl.symm.trans hx) (by simp)),
        ⟨rfl, rfl, rfl, rfl, Nat.le_refl _, fun _ _ => rfl, fun _ => rfl⟩, fun o hx => h.watch o (hold o hx)⟩
      · unfold owned
        refine perm_count fun x => ?_
        have := hp.count_eq x
        simp only [List.count_append, List.count_cons] at this ⊢
        omega
      · rcases (s2 x).1 hx with ⟨rfl, _⟩ | ⟨hx, _⟩
        · exact he
        · exact h.watch x hx
    · rw [if_neg hk] at hp ⊢
      have h1 : Inv { rt with ticks := rt.ticks + 1, watches := m } pos (w.ctx.1 :: (nums old.toList ++ X)) := by
        refine h.change rfl rfl rfl rfl s1 ?_ h.posle (fun x hx => ?_) h.pend (fun hx => absurd (hl.symm.trans hx) (by simp))
        · unfold owned
          refine perm_count fun x => ?_
          have := hp.count_eq x
          simp only [List.count_append, List.count_cons] at this ⊢
          omega
        · rcases (s2 x).1 hx with ⟨_, hx⟩ | ⟨hx, _⟩
          · exact absurd hx hk
          · exact h.watch x hx
      have hnd := h1.nodupX
      rw [List.nodup_cons] at hnd
      have hne : ∀ x ∈ nums old.toList ++ X, about x ({ rt with ticks := rt.ticks + 1, watches := m }.note (.gone w.ctx.1 (.late (p.clock rt.ticks)))).trace = about x rt.trace := by
        intro x hx
        rw [note_ne]
        intro hx'
        have hx' : w.ctx.1 = x := hx'
        exact hnd.1 (hx' ▸ hx)
      refine ⟨(h1.note (by simp [Ev.num])).finish ?_, ⟨rfl, rfl, rfl, rfl, Nat.le_refl _, hne, fun _ => rfl⟩, fun o hx => ?_⟩
      · rw [note_eq (n := w.ctx.1) _ rfl]
        exact he.idle h.posle (why := .late _) (Nat.le_of_not_lt hk)
      · rw [hne o.ctx.1 (by rw [hx]; simp [nums])]
        exact h.watch o (hold o hx)
  obtain ⟨rt1, e1, i1, r1, en⟩ := main
  rw [← e1] at ho
  cases old with
  | none => cases ho; exact ⟨i1, r1⟩
  | some o =>
    obtain ⟨i2, r2⟩ := dropWatch_spec hq hg (X := X) i1 ((en o rfl).idle i1.posle (why := .stopped .replaced) trivial) ho
    exact ⟨i2, (r1.sub (fun y hy => List.mem_append_right _ hy)).trans r2.mild⟩

theorem deregisterNow_spec (hq : QuietProg p) (hg : Good call) {rt rt' : RT C} {pos : Nat} {X : List Nat} {id : Bytes} {range : Bool} (hl : rt.locked = true)
    (h : Inv rt pos X) (ho : deregisterNow p call rt id range = .ok rt') : Inv rt' pos X ∧ Mild rt rt' X := by
  obtain ⟨s1, s2, s3⟩ := deregister_mem h.sorted id range
  have hp := deregister_perm rt.watches id range
  unfold deregisterNow at ho
  have h1 : Inv { rt with watches := (deregister rt.watches id range).1 } pos (nums (deregister rt.watches id range).2 ++ X) := by
    refine h.change rfl rfl rfl rfl s1 ?_ h.posle (fun x hx => h.watch x (s2 x hx)) h.pend (fun hx => absurd (hl.symm.trans hx) (by simp))
    unfold owned
    refine perm_count fun x => ?_
    have := hp.count_eq x
    simp only [List.count_append] at this ⊢
    omega
  obtain ⟨i2, r2⟩ := dropWatches_spec hq hg (why := .closed id range) (fun w hw => (s3 w hw).2) h1 (fun w hw => h.watch w (s3 w hw).1) ho
  exact ⟨i2, r2.locked, r2.draining, r2.snap, r2.upto, r2.next, r2.keep, r2.drainP⟩

theorem lockFor_spec {f : RT C → Except RStop (RT C)} {rt rt' : RT C} {pos : Nat} {X Y : List Nat} (hl : rt.locked = false) (h : Inv rt pos Y)
    (hf : ∀ rt', f { rt with locked := true } = .ok rt' → Inv { rt with locked := true } pos Y → Inv rt' pos X ∧ Mild { rt with locked := true } rt' X)
    (ho : lockFor f rt = .ok rt') : Inv rt' pos X ∧ Rel rt rt' X := by
  unfold lockFor at ho
  cases hc : f { rt with locked := true } with
  | error e => rw [hc] at ho; cases ho
  | ok rt1 =>
    rw [hc] at ho
    cases ho
    have h1 : Inv { rt with locked := true } pos Y := h.change rfl rfl rfl rfl h.sorted (List.Perm.refl _) h.posle h.watch h.pend (fun hx => by cases hx)
    obtain ⟨i, r⟩ := hf rt1 hc h1
    obtain ⟨f1, f2, f3⟩ := h.free hl
    refine ⟨i.change rfl rfl rfl rfl i.sorted (List.Perm.refl _) i.posle i.watch i.pend (fun _ => ⟨?_, ?_, ?_⟩),
      ⟨hl.symm, r.draining, r.snap, r.upto, r.next, r.keep, (fun hx => absurd (hl.symm.trans hx) (by simp)), r.drainP⟩⟩
    · rw [r.snap]; exact f1
    · exact r.upto.trans f2
    · exact r.draining.trans f3

theorem push_ok {rt rt' : RT C} {x : Pending C} (ho : rt.push x = .ok rt') : rt.draining = false ∧ rt' = { rt with pending := rt.pending ++ [x] } := by
  unfold RT.push at ho
  cases hd : rt.draining with
  | true => rw [hd] at ho; cases ho
  | false => rw [hd] at ho; cases ho; exact ⟨rfl, rfl⟩

theorem close_spec (hq : QuietProg p) (hg : Good call) {rt rt' : RT C} {pos : Nat} {X : List Nat} {id : Bytes} {range : Bool}
    (h : Inv rt pos X) (ho : close p call rt id range = .ok rt') : Inv rt' pos X ∧ Rel rt rt' X := by
  unfold close at ho
  cases hl : rt.locked with
  | true =>
    rw [hl, if_pos rfl] at ho
    obtain ⟨hd, rfl⟩ := push_ok ho
    refine ⟨h.change rfl rfl rfl rfl h.sorted ?_ h.posle h.watch (fun w hw => ?_) h.free,
      ⟨rfl, rfl, rfl, rfl, Nat.le_refl _, fun _ _ => rfl, fun _ => rfl, fun hx => by rw [hd] at hx; cases hx⟩⟩
    · unfold owned pendNums
      rw [List.filterMap_append]
      show (nums rt.watches ++ (rt.pending.filterMap pendNum ++ []) ++ X).Perm _
      rw [List.append_nil]
    · have hw : Pending.new w ∈ rt.pending ++ [.stop id range] := hw
      rcases List.mem_append.1 hw with hw | hw
      · exact h.pend w hw
      · simp at hw
  | false =>
    rw [hl] at ho
    simp only [Bool.false_eq_true, if_false] at ho
    exact lockFor_spec hl h (fun rt1 h1 hi => deregisterNow_spec hq hg rfl hi h1) ho

end Verif.Rt
