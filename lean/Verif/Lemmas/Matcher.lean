import Verif.Spec.Matcher
import Verif.Lemmas.Tree9
/-!
# The list of watches is sorted
-/
namespace Verif.Matcher
open Verif Verif.Pkt Verif.Pred Verif.Spec Verif.Query

variable {C : Type}

/-- In the order of the ids, without repetition. -/
def Sorted (m : Matcher C) : Prop := m.Pairwise (fun a b => bytesLt a.queryId b.queryId = true)

theorem before_append (m : Matcher C) (id : Bytes) : before m id ++ fromId m id = m := List.takeWhile_append_dropWhile

theorem before_lt {m : Matcher C} {id : Bytes} {x : Watch C} (h : x ∈ before m id) : bytesLt x.queryId id = true :=
  List.all_eq_true.1 (List.all_takeWhile (p := fun e : Watch C => bytesLt e.queryId id)) x h

theorem fromId_ge {m : Matcher C} (hs : Sorted m) {id : Bytes} {x : Watch C} (h : x ∈ fromId m id) : bytesLt x.queryId id = false := by
  unfold fromId at h
  rw [Query.dropWhile_filter] at h
  · simpa using (List.mem_filter.1 h).2
  · exact hs.imp (fun hab hb => bytesLt_trans hab hb)

theorem sorted_unique {m : Matcher C} (hs : Sorted m) {x y : Watch C} (hx : x ∈ m) (hy : y ∈ m) (h : x.queryId = y.queryId) : x = y := by
  induction m with
  | nil => cases hx
  | cons a m ih =>
    rw [Sorted, List.pairwise_cons] at hs
    cases hx with
    | head =>
      cases hy with
      | head => rfl
      | tail _ hy => have := hs.1 y hy; rw [h, bytesLt_irrefl] at this; cases this
    | tail _ hx =>
      cases hy with
      | head => have := hs.1 x hx; rw [h, bytesLt_irrefl] at this; cases this
      | tail _ hy => exact ih hs.2 hx hy

theorem head_eq {m : Matcher C} (hs : Sorted m) {id : Bytes} {e : Watch C} {r : Matcher C} (h : fromId m id = e :: r) {x : Watch C}
    (hx : x ∈ m) (hid : x.queryId = id) : x = e ∧ e.queryId = id := by
  have hxm : x ∈ fromId m id := by
    rw [← before_append m id] at hx
    rcases List.mem_append.1 hx with hx | hx
    · have := before_lt hx; rw [hid, bytesLt_irrefl] at this; cases this
    · exact hx
  have hs' : Sorted (fromId m id) := List.Pairwise.sublist (List.dropWhile_sublist _) hs
  have hge := fromId_ge hs (x := e) (by rw [h]; simp)
  rw [h] at hxm hs'
  rw [Sorted, List.pairwise_cons] at hs'
  cases hxm with
  | head => exact ⟨rfl, hid⟩
  | tail _ hx' => have := hs'.1 x hx'; rw [hid, hge] at this; cases this

theorem get_iff {m : Matcher C} (hs : Sorted m) {id : Bytes} {w : Watch C} : get m id = some w ↔ w ∈ m ∧ w.queryId = id := by
  unfold get
  cases h : fromId m id with
  | nil =>
    simp only [reduceCtorEq, false_iff, not_and]
    intro hw hid
    rw [← before_append m id, h, List.append_nil] at hw
    have := before_lt hw
    rw [hid, bytesLt_irrefl] at this; cases this
  | cons e r =>
    have hem : e ∈ m := by rw [← before_append m id, h]; simp
    simp only
    split
    · rename_i he
      rw [Option.some.injEq]
      constructor
      · rintro rfl; exact ⟨hem, he⟩
      · rintro ⟨hw, hid⟩; exact (head_eq hs h hw hid).1.symm
    · rename_i he
      simp only [reduceCtorEq, false_iff, not_and]
      intro hw hid
      exact he (head_eq hs h hw hid).2

theorem get_none {m : Matcher C} (hs : Sorted m) {id : Bytes} : get m id = none ↔ ∀ w ∈ m, w.queryId ≠ id := by
  cases h : get m id with
  | none =>
    refine ⟨fun _ w hw hid => ?_, fun _ => rfl⟩
    rw [(get_iff hs).2 ⟨hw, hid⟩] at h; cases h
  | some w =>
    obtain ⟨hw, hid⟩ := (get_iff hs).1 h
    simp only [reduceCtorEq, false_iff]
    intro hn; exact hn w hw hid

/-- Two sorted lists that agree as sets answer alike. -/
theorem get_of_mem {m m' : Matcher C} (hs : Sorted m) (hs' : Sorted m') {id : Bytes}
    (h : ∀ w, w.queryId = id → (w ∈ m' ↔ w ∈ m)) : get m' id = get m id := by
  apply Option.ext
  intro w
  rw [get_iff hs, get_iff hs']
  constructor
  · rintro ⟨a, b⟩; exact ⟨(h w b).1 a, b⟩
  · rintro ⟨a, b⟩; exact ⟨(h w b).2 a, b⟩

/-! ### register -/

theorem ge_lt {a b : Bytes} (h : bytesLt a b = false) (hne : a ≠ b) : bytesLt b a = true := by
  rcases bytesLt_total b a with h' | h' | h'
  · exact h'
  · exact absurd h'.symm hne
  · rw [h] at h'; cases h'

theorem insert_sorted {m : Matcher C} (hs : Sorted m) {w : Watch C} {r : Matcher C}
    (hr : ∀ x ∈ r, x ∈ fromId m w.queryId ∧ x.queryId ≠ w.queryId) (hsub : r.Sublist (fromId m w.queryId)) :
    Sorted (before m w.queryId ++ w :: r) := by
  have hs1 : Sorted (before m w.queryId) := List.Pairwise.sublist (List.takeWhile_sublist _) hs
  have hs2 : Sorted r := List.Pairwise.sublist (hsub.trans (List.dropWhile_sublist _)) hs
  refine List.pairwise_append.2 ⟨hs1, List.pairwise_cons.2 ⟨fun x hx => ?_, hs2⟩, fun x hx y hy => ?_⟩
  · exact ge_lt (fromId_ge hs (hr x hx).1) (hr x hx).2
  · have h1 := before_lt hx
    cases hy with
    | head => exact h1
    | tail _ hy => exact bytesLt_trans h1 (ge_lt (fromId_ge hs (hr y hy).1) (hr y hy).2)

theorem tail_ne {m : Matcher C} (hs : Sorted m) {id : Bytes} {e : Watch C} {r : Matcher C} (h : fromId m id = e :: r) :
    ∀ x ∈ r, x.queryId ≠ id := by
  intro x hx hid
  have hs' : Sorted (fromId m id) := List.Pairwise.sublist (List.dropWhile_sublist _) hs
  rw [h, Sorted, List.pairwise_cons] at hs'
  have h1 := hs'.1 x hx
  have h2 := fromId_ge hs (x := e) (id := id) (by rw [h]; simp)
  rw [hid, h2] at h1; cases h1

theorem before_ne {m : Matcher C} {id : Bytes} : ∀ x ∈ before m id, x.queryId ≠ id := by
  intro x hx hid
  have := before_lt hx
  rw [hid, bytesLt_irrefl] at this; cases this

theorem register_spec (now : Nat) {m : Matcher C} (hs : Sorted m) (w : Watch C) : Sorted (register now m w).1 ∧
    (∀ x, x ∈ (register now m w).1 ↔ (x = w ∧ now < w.recv.high.toNat) ∨ (x ∈ m ∧ x.queryId ≠ w.queryId)) ∧
    (register now m w).2 = get m w.queryId := by
  have hb := before_append m w.queryId
  have hbn := before_ne (m := m) (id := w.queryId)
  unfold register get
  cases h : fromId m w.queryId with
  | nil =>
    simp only
    by_cases hk : w.recv.high.toNat > now
    · rw [if_pos (by simpa using hk)]
      rw [h, List.append_nil] at hb
      refine ⟨insert_sorted hs nofun (List.nil_sublist _), fun x => ?_, rfl⟩
      rw [List.mem_append, List.mem_singleton, hb]
      constructor
      · rintro (hx | rfl)
        · exact .inr ⟨hx, hbn x (by rw [hb]; exact hx)⟩
        · exact .inl ⟨rfl, hk⟩
      · rintro (⟨rfl, _⟩ | ⟨hx, _⟩)
        · exact .inr rfl
        · exact .inl hx
    · rw [if_neg (by simpa using hk)]
      rw [h, List.append_nil] at hb
      refine ⟨hs, fun x => ⟨fun hx => .inr ⟨hx, hbn x (by rw [hb]; exact hx)⟩, ?_⟩, rfl⟩
      rintro (⟨_, h1⟩ | ⟨hx, _⟩)
      · exact absurd h1 hk
      · exact hx
  | cons e r =>
    have htn := tail_ne hs h
    have hmem : ∀ x, x ∈ m ↔ x ∈ before m w.queryId ∨ x = e ∨ x ∈ r := by
      intro x; conv => lhs; rw [← hb, h]
      simp
    simp only
    by_cases he : e.queryId = w.queryId
    · rw [if_pos he, if_pos he]
      have hr : r.Sublist (fromId m w.queryId) := by rw [h]; exact List.sublist_cons_self _ _
      by_cases hk : w.recv.high.toNat > now
      · rw [if_pos (by simpa using hk)]
        refine ⟨insert_sorted hs (fun x hx => ⟨hr.subset hx, htn x hx⟩) hr, fun x => ?_, rfl⟩
        rw [List.mem_append, List.mem_cons, hmem]
        constructor
        · rintro (hx | rfl | hx)
          · exact .inr ⟨.inl hx, hbn x hx⟩
          · exact .inl ⟨rfl, hk⟩
          · exact .inr ⟨.inr (.inr hx), htn x hx⟩
        · rintro (⟨rfl, _⟩ | ⟨hx | rfl | hx, hne⟩)
          · exact .inr (.inl rfl)
          · exact .inl hx
          · exact absurd he hne
          · exact .inr (.inr hx)
      · rw [if_neg (by simpa using hk)]
        refine ⟨?_, fun x => ?_, rfl⟩
        · refine List.Pairwise.sublist ?_ hs
          show (before m w.queryId ++ r).Sublist m
          conv => rhs; rw [← hb]
          exact List.Sublist.append (List.Sublist.refl _) hr
        · rw [List.mem_append, hmem]
          constructor
          · rintro (hx | hx)
            · exact .inr ⟨.inl hx, hbn x hx⟩
            · exact .inr ⟨.inr (.inr hx), htn x hx⟩
          · rintro (⟨_, h1⟩ | ⟨hx | rfl | hx, hne⟩)
            · exact absurd h1 hk
            · exact .inl hx
            · exact absurd he hne
            · exact .inr hx
    · rw [if_neg he, if_neg he]
      by_cases hk : w.recv.high.toNat > now
      · rw [if_pos (by simpa using hk)]
        have hr : (e :: r).Sublist (fromId m w.queryId) := by rw [h]; exact List.Sublist.refl _
        have hne : ∀ x ∈ e :: r, x.queryId ≠ w.queryId := by
          intro x hx
          cases hx with
          | head => exact he
          | tail _ hx => exact htn x hx
        refine ⟨insert_sorted hs (fun x hx => ⟨hr.subset hx, hne x hx⟩) hr, fun x => ?_, rfl⟩
        rw [List.mem_append, List.mem_cons, List.mem_cons, hmem]
        constructor
        · rintro (hx | rfl | rfl | hx)
          · exact .inr ⟨.inl hx, hbn x hx⟩
          · exact .inl ⟨rfl, hk⟩
          · exact .inr ⟨.inr (.inl rfl), he⟩
          · exact .inr ⟨.inr (.inr hx), htn x hx⟩
        · rintro (⟨rfl, _⟩ | ⟨hx | hx | hx, _⟩)
          · exact .inr (.inl rfl)
          · exact .inl hx
          · exact .inr (.inr (.inl hx))
          · exact .inr (.inr (.inr hx))
      · rw [if_neg (by simpa using hk)]
        refine ⟨hs, fun x => ⟨fun hx => .inr ⟨hx, ?_⟩, ?_⟩, rfl⟩
        · rcases (hmem x).1 hx with hx | rfl | hx
          · exact hbn x hx
          · exact he
          · exact htn x hx
        · rintro (⟨_, h1⟩ | ⟨hx, _⟩)
          · exact absurd h1 hk
          · exact hx

/-! ### deregister -/

theorem prefix_ge {id x : Bytes} (h : id <+: x) : bytesLt x id = false := by
  obtain ⟨r, rfl⟩ := h
  have := bytesLt_append_left id r []
  rw [List.append_nil] at this
  rw [this]; cases r <;> rfl

theorem run_prefix {l : Matcher C} {id : Bytes} (hs : Sorted l) (hge : ∀ x ∈ l, bytesLt x.queryId id = false) :
    l.takeWhile (fun v => id.isPrefixOf v.queryId) = l.filter (fun v => id.isPrefixOf v.queryId) ∧
    l.dropWhile (fun v => id.isPrefixOf v.queryId) = l.filter (fun v => !id.isPrefixOf v.queryId) := by
  have h : l.Pairwise (fun a b => id.isPrefixOf b.queryId = true → id.isPrefixOf a.queryId = true) := by
    refine hs.imp_of_mem ?_
    intro a b ha hb hab hp
    rw [List.isPrefixOf_iff_prefix] at hp ⊢
    obtain ⟨y, hy⟩ := hp
    exact Query.sandwich (x := []) (y := y) (by rw [List.append_nil]; exact hge a ha) (by rw [hy]; exact hab)
  exact ⟨Query.takeWhile_filter h, Query.dropWhile_filter h⟩

theorem deregister_one {m : Matcher C} (hs : Sorted m) (id : Bytes) :
    Sorted (deregister m id false).1 ∧ (∀ x, x ∈ (deregister m id false).1 ↔ x ∈ m ∧ x.queryId ≠ id) ∧
    (deregister m id false).2 = (get m id).toList := by
  have hb := before_append m id
  have hbn := before_ne (m := m) (id := id)
  unfold deregister get
  cases h : fromId m id with
  | nil =>
    rw [h, List.append_nil] at hb
    exact ⟨hs, fun x => ⟨fun hx => ⟨hx, hbn x (by rw [hb]; exact hx)⟩, And.left⟩, rfl⟩
  | cons e r =>
    have htn := tail_ne hs h
    have hmem : ∀ x, x ∈ m ↔ x ∈ before m id ∨ x = e ∨ x ∈ r := by
      intro x; conv => lhs; rw [← hb, h]
      simp
    simp only
    by_cases he : e.queryId = id
    · rw [if_pos he, if_pos he]
      simp only [Bool.not_false, if_true]
      refine ⟨?_, fun x => ?_, rfl⟩
      · refine List.Pairwise.sublist ?_ hs
        conv => rhs; rw [← hb, h]
        exact List.Sublist.append (List.Sublist.refl _) (List.sublist_cons_self _ _)
      · rw [List.mem_append, hmem]
        constructor
        · rintro (hx | hx)
          · exact ⟨.inl hx, hbn x hx⟩
          · exact ⟨.inr (.inr hx), htn x hx⟩
        · rintro ⟨hx | rfl | hx, hne⟩
          · exact .inl hx
          · exact absurd he hne
          · exact .inr hx
    · rw [if_neg he, if_neg he]
      refine ⟨hs, fun x => ⟨fun hx => ⟨hx, ?_⟩, And.left⟩, rfl⟩
      rcases (hmem x).1 hx with hx | rfl | hx
      · exact hbn x hx
      · exact he
      · exact htn x hx

theorem deregister_range {m : Matcher C} (hs : Sorted m) (id : Bytes) :
    (get m id = none → deregister m id true = (m, [])) ∧
    ((get m id).isSome → (deregister m id true).1 = m.filter (fun x => !id.isPrefixOf x.queryId) ∧
      (deregister m id true).2 = m.filter (fun x => id.isPrefixOf x.queryId)) := by
  have hb := before_append m id
  unfold deregister get
  cases h : fromId m id with
  | nil => exact ⟨fun _ => rfl, fun h => by cases h⟩
  | cons e r =>
    simp only
    by_cases he : e.queryId = id
    · rw [if_pos he, if_pos he]
      refine ⟨fun h => (by cases h), fun _ => ?_⟩
      simp only [Bool.not_true, Bool.false_eq_true, if_false]
      have hs' : Sorted (e :: r) := by rw [← h]; exact List.Pairwise.sublist (List.dropWhile_sublist _) hs
      obtain ⟨h1, h2⟩ := run_prefix hs' (id := id) (fun x hx => fromId_ge hs (by rw [h]; exact hx))
      have hno : ∀ x ∈ before m id, id.isPrefixOf x.queryId = false := by
        intro x hx
        rw [Bool.eq_false_iff]
        intro hp
        have := prefix_ge (List.isPrefixOf_iff_prefix.1 hp)
        rw [before_lt hx] at this; cases this
      have e1 : (before m id).filter (fun x => !id.isPrefixOf x.queryId) = before m id :=
        List.filter_eq_self.2 (fun x hx => by rw [hno x hx]; rfl)
      have e2 : (before m id).filter (fun x => id.isPrefixOf x.queryId) = [] :=
        List.filter_eq_nil_iff.2 (fun x hx => by rw [hno x hx]; simp)
      rw [h1, h2]
      constructor
      · conv => rhs; rw [← hb, h, List.filter_append, e1]
      · conv => rhs; rw [← hb, h, List.filter_append, e2, List.nil_append]
    · rw [if_neg he, if_neg he]
      exact ⟨fun _ => rfl, fun h => (by cases h)⟩

/-! ### trigger and gc -/

/-- The calls of a program without effects other than on the state of the watches; what is dropped is listed. -/
def triggerPure (cb : C → NetParts → C × Bool) (recv : Nat) (p : NetParts) (m : Matcher C) : PRes (List (Watch C) × Matcher C) :=
  trigger id (fun s c => .ok (s, (cb c p).1, (cb c p).2)) (fun s w => .ok (s ++ [w])) recv p [] m

theorem test_id {w w' : Watch C} {recv : Nat} {p : NetParts} {r : Bool × Bool} (h : w.test recv p = .ok (w', r)) :
    w'.queryId = w.queryId ∧ w'.recv = w.recv ∧ w'.preds = w.preds ∧ w'.ctx = w.ctx ∧ w'.iNew = w.iNew ∧ w'.iQuery = w.iQuery := by
  unfold Watch.test at h
  cases ht : w.test' recv p with
  | error e => rw [ht] at h; cases h
  | ok x =>
    rw [ht] at h
    obtain ⟨w1, r1⟩ := x
    cases h
    unfold Watch.test' at ht
    split at ht
    · cases ht; exact ⟨rfl, rfl, rfl, rfl, rfl, rfl⟩
    · split at ht
      · cases ht; exact ⟨rfl, rfl, rfl, rfl, rfl, rfl⟩
      · split at ht
        · cases ht; exact ⟨rfl, rfl, rfl, rfl, rfl, rfl⟩
        · split at ht
          · cases ht
          · split at ht
            · cases ht
            · split at ht
              · cases ht; exact ⟨rfl, rfl, rfl, rfl, rfl, rfl⟩
              · cases ht

theorem alone_id {cb : C → NetParts → C × Bool} {recv : Nat} {p : NetParts} {w w' : Watch C} (h : alone cb recv p w = some w') :
    w'.queryId = w.queryId := by
  unfold alone at h
  cases ht : w.test recv p with
  | error e => rw [ht] at h; cases h
  | ok x =>
    obtain ⟨w1, ok, over⟩ := x
    rw [ht] at h
    simp only at h
    generalize (if ok = true then cb w1.ctx p else (w1.ctx, false)) = r at h
    split at h
    · cases h
    · cases h; exact (test_id ht).1

theorem triggerPure_list (cb : C → NetParts → C × Bool) (recv : Nat) (p : NetParts) {s : List (Watch C)} {m : Matcher C} {d : List (Watch C)}
    {m' : Matcher C}
    (h : trigger (ε := Fault Unit) id (fun s c => .ok (s, (cb c p).1, (cb c p).2)) (fun s w => .ok (s ++ [w])) recv p s m = .ok (d, m')) :
    m' = m.filterMap (alone cb recv p) := by
  induction m generalizing s d m' with
  | nil => cases h; rfl
  | cons w m ih =>
    unfold trigger at h
    rw [List.filterMap_cons]
    unfold alone
    cases ht : w.test recv p with
    | error e => rw [ht] at h; cases h
    | ok x =>
      obtain ⟨w1, ok, over⟩ := x
      rw [ht] at h
      simp only at h ⊢
      have e : (if ok = true then (Except.ok (s, (cb w1.ctx p).1, (cb w1.ctx p).2) : Except (Fault Unit) (List (Watch C) × C × Bool))
          else .ok (s, w1.ctx, false)) = .ok (s, (if ok then cb w1.ctx p else (w1.ctx, false)).1, (if ok then cb w1.ctx p else (w1.ctx, false)).2) := by
        cases ok <;> rfl
      rw [e] at h
      simp only at h
      by_cases hx : ((if ok = true then cb w1.ctx p else (w1.ctx, false)).2 || over) = true
      · rw [if_pos hx] at h
        rw [if_pos hx]
        exact ih h
      · rw [if_neg hx] at h
        rw [if_neg hx]
        cases hr : trigger (ε := Fault Unit) id (fun s c => .ok (s, (cb c p).1, (cb c p).2)) (fun s w => .ok (s ++ [w])) recv p s m with
        | error e => rw [hr] at h; cases h
        | ok y =>
          obtain ⟨s', m2⟩ := y
          rw [hr] at h
          cases h
          rw [ih hr]
          rfl

theorem filterMap_sorted {m : Matcher C} (hs : Sorted m) {f : Watch C → Option (Watch C)} (hf : ∀ w w', f w = some w' → w'.queryId = w.queryId) :
    Sorted (m.filterMap f) := by
  refine List.Pairwise.filterMap f (fun a a' haa b hb b' hb' => ?_) hs
  rw [hf a b hb, hf a' b' hb']; exact haa

theorem get_filterMap {m : Matcher C} (hs : Sorted m) {f : Watch C → Option (Watch C)} (hf : ∀ w w', f w = some w' → w'.queryId = w.queryId)
    (id : Bytes) : get (m.filterMap f) id = (get m id).bind f := by
  apply Option.ext
  intro w
  rw [get_iff (filterMap_sorted hs hf), List.mem_filterMap]
  constructor
  · rintro ⟨⟨a, ha, haw⟩, hid⟩
    rw [(get_iff hs).2 ⟨ha, (hf a w haw) ▸ hid⟩]
    exact haw
  · intro h
    cases hg : get m id with
    | none => rw [hg] at h; cases h
    | some a =>
      rw [hg] at h
      obtain ⟨h1, h2⟩ := (get_iff hs).1 hg
      have h : f a = some w := h
      exact ⟨⟨a, h1, h⟩, by rw [hf a w h, h2]⟩

/-! ### a stream of packets -/

/-- Packets coming in one after another; the list are the packets given to callbacks, in order. -/
def feed (cb : C → NetParts → C × Bool) : Matcher C → List (Nat × NetParts) → PRes (List (Nat × NetParts) × Matcher C)
  | m, [] => .ok ([], m)
  | m, e :: L =>
    match trigger (ε := Fault Unit) id (fun s c => .ok (s ++ [e], (cb c e.2).1, (cb c e.2).2)) (fun s _ => .ok s) e.1 e.2 [] m with
    | .error x => .error x
    | .ok (d, m) =>
      match feed cb m L with
      | .error x => .error x
      | .ok (d', m) => .ok (d ++ d', m)

theorem feed_nil (cb : C → NetParts → C × Bool) (L : List (Nat × NetParts)) : feed cb [] L = .ok ([], []) := by
  induction L with
  | nil => rfl
  | cons e L ih => unfold feed trigger; simp only; rw [ih]; rfl

theorem taken_unique {rs : List Stmt} {nth k : Nat} {L a b : List (Nat × NetParts)} (ha : Taken rs nth k L a) (hb : Taken rs nth k L b) : a = b := by
  induction ha generalizing b with
  | nil k => cases hb; rfl
  | pass e h1 _ ih =>
    cases hb with
    | pass _ _ h => exact ih h
    | take _ h2 _ _ => exact absurd h2 h1
    | skip _ h2 _ _ => exact absurd h2 h1
  | take e h1 h2 _ ih =>
    cases hb with
    | pass _ h _ => exact absurd h1 h
    | take _ _ _ h => rw [ih h]
    | skip _ _ h _ => exact absurd h2 h
  | skip e h1 h2 _ ih =>
    cases hb with
    | pass _ h _ => exact absurd h1 h
    | take _ _ h _ => exact absurd h h2
    | skip _ _ _ h => exact ih h

theorem taken_none_recv {rs : List Stmt} {nth k : Nat} {L a : List (Nat × NetParts)} (h : ∀ e ∈ L, ¬ Meets rs e.1 e.2) (ha : Taken rs nth k L a) : a = [] := by
  induction ha with
  | nil k => rfl
  | pass e h1 _ ih => exact ih (fun x hx => h x (by simp [hx]))
  | take e h1 _ _ _ => exact absurd h1 (h e (by simp))
  | skip e h1 _ _ _ => exact absurd h1 (h e (by simp))

theorem taken_none_count {rs : List Stmt} {nth k : Nat} {L a : List (Nat × NetParts)} (h : ∀ i, k ≤ i → i < k + L.length → ¬ Accepts rs nth i)
    (ha : Taken rs nth k L a) : a = [] := by
  induction ha with
  | nil k => rfl
  | pass e h1 _ ih => exact ih (fun i h1 h2 => h i h1 (by simp; omega))
  | take e _ h1 _ _ => exact absurd h1 (h _ (Nat.le_refl _) (by simp))
  | skip e _ _ _ ih => exact ih (fun i h1 h2 => h i (by omega) (by simp; omega))

/-- Where a watch stands. -/
structure Stands (s : Preds) (nth k : Nat) (w : Watch C) : Prop where
  preds : w.preds = s
  recv : w.recv = s.recv
  iNew : w.iNew = s.state .new
  iQuery : w.iQuery = s.state .query
  nthNew : w.nthNew.toNat = k
  nthQuery : w.nthQuery.toNat = nth + k

theorem state_test {rs : List Stmt} {s : Preds} (h : Preds.default.run true rs = .ok s) (q : QScope) (hp : SomePosition q rs) (n : BitVec 32) :
    ((s.state q).test true n = .ok true ∧ ∀ r ∈ rs, CountOk q r n.toNat) ∨
    ((s.state q).test true n = .ok false ∧ ¬ ∀ r ∈ rs, CountOk q r n.toNat) := by
  obtain ⟨k, hk, hc⟩ := hp
  have hm : (s.state q).mask.hasAny = true := by
    have := (run_count h q (BitVec.ofNat 32 k)).2 (by rw [BitVec.toNat_ofNat, Nat.mod_eq_of_lt hk]; exact hc)
    exact mask_hasAny_of_test this.2
  rw [← run_count h]
  exact test_iff (by decide) (by decide) true _ n (.inr hm)

theorem beyond {rs : List Stmt} {s : Preds} (h : Preds.default.run true rs = .ok s) (q : QScope) {n i : Nat} (hn : (s.state q).bound.high.toNat < n)
    (hi : n ≤ i) (h32 : i < 2 ^ 32) : ¬ ∀ r ∈ rs, CountOk q r i := by
  have e : (BitVec.ofNat 32 i).toNat = i := by rw [BitVec.toNat_ofNat]; exact Nat.mod_eq_of_lt h32
  have h1 := run_count h q (BitVec.ofNat 32 i)
  rw [e] at h1
  rw [← h1]
  intro hm
  have := hm.1.2
  rw [e] at this
  omega

theorem inc_lt {n : BitVec 32} (h : n.toNat + 1 < 2 ^ 32) : ∃ x, inc n = some x ∧ x.toNat = n.toNat + 1 := by
  cases hi : inc n with
  | none => have := inc_none hi; omega
  | some x => exact ⟨x, rfl, inc_some hi⟩

/-- One packet at one watch. -/
theorem test_step {rs : List Stmt} {s : Preds} (h : Preds.default.run true rs = .ok s) (hr : ∀ r ∈ rs, Plain r)
    (hnew : SomePosition .new rs) {nth k : Nat} {w : Watch C} (hw : Stands s nth k w) (e : Nat × NetParts) (he : e.1 < 2 ^ 64)
    (hp : ∃ x, Shows e.2 x) (hb : nth + k + 1 < 2 ^ 32) :
    ∃ w' ok over k', w.test e.1 e.2 = .ok (w', ok, over) ∧ Stands s nth k' w' ∧ w'.ctx = w.ctx ∧ w'.queryId = w.queryId ∧
      ((¬ Meets rs e.1 e.2 ∧ ok = false ∧ k' = k ∧ (over = true → ∀ t, e.1 ≤ t → t < 2 ^ 64 → ¬ ∀ r ∈ rs, RecvOk r t)) ∨
       (Meets rs e.1 e.2 ∧ k' = k + 1 ∧ (ok = true ↔ Accepts rs nth k) ∧
        (over = true ↔ (s.state .new).bound.high.toNat < k + 1 ∨ (s.state .query).bound.high.toNat < nth + k + 1) ∧
        (over = true → ∀ i, k + 1 ≤ i → nth + i < 2 ^ 32 → ¬ Accepts rs nth i))) := by
  have hm := test_meets h hr hp he
  have ee : (BitVec.ofNat 64 e.1).toNat = e.1 := by rw [BitVec.toNat_ofNat]; exact Nat.mod_eq_of_lt he
  have hrm : ∀ t, t < 2 ^ 64 → (s.recv.Mem (BitVec.ofNat 64 t) ↔ ∀ r ∈ rs, RecvOk r t) := by
    intro t ht
    have := run_recv h hr (BitVec.ofNat 64 t)
    rwa [BitVec.toNat_ofNat, Nat.mod_eq_of_lt ht] at this
  unfold Watch.test
  have h1 := hw.preds; have h2 := hw.recv; have h3 := hw.iNew; have h4 := hw.iQuery; have h5 := hw.nthNew; have h6 := hw.nthQuery
  unfold Watch.test'
  by_cases c1 : w.recv.high.toNat < e.1
  · rw [if_pos c1]
    refine ⟨_, false, true, k, rfl, ⟨h1, h2, h3, h4, h5, h6⟩, rfl, rfl, .inl ⟨?_, rfl, rfl, fun _ t ht1 ht2 => ?_⟩⟩
    · rw [← hm]
      rintro ⟨_, hx⟩
      have := hx.2
      rw [ee, ← h2] at this; omega
    · rw [← hrm t ht2]
      intro hx
      have := hx.2
      rw [BitVec.toNat_ofNat, Nat.mod_eq_of_lt ht2, ← h2] at this; omega
  rw [if_neg c1]
  by_cases c2 : e.1 < w.recv.low.toNat
  · rw [if_pos c2]
    refine ⟨_, false, false, k, rfl, ⟨h1, h2, h3, h4, h5, h6⟩, rfl, rfl, .inl ⟨?_, rfl, rfl, nofun⟩⟩
    rw [← hm]
    rintro ⟨_, hx⟩
    have := hx.1
    rw [ee, ← h2] at this; omega
  rw [if_neg c2]
  cases c3 : w.preds.test e.2 with
  | false =>
    simp only [Bool.not_false, if_true]
    refine ⟨_, false, false, k, rfl, ⟨h1, h2, h3, h4, h5, h6⟩, rfl, rfl, .inl ⟨?_, rfl, rfl, nofun⟩⟩
    rw [← hm, ← h1, c3]
    rintro ⟨hx, _⟩; cases hx
  | true =>
    simp only [Bool.not_true, Bool.false_eq_true, if_false]
    have hmeets : Meets rs e.1 e.2 := by
      rw [← hm, ← h2]
      refine ⟨by rw [← h1]; exact c3, ?_, ?_⟩
      · rw [ee]; omega
      · rw [ee]; omega
    obtain ⟨n, hn, hnv⟩ := inc_lt (n := w.nthNew) (by omega)
    obtain ⟨m, hmm, hmv⟩ := inc_lt (n := w.nthQuery) (by omega)
    have hacc : ∃ b, (match w.iNew.test true w.nthNew with
        | .error e => .error e
        | .ok a => if a then w.iQuery.test true w.nthQuery else .ok false : PRes Bool) = .ok b ∧ (b = true ↔ Accepts rs nth k) := by
      unfold Accepts
      rw [h3, h4, ← h5]
      have h6' : nth + w.nthNew.toNat = w.nthQuery.toNat := by omega
      rw [h6']
      rcases state_test h .new hnew w.nthNew with ⟨a1, a2⟩ | ⟨a1, a2⟩
      · rw [a1]
        simp only [if_true]
        rcases state_test h .query (query_position h) w.nthQuery with ⟨b1, b2⟩ | ⟨b1, b2⟩
        · exact ⟨true, b1, fun _ => ⟨a2, b2⟩, fun _ => rfl⟩
        · exact ⟨false, b1, by simp only [Bool.false_eq_true, false_iff]; exact fun hx => b2 hx.2⟩
      · rw [a1]
        exact ⟨false, rfl, by simp only [Bool.false_eq_true, false_iff]; exact fun hx => a2 hx.1⟩
    obtain ⟨b, hb1, hb2⟩ := hacc
    cases ht : w.iNew.test true w.nthNew with
    | error x => rw [ht] at hb1; cases hb1
    | ok a =>
      rw [ht] at hb1
      simp only at hb1 ⊢
      rw [hb1]
      simp only
      rw [hn, hmm]
      have hover : (decide (n > w.iNew.bound.high) || decide (m > w.iQuery.bound.high)) = true ↔
          (s.state .new).bound.high.toNat < k + 1 ∨ (s.state .query).bound.high.toNat < nth + k + 1 := by
        rw [Bool.or_eq_true, decide_eq_true_iff, decide_eq_true_iff, GT.gt, GT.gt, BitVec.lt_def, BitVec.lt_def, hnv, hmv, h3, h4, h5, h6]
      refine ⟨_, b, _, k + 1, rfl, ⟨h1, h2, h3, h4, ?_, ?_⟩, rfl, rfl, .inr ⟨hmeets, rfl, hb2, hover, fun ho i hi1 hi2 hacc => ?_⟩⟩
      · show n.toNat = k + 1; omega
      · show m.toNat = nth + (k + 1); omega
      · rcases hover.1 ho with ho | ho
        · exact beyond h .new ho hi1 (by omega) hacc.1
        · exact beyond h .query ho (by omega) hi2 hacc.2

theorem incoming_cons {e : Nat × NetParts} {L : List (Nat × NetParts)} (h : Incoming (e :: L)) :
    Incoming L ∧ e.1 < 2 ^ 64 ∧ ∀ x ∈ L, e.1 ≤ x.1 := by
  obtain ⟨h1, h2⟩ := h
  rw [List.pairwise_cons] at h1
  exact ⟨⟨h1.2, fun x hx => h2 x (by simp [hx])⟩, h2 e (by simp), fun x hx => Nat.le_of_lt (h1.1 x hx)⟩

theorem taken_exists {rs : List Stmt} {nth k : Nat} (L : List (Nat × NetParts)) : ∃ a, Taken rs nth k L a := by
  induction L generalizing k with
  | nil => exact ⟨[], .nil k⟩
  | cons e L ih =>
    by_cases h1 : Meets rs e.1 e.2
    · by_cases h2 : Accepts rs nth k
      · obtain ⟨a, ha⟩ := ih (k := k + 1); exact ⟨e :: a, .take e h1 h2 ha⟩
      · obtain ⟨a, ha⟩ := ih (k := k + 1); exact ⟨a, .skip e h1 h2 ha⟩
    · obtain ⟨a, ha⟩ := ih (k := k); exact ⟨a, .pass e h1 ha⟩

/-- A stream at one watch. -/
theorem feed_one {rs : List Stmt} {s : Preds} (h : Preds.default.run true rs = .ok s) (hr : ∀ r ∈ rs, Plain r)
    (hnew : SomePosition .new rs) (cb : C → NetParts → C × Bool) (L : List (Nat × NetParts)) (hL : Incoming L) (hs : ∀ e ∈ L, ∃ x, Shows e.2 x)
    {nth k : Nat} {w : Watch C} (hw : Stands s nth k w) (hb : nth + k + L.length < 2 ^ 32) :
    ∃ acc m, feed cb [w] L = .ok ((deliver cb w.ctx acc).1, m) ∧ Taken rs nth k L acc ∧
      ((m = [] ∧ ((deliver cb w.ctx acc).2.2 = true ∨
          ∀ L' acc', Incoming (L ++ L') → nth + k + (L ++ L').length < 2 ^ 32 → Taken rs nth k (L ++ L') acc' → acc' = acc)) ∨
       ∃ w' k', m = [w'] ∧ w'.queryId = w.queryId ∧ Stands s nth k' w' ∧ k ≤ k' ∧ (deliver cb w.ctx acc).2 = (w'.ctx, false) ∧
        (k' = k ∨ (k' ≤ (s.state .new).bound.high.toNat ∧ nth + k' ≤ (s.state .query).bound.high.toNat)) ∧
        ∀ a L', Taken rs nth k' L' a → Taken rs nth k (L ++ L') (acc ++ a)) := by
  induction L generalizing k w with
  | nil => exact ⟨[], [w], rfl, .nil k, .inr ⟨w, k, rfl, rfl, hw, Nat.le_refl _, rfl, .inl rfl, fun _ _ h => h⟩⟩
  | cons e L ih =>
    obtain ⟨hL1, he, hge⟩ := incoming_cons hL
    have hs1 : ∀ x ∈ L, ∃ y, Shows x.2 y := fun x hx => hs x (by simp [hx])
    simp only [List.length_cons] at hb
    obtain ⟨w1, ok, over, k1, ht, hw1, hctx, hid, hcase⟩ := test_step h hr hnew hw e he (hs e (by simp)) (by omega)
    unfold feed trigger
    rw [ht]
    simp only
    rcases hcase with ⟨hnm, rfl, rfl, hover⟩ | ⟨hm, rfl, hok, hov1, hover⟩
    · -- no match
      simp only [Bool.false_eq_true, if_false, Bool.false_or]
      cases over with
      | true =>
        simp only [if_true]
        unfold trigger
        simp only
        rw [feed_nil]
        have hno : ∀ L', Incoming (e :: L') → ∀ x ∈ e :: L', ¬ Meets rs x.1 x.2 := by
          intro L' hL' x hx
          obtain ⟨hL2, _, hge2⟩ := incoming_cons hL'
          have hx1 : e.1 ≤ x.1 ∧ x.1 < 2 ^ 64 := by
            cases hx with
            | head => exact ⟨Nat.le_refl _, he⟩
            | tail _ hx => exact ⟨hge2 x hx, hL2.2 x hx⟩
          rintro ⟨y, _, _, hy⟩
          exact hover rfl x.1 hx1.1 hx1.2 hy
        obtain ⟨acc, hacc⟩ := taken_exists (rs := rs) (nth := nth) (k := k1) (e :: L)
        have : acc = [] := taken_none_recv (hno L hL) hacc
        subst this
        refine ⟨[], [], rfl, hacc, .inl ⟨rfl, .inr fun L' acc' h1 _ h3 => ?_⟩⟩
        exact taken_none_recv (hno (L ++ L') h1) h3
      | false =>
        simp only [Bool.false_eq_true, if_false]
        unfold trigger
        simp only
        obtain ⟨acc, m, h1, h2, h3⟩ := ih hL1 hs1 (w := { w1 with ctx := w1.ctx }) ⟨hw1.preds, hw1.recv, hw1.iNew, hw1.iQuery, hw1.nthNew, hw1.nthQuery⟩ (by omega)
        rw [h1]
        simp only [hctx] at h3 ⊢
        refine ⟨acc, m, rfl, .pass e hnm h2, ?_⟩
        rcases h3 with ⟨rfl, h3⟩ | ⟨w', k', rfl, e2, hst, hk, h4, h5, h6⟩
        · refine .inl ⟨rfl, h3.imp_right fun h4 L' acc' i1 i2 i3 => ?_⟩
          rw [List.cons_append] at i1 i2 i3
          cases i3 with
          | pass _ _ i3 => exact h4 L' acc' (incoming_cons i1).1 (by simp only [List.length_cons] at i2; omega) i3
          | take _ hx _ _ => exact absurd hx hnm
          | skip _ hx _ _ => exact absurd hx hnm
        · exact .inr ⟨w', k', rfl, e2.trans hid, hst, hk, h4, h5, fun a L' ha => .pass e hnm (h6 a L' ha)⟩
    · -- a match
      obtain ⟨acc0, hacc0⟩ := taken_exists (rs := rs) (nth := nth) (k := k + 1) L
      have hdead : over = true → ∀ L' a, nth + k + 1 + L'.length < 2 ^ 32 → Taken rs nth (k + 1) L' a → a = [] := by
        intro ho L' a hlen ha
        exact taken_none_count (fun i i1 i2 => hover ho i i1 (by omega)) ha
      have hbrk : ∀ (b : Bool), (if ok = true then (Except.ok ([] ++ [e], (cb w1.ctx e.2).1, (cb w1.ctx e.2).2) : Except (Fault Unit) (List (Nat × NetParts) × C × Bool))
          else .ok ([], w1.ctx, false)) = .ok (if ok then [e] else [], if ok then (cb w1.ctx e.2).1 else w1.ctx, ok && (cb w1.ctx e.2).2) := by
        intro _; cases ok <;> rfl
      rw [hbrk true]
      simp only
      have step : ∀ acc, Taken rs nth (k + 1) L acc → Taken rs nth k (e :: L) (if ok then e :: acc else acc) := by
        intro acc ha
        cases ok with
        | true => exact .take e hm (hok.1 rfl) ha
        | false => exact .skip e hm (fun hx => by have := hok.2 hx; cases this) ha
      have step' : ∀ L' acc', Taken rs nth k (e :: L') acc' → ∃ acc, acc' = (if ok then e :: acc else acc) ∧ Taken rs nth (k + 1) L' acc := by
        intro L' acc' ha
        cases ha with
        | pass _ hx _ => exact absurd hm hx
        | @take _ _ _ out _ hx hy => exact ⟨out, by rw [hok.2 hx]; rfl, hy⟩
        | skip _ _ hx hy =>
          refine ⟨acc', ?_, hy⟩
          have : ok = false := by rw [Bool.eq_false_iff]; exact fun ho => hx (hok.1 ho)
          rw [this]; rfl
      have hdel : ∀ acc, (ok && (cb w1.ctx e.2).2) = false → deliver cb w1.ctx (if ok then e :: acc else acc) =
          ((if ok then [e] else []) ++ (deliver cb (if ok then (cb w1.ctx e.2).1 else w1.ctx) acc).1,
            (deliver cb (if ok then (cb w1.ctx e.2).1 else w1.ctx) acc).2) := by
        intro acc hb
        cases ok with
        | false => rfl
        | true =>
          have hb : (cb w1.ctx e.2).2 = false := hb
          simp only [if_true, deliver, hb, Bool.false_eq_true, if_false, List.singleton_append]
      cases hb0 : (ok && (cb w1.ctx e.2).2) with
      | true =>
        rw [Bool.and_eq_true] at hb0
        obtain ⟨rfl, hb1⟩ := hb0
        simp only [Bool.true_or, if_true]
        unfold trigger
        simp only
        rw [feed_nil]
        refine ⟨e :: acc0, [], ?_, step acc0 hacc0, .inl ⟨rfl, .inl ?_⟩⟩
        · simp only [deliver, ← hctx, hb1, if_true, List.append_nil]
        · simp only [deliver, ← hctx, hb1, if_true]
      | false =>
        simp only [Bool.false_or]
        cases over with
        | true =>
          simp only [if_true]
          unfold trigger
          simp only
          rw [feed_nil]
          have h0 : acc0 = [] := hdead rfl L acc0 (by omega) hacc0
          subst h0
          refine ⟨_, [], ?_, step [] hacc0, .inl ⟨rfl, .inr fun L' acc' i1 i2 i3 => ?_⟩⟩
          · rw [← hctx, hdel [] hb0]; simp only [deliver]
          · obtain ⟨a, rfl, ha⟩ := step' _ _ i3
            rw [hdead rfl (L ++ L') a (by simp only [List.cons_append, List.length_cons] at i2; omega) ha]
        | false =>
          simp only [Bool.false_eq_true, if_false]
          unfold trigger
          simp only
          have hin : ¬ ((s.state .new).bound.high.toNat < k + 1 ∨ (s.state .query).bound.high.toNat < nth + k + 1) := by
            rw [← hov1]; simp
          obtain ⟨acc, m, h1, h2, h3⟩ := ih hL1 hs1 (w := { w1 with ctx := if ok = true then (cb w1.ctx e.2).1 else w1.ctx })
            ⟨hw1.preds, hw1.recv, hw1.iNew, hw1.iQuery, hw1.nthNew, hw1.nthQuery⟩ (by omega)
          rw [h1]
          simp only at h3 ⊢
          refine ⟨_, m, ?_, step acc h2, ?_⟩
          · rw [← hctx, hdel acc hb0]
          · rw [← hctx, hdel acc hb0]
            rcases h3 with ⟨rfl, h3⟩ | ⟨w', k', rfl, e2, hst, hk, h4, h5, h6⟩
            · refine .inl ⟨rfl, h3.imp_right fun h4 L' acc' i1 i2 i3 => ?_⟩
              rw [List.cons_append] at i1 i2 i3
              obtain ⟨a, rfl, ha⟩ := step' _ _ i3
              rw [h4 L' a (incoming_cons i1).1 (by simp only [List.length_cons] at i2; omega) ha]
            · refine .inr ⟨w', k', rfl, e2.trans hid, hst, by omega, h4, ?_, fun a L' ha => ?_⟩
              · rcases h5 with rfl | h5
                · exact .inr ⟨by omega, by omega⟩
                · exact .inr h5
              · have h7 := h6 a L' ha
                cases ok with
                | true => exact .take e hm (hok.1 rfl) h7
                | false => exact .skip e hm (fun hx => by have := hok.2 hx; cases this) h7

/-- What is needed for a watch to be made. -/
theorem pending_ok {rs : List Stmt} {s : Preds} (h : Preds.default.run true rs = .ok s) (q : QScope) (hp : SomePosition q rs) (n : BitVec 32) :
    ∃ b, pending (s.state q) n = .ok b ∧ (b = true ↔ ∃ i, n.toNat ≤ i ∧ i < 2 ^ 32 ∧ ∀ r ∈ rs, CountOk q r i) := by
  obtain ⟨k, hk, hc⟩ := hp
  have hm : (s.state q).Mem (BitVec.ofNat 32 k) :=
    (run_count h q (BitVec.ofNat 32 k)).2 (by rw [BitVec.toNat_ofNat, Nat.mod_eq_of_lt hk]; exact hc)
  obtain ⟨i, h1, h2, _⟩ := info_eq (by decide) (by decide) true (s.state q) ⟨_, hm⟩ n
  unfold pending
  rw [(hasAny_true_iff (by decide) (by decide) _).2 ⟨_, hm⟩]
  simp only
  rw [h1]
  refine ⟨_, rfl, ?_⟩
  cases hv : i.val with
  | none =>
    rw [hv] at h2
    simp only [Option.isSome_none, Bool.false_eq_true, false_iff]
    rintro ⟨j, hj1, hj2, hj3⟩
    have e : (BitVec.ofNat 32 j).toNat = j := by rw [BitVec.toNat_ofNat]; exact Nat.mod_eq_of_lt hj2
    exact h2 (BitVec.ofNat 32 j) ((run_count h q _).2 (by rw [e]; exact hj3)) (by rw [e]; exact hj1)
  | some v =>
    rw [hv] at h2
    simp only [Option.isSome_some, true_iff]
    exact ⟨v.toNat, h2.2.1, v.isLt, (run_count h q v).1 h2.1⟩

end Verif.Matcher
