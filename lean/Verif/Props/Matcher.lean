import Verif.Lemmas.Matcher
import Verif.Props.TreeQuery
/-!
# C31, C32, C33: watches
-/
namespace Verif.Props
open Verif Verif.Pkt Verif.Pred Verif.Spec Verif.Query Verif.Matcher

variable {C : Type}

/-- One event at the list of watches; the second list are the watches handed back. -/
def stepM (cb : C → NetParts → C × Bool) (m : Matcher C) : MEvent C → PRes (Matcher C × List (Watch C))
  | .register now w => .ok ((register now m w).1, (register now m w).2.toList)
  | .stop id range => .ok (deregister m id range)
  | .packet recv p =>
    match triggerPure cb recv p m with
    | .error e => .error e
    | .ok (d, m) => .ok (m, d)
  | .gc t => .ok ((gc m t).1, [])

/-- Events one after another. -/
def runM (cb : C → NetParts → C × Bool) : Matcher C → List (MEvent C) → PRes (Matcher C)
  | m, [] => .ok m
  | m, e :: es =>
    match stepM cb m e with
    | .error x => .error x
    | .ok (m, _) => runM cb m es

theorem stepM_ok {cb : C → NetParts → C × Bool} {m m' : Matcher C} {e : MEvent C} {d : List (Watch C)} (hs : Sorted m)
    (h : stepM cb m e = .ok (m', d)) : Sorted m' ∧ ∀ id, get m' id = follow cb (get m) e id := by
  cases e with
  | register now w =>
    cases h
    obtain ⟨h1, h2, _⟩ := register_spec now hs w
    refine ⟨h1, fun id => ?_⟩
    simp only [follow]
    by_cases hid : id = w.queryId
    · rw [if_pos hid]
      by_cases hk : now < w.recv.high.toNat
      · rw [if_pos hk, get_iff h1]
        exact ⟨(h2 w).2 (.inl ⟨rfl, hk⟩), hid.symm⟩
      · rw [if_neg hk, get_none h1]
        intro x hx hxid
        rcases (h2 x).1 hx with ⟨_, h3⟩ | ⟨_, h3⟩
        · exact hk h3
        · exact h3 (hxid.trans hid)
    · rw [if_neg hid]
      refine get_of_mem hs h1 fun x hxid => ?_
      rw [h2]
      constructor
      · rintro (⟨rfl, _⟩ | ⟨h3, _⟩)
        · exact absurd hxid.symm hid
        · exact h3
      · intro h3; exact .inr ⟨h3, fun h4 => hid (hxid.symm.trans h4)⟩
  | stop i range =>
    cases range with
    | false =>
      simp only [stepM, Except.ok.injEq] at h
      obtain ⟨h1, h2, _⟩ := deregister_one hs i
      rw [h] at h1 h2
      refine ⟨h1, fun id => ?_⟩
      simp only [follow]
      by_cases hid : id = i
      · rw [if_pos hid, get_none h1]
        intro x hx hxid
        exact ((h2 x).1 hx).2 (hxid.trans hid)
      · rw [if_neg hid]
        refine get_of_mem hs h1 fun x hxid => ?_
        rw [h2]
        exact ⟨And.left, fun h3 => ⟨h3, fun h4 => hid (hxid.symm.trans h4)⟩⟩
    | true =>
      simp only [stepM, Except.ok.injEq] at h
      obtain ⟨h1, h2⟩ := deregister_range hs i
      cases hg : get m i with
      | none =>
        rw [h1 hg] at h
        cases h
        refine ⟨hs, fun id => ?_⟩
        simp [follow, hg]
      | some w =>
        obtain ⟨h3, _⟩ := h2 (by rw [hg]; rfl)
        rw [h] at h3
        have h3 : m' = _ := h3
        have h4 : Sorted m' := by rw [h3]; exact List.Pairwise.filter _ hs
        refine ⟨h4, fun id => ?_⟩
        simp only [follow, hg, Option.isSome_some, true_and]
        by_cases hid : i <+: id
        · rw [if_pos hid, get_none h4]
          intro x hx hxid
          rw [h3, List.mem_filter, hxid, List.isPrefixOf_iff_prefix.2 hid] at hx
          cases hx.2
        · rw [if_neg hid]
          refine get_of_mem hs h4 fun x hxid => ?_
          rw [h3, List.mem_filter, hxid]
          refine ⟨And.left, fun h5 => ⟨h5, ?_⟩⟩
          rw [Bool.not_eq_true', Bool.eq_false_iff]
          exact fun h6 => hid (List.isPrefixOf_iff_prefix.1 h6)
  | packet recv p =>
    simp only [stepM] at h
    cases ht : triggerPure cb recv p m with
    | error x => rw [ht] at h; cases h
    | ok y =>
      rw [ht] at h
      obtain ⟨d', m2⟩ := y
      cases h
      have := triggerPure_list cb recv p ht
      subst this
      exact ⟨filterMap_sorted hs (fun _ _ => alone_id), fun id => get_filterMap hs (fun _ _ => alone_id) id⟩
  | gc t =>
    cases h
    have e : (gc m t).1 = m.filterMap (Option.guard (fun w : Watch C => decide (t < w.recv.high.toNat))) := by
      rw [List.filterMap_eq_filter]; rfl
    have hid : ∀ w w' : Watch C, Option.guard (fun w : Watch C => decide (t < w.recv.high.toNat)) w = some w' → w'.queryId = w.queryId := by
      intro w w' h; rw [Option.guard_eq_some_iff] at h; rw [h.1]
    rw [e]
    refine ⟨filterMap_sorted hs hid, fun id => ?_⟩
    rw [get_filterMap hs hid]
    simp only [follow]
    cases get m id with
    | none => rfl
    | some w =>
      rw [Option.bind_some, Option.filter_some, Option.guard_apply]

theorem runM_ok {cb : C → NetParts → C × Bool} {es : List (MEvent C)} {m m' : Matcher C} (hs : Sorted m) (h : runM cb m es = .ok m') :
    Sorted m' ∧ ∀ id, get m' id = es.foldl (follow cb) (get m) id := by
  induction es generalizing m with
  | nil => cases h; exact ⟨hs, fun _ => rfl⟩
  | cons e es ih =>
    unfold runM at h
    cases hst : stepM cb m e with
    | error x => rw [hst] at h; cases h
    | ok y =>
      obtain ⟨m1, d⟩ := y
      rw [hst] at h
      obtain ⟨h1, h2⟩ := stepM_ok hs hst
      obtain ⟨h3, h4⟩ := ih h1 h
      refine ⟨h3, fun id => ?_⟩
      rw [h4, List.foldl_cons]
      have : get m1 = follow cb (get m) e := funext h2
      rw [this]

/-- The order the binary search relies on. -/
theorem sorted_run {cb : C → NetParts → C × Bool} {es : List (MEvent C)} {m : Matcher C} (h : runM cb [] es = .ok m) : Sorted m :=
  (runM_ok .nil h).1

/-- C31: one watch per id. -/
theorem one_watch {cb : C → NetParts → C × Bool} {es : List (MEvent C)} {m : Matcher C} (h : runM cb [] es = .ok m) {x y : Watch C}
    (hx : x ∈ m) (hy : y ∈ m) (hid : x.queryId = y.queryId) : x = y := sorted_unique (sorted_run h) hx hy hid

/-- C31: looking up an id finds what was registered last under it, as it is after the packets since, unless it was
stopped, is over, or its receive stamps lie in the past. -/
theorem watch_table {cb : C → NetParts → C × Bool} {es : List (MEvent C)} {m : Matcher C} (h : runM cb [] es = .ok m) (id : Bytes) :
    get m id = es.foldl (follow cb) (fun _ => none) id := (runM_ok .nil h).2 id

/-- C31: every watch in the list can be looked up. -/
theorem watch_found {cb : C → NetParts → C × Bool} {es : List (MEvent C)} {m : Matcher C} (h : runM cb [] es = .ok m) {w : Watch C} :
    get m w.queryId = some w ↔ w ∈ m := by
  rw [get_iff (sorted_run h)]
  exact ⟨And.left, fun h => ⟨h, rfl⟩⟩

/-- C31: registering under a used id hands back the old watch. -/
theorem register_returns {cb : C → NetParts → C × Bool} {es : List (MEvent C)} {m : Matcher C} (h : runM cb [] es = .ok m) (now : Nat) (w : Watch C) :
    (register now m w).2 = es.foldl (follow cb) (fun _ => none) w.queryId := by
  rw [(register_spec now (sorted_run h) w).2.2, watch_table h]

/-- C32, for one id: exactly that watch is stopped and handed back. -/
theorem stop_one {cb : C → NetParts → C × Bool} {es : List (MEvent C)} {m : Matcher C} (h : runM cb [] es = .ok m) (id : Bytes) (w : Watch C) :
    (w ∈ (deregister m id false).1 ↔ w ∈ m ∧ w.queryId ≠ id) ∧ (w ∈ (deregister m id false).2 ↔ w ∈ m ∧ w.queryId = id) := by
  obtain ⟨_, h2, h3⟩ := deregister_one (sorted_run h) id
  refine ⟨h2 w, ?_⟩
  rw [h3, Option.mem_toList, get_iff (sorted_run h)]

/-- C32, for a range: exactly the watches whose id begins with the bytes are stopped and handed back, if one of them has
just the bytes as its id. Missing: otherwise nothing is stopped (`stop_range_none`). -/
theorem stop_range_partial {cb : C → NetParts → C × Bool} {es : List (MEvent C)} {m : Matcher C} (h : runM cb [] es = .ok m) (id : Bytes)
    (hid : ∃ w ∈ m, w.queryId = id) (w : Watch C) :
    (w ∈ (deregister m id true).1 ↔ w ∈ m ∧ ¬ id <+: w.queryId) ∧ (w ∈ (deregister m id true).2 ↔ w ∈ m ∧ id <+: w.queryId) := by
  have hg : (get m id).isSome := by
    obtain ⟨x, hx, hxid⟩ := hid
    rw [(get_iff (sorted_run h)).2 ⟨hx, hxid⟩]; rfl
  obtain ⟨h1, h2⟩ := (deregister_range (sorted_run h) id).2 hg
  rw [h1, h2, List.mem_filter, List.mem_filter, List.isPrefixOf_iff_prefix, Bool.not_eq_true', Bool.eq_false_iff, ne_eq,
    List.isPrefixOf_iff_prefix]
  exact ⟨Iff.rfl, Iff.rfl⟩

/-- C32 does not hold: without a watch under just these bytes nothing is stopped. -/
theorem stop_range_none {cb : C → NetParts → C × Bool} {es : List (MEvent C)} {m : Matcher C} (h : runM cb [] es = .ok m) (id : Bytes)
    (hid : ∀ w ∈ m, w.queryId ≠ id) : deregister m id true = (m, []) :=
  (deregister_range (sorted_run h) id).1 ((get_none (sorted_run h)).2 hid)

/-! ### C33 -/

/-- A watch can be made when each of its counts has an accepted position left. -/
theorem watch_made {rs : List Stmt} {s : Preds} (h : Preds.default.run true rs = .ok s) (hnew : SomePosition .new rs)
    (id : Bytes) (nth : BitVec 32) (c : C) :
    (∃ w, Watch.new id s nth c = .ok w ∧ w.queryId = id ∧ w.ctx = c ∧ Stands s nth.toNat 0 w ∧
      ∃ i, nth.toNat ≤ i ∧ i < 2 ^ 32 ∧ ∀ r ∈ rs, CountOk .query r i) ∨
    (Watch.new id s nth c = .error (.err ()) ∧ ∀ i, nth.toNat ≤ i → i < 2 ^ 32 → ¬ ∀ r ∈ rs, CountOk .query r i) := by
  unfold Watch.new Watch.updateTests
  obtain ⟨b, hb1, hb2⟩ := pending_ok h .new hnew 0#32
  obtain ⟨k, hk, hc⟩ := hnew
  have hb : b = true := hb2.2 ⟨k, by simp, hk, hc⟩
  subst hb
  simp only
  rw [hb1]
  obtain ⟨b, hq1, hq2⟩ := pending_ok h .query (query_position h) nth
  simp only
  rw [hq1]
  cases b with
  | true => exact .inl ⟨_, rfl, rfl, rfl, ⟨rfl, rfl, rfl, rfl, by simp, by simp⟩, hq2.1 rfl⟩
  | false => exact .inr ⟨rfl, fun i h1 h2 h3 => by have := hq2.2 ⟨i, h1, h2, h3⟩; cases this⟩

/-- C33: the packets given to the callback are those that satisfy the statements at an accepted position, in order, up to
the one on which it breaks. The watch is removed only if the callback broke or no later packet would be given to it. -/
theorem watch_calls {rs : List Stmt} {s : Preds} (h : Preds.default.run true rs = .ok s) (hr : ∀ r ∈ rs, Plain r) (hnew : SomePosition .new rs)
    {id : Bytes} {nth : BitVec 32} {c : C} {w : Watch C} (hw : Watch.new id s nth c = .ok w) (cb : C → NetParts → C × Bool)
    {L : List (Nat × NetParts)} (hL : Incoming L) (hs : ∀ e ∈ L, ∃ x, Shows e.2 x) (hb : nth.toNat + L.length < 2 ^ 32) :
    ∃ acc m, Taken rs nth.toNat 0 L acc ∧ feed cb [w] L = .ok ((deliver cb c acc).1, m) ∧
      ((m = [] ∧ ((deliver cb c acc).2.2 = true ∨
          ∀ L' acc', Incoming (L ++ L') → nth.toNat + (L ++ L').length < 2 ^ 32 → Taken rs nth.toNat 0 (L ++ L') acc' → acc' = acc)) ∨
       ∃ w', m = [w'] ∧ w'.queryId = id ∧ (deliver cb c acc).2 = (w'.ctx, false)) := by
  rcases watch_made h hnew id nth c with ⟨w0, h0, h1, h2, h3, _⟩ | ⟨h0, _⟩
  · rw [h0] at hw; cases hw
    obtain ⟨acc, m, f1, f2, f3⟩ := feed_one h hr hnew cb L hL hs h3 (by omega)
    rw [h2] at f1 f3
    refine ⟨acc, m, f2, f1, ?_⟩
    rcases f3 with ⟨f3, f4⟩ | ⟨w', k', f3, f4, _, _, f5, _⟩
    · refine .inl ⟨f3, f4.imp_right fun f5 L' acc' i1 i2 i3 => f5 L' acc' i1 (by omega) i3⟩
    · exact .inr ⟨w', f3, f4.trans h1, f5⟩
  · rw [h0] at hw; cases hw

theorem run_mask {rs : List Stmt} {s : Preds} (h : Preds.default.run true rs = .ok s) (q : QScope)
    (hm : ∀ r ∈ rs, r.kind = .limit q → r.op ≠ .mask0 ∧ r.op ≠ .mask1) : (s.state q).mask = .default 32 := by
  obtain ⟨es, a, he, ha, hl, rfl⟩ := run_default.1 h
  obtain ⟨m1, m2⟩ := effsOf_mem he
  exact effs_mask ha q ((m2 (fun e => ∀ op v, e = .st q op v → op ≠ .mask0 ∧ op ≠ .mask1)).2 fun r hr fs hfs => stmt_masks hfs (hm r hr))

theorem high_ok {rs : List Stmt} {s : Preds} (h : Preds.default.run true rs = .ok s) (q : QScope)
    (hm : ∀ r ∈ rs, r.kind = .limit q → r.op ≠ .mask0 ∧ r.op ≠ .mask1) (hp : SomePosition q rs) :
    ∀ r ∈ rs, CountOk q r (s.state q).bound.high.toNat := by
  rw [← run_count h]
  obtain ⟨k, hk, hc⟩ := hp
  have hck := (run_count h q (BitVec.ofNat 32 k)).2 (by rw [BitVec.toNat_ofNat, Nat.mod_eq_of_lt hk]; exact hc)
  refine ⟨⟨Nat.le_trans hck.1.1 hck.1.2, Nat.le_refl _⟩, ?_⟩
  rw [run_mask h q hm]
  exact (default_mem 32 _).2

/-- C33, the end: a watch that is still there has, for each of its counts, an accepted position left. Missing: with masks
on the positions it may stay although none is left (`watch_lingers`), and both counts may have one left but not together. -/
theorem watch_ends_partial {rs : List Stmt} {s : Preds} (h : Preds.default.run true rs = .ok s) (hr : ∀ r ∈ rs, Plain r) (hnew : SomePosition .new rs)
    (hm : ∀ r ∈ rs, ∀ q, r.kind = .limit q → r.op ≠ .mask0 ∧ r.op ≠ .mask1)
    {id : Bytes} {nth : BitVec 32} {c : C} {w : Watch C} (hw : Watch.new id s nth c = .ok w) (cb : C → NetParts → C × Bool)
    {L : List (Nat × NetParts)} (hL : Incoming L) (hs : ∀ e ∈ L, ∃ x, Shows e.2 x) (hb : nth.toNat + L.length < 2 ^ 32) {calls : List (Nat × NetParts)}
    {m : Matcher C} (hf : feed cb [w] L = .ok (calls, m)) (hne : m ≠ []) :
    ∃ k, (∀ L' a, Taken rs nth.toNat k L' a → ∃ acc, Taken rs nth.toNat 0 (L ++ L') (acc ++ a)) ∧
      (∃ i, k ≤ i ∧ i < 2 ^ 32 ∧ ∀ r ∈ rs, CountOk .new r i) ∧ ∃ i, nth.toNat + k ≤ i ∧ i < 2 ^ 32 ∧ ∀ r ∈ rs, CountOk .query r i := by
  rcases watch_made h hnew id nth c with ⟨w0, h0, h1, h2, h3, hleft⟩ | ⟨h0, _⟩
  · rw [h0] at hw; cases hw
    obtain ⟨acc, m', f1, f2, f3⟩ := feed_one h hr hnew cb L hL hs h3 (by omega)
    rw [hf] at f1
    cases f1
    rcases f3 with ⟨f3, _⟩ | ⟨w', k', f3, f4, _, _, f5, f6, f7⟩
    · exact absurd f3 hne
    · refine ⟨k', fun L' a ha => ⟨acc, f7 a L' ha⟩, ?_⟩
      rcases f6 with rfl | ⟨f6, f7⟩
      · obtain ⟨k, hk, hc⟩ := hnew
        exact ⟨⟨k, by omega, hk, hc⟩, hleft⟩
      · exact ⟨⟨_, f6, (s.state .new).bound.high.isLt, high_ok h .new (fun r hr => hm r hr _) hnew⟩,
          ⟨_, f7, (s.state .query).bound.high.isLt, high_ok h .query (fun r hr => hm r hr _) (query_position h)⟩⟩
  · rw [h0] at hw; cases hw

/-- Collecting removes only watches that no packet received after `t` can match. -/
theorem gc_safe {rs : List Stmt} {s : Preds} (h : Preds.default.run true rs = .ok s) (hr : ∀ r ∈ rs, Plain r) {m : Matcher C} {w : Watch C}
    (hw : w.recv = s.recv) (hm : w ∈ m) {t : Nat} (hg : w ∉ (gc m t).1) {i : Nat} (hi : t < i) (h64 : i < 2 ^ 64) (p : NetParts) : ¬ Meets rs i p := by
  rintro ⟨x, _, _, hx⟩
  have := (run_recv h hr (BitVec.ofNat 64 i)).2 (by rw [BitVec.toNat_ofNat, Nat.mod_eq_of_lt h64]; exact hx)
  have h2 := this.2
  rw [BitVec.toNat_ofNat, Nat.mod_eq_of_lt h64, ← hw] at h2
  apply hg
  show w ∈ m.filter _
  rw [List.mem_filter, decide_eq_true_iff]
  exact ⟨hm, by show t < _; omega⟩

theorem foldl_min (l : List (Watch C)) (a : Nat) :
    (l.foldl (fun a e => min e.recv.high.toNat a) a ≤ a ∧ ∀ w ∈ l, l.foldl (fun a e => min e.recv.high.toNat a) a ≤ w.recv.high.toNat) ∧
      (l.foldl (fun a e => min e.recv.high.toNat a) a = a ∨ ∃ w ∈ l, l.foldl (fun a e => min e.recv.high.toNat a) a = w.recv.high.toNat) := by
  induction l generalizing a with
  | nil => exact ⟨⟨Nat.le_refl _, nofun⟩, .inl rfl⟩
  | cons x l ih =>
    obtain ⟨⟨h1, h2⟩, h3⟩ := ih (min x.recv.high.toNat a)
    rw [List.foldl_cons]
    refine ⟨⟨by omega, fun w hw => ?_⟩, ?_⟩
    · rcases List.mem_cons.1 hw with rfl | hw
      · omega
      · exact h2 w hw
    · rcases h3 with h3 | ⟨w, hw, h3⟩
      · rcases Nat.le_total x.recv.high.toNat a with h | h
        · exact .inr ⟨x, List.mem_cons_self, by omega⟩
        · exact .inl (by omega)
      · exact .inr ⟨w, List.mem_cons_of_mem _ hw, h3⟩

/-- The stamp that collecting answers is the first last stamp of the watches that are left: none of them is over before,
one of them is then. Without an answer no watch is left. -/
theorem gc_deadline (m : Matcher C) (t : Nat) :
    match (gc m t).2 with
    | none => ∀ w ∈ m, w.recv.high.toNat ≤ t
    | some d => t < d ∧ (∃ w ∈ m, w.recv.high.toNat = d) ∧ ∀ w ∈ m, t < w.recv.high.toNat → d ≤ w.recv.high.toNat := by
  have hmem : ∀ w, w ∈ (gc m t).1 ↔ w ∈ m ∧ t < w.recv.high.toNat := by
    intro w
    show w ∈ m.filter _ ↔ _
    rw [List.mem_filter, decide_eq_true_iff]
  have he : (gc m t).2 = if (gc m t).1.isEmpty then none else some ((gc m t).1.foldl (fun a e => min e.recv.high.toNat a) (2 ^ 64 - 1)) := rfl
  generalize (gc m t).1 = l at hmem he
  rw [he]
  cases l with
  | nil =>
    intro w hw
    apply Nat.le_of_not_lt
    intro h
    exact absurd ((hmem w).2 ⟨hw, h⟩) (by simp)
  | cons x l =>
    obtain ⟨⟨h1, h2⟩, h3⟩ := foldl_min (x :: l) (2 ^ 64 - 1)
    obtain ⟨w, hw, h4⟩ : ∃ w ∈ x :: l, (x :: l).foldl (fun a e => min e.recv.high.toNat a) (2 ^ 64 - 1) = w.recv.high.toNat := by
      rcases h3 with h3 | h3
      · have := h2 x List.mem_cons_self
        have := x.recv.high.isLt
        exact ⟨x, List.mem_cons_self, by omega⟩
      · exact h3
    show t < _ ∧ _ ∧ _
    refine ⟨by rw [h4]; exact ((hmem w).1 hw).2, ⟨w, ((hmem w).1 hw).1, h4.symm⟩, fun v hv hlt => h2 v ((hmem v).2 ⟨hv, hlt⟩)⟩

/-! ### cases -/

/-- A watch with the given statements. -/
def exWatch (id : Bytes) (nth : Nat) (rs : List Stmt) : Option (Watch Nat) :=
  match Preds.default.run true rs with
  | .error _ => none
  | .ok s => match Watch.new id s (BitVec.ofNat 32 nth) 0 with
    | .error _ => none
    | .ok w => some w

/-- Counts its calls and breaks at the third. -/
def exCb (c : Nat) (_ : NetParts) : Nat × Bool := (c + 1, c == 2)

/-- The ids and callback states of the watches after some events, and who is looked up under an id. -/
def exRun (es : List (Option (MEvent Nat))) (id : Bytes) : Option (List (List Nat × Nat) × Option Nat) :=
  match runM exCb [] (es.filterMap (fun e => e)) with
  | .error _ => none
  | .ok m => some (m.map (fun w => (w.queryId.map UInt8.toNat, w.ctx)), (get m id).map (fun w => w.ctx))

def exReg (id : Bytes) (rs : List Stmt) : Option (MEvent Nat) := (exWatch id 0 rs).map (fun w => .register 50 w)

/-- Registering out of order, twice under one id, packets, and stopping. -/
theorem exRun_watches :
    exRun [exReg [2] [], exReg [1] [recvStmt .less 102], exReg [1, 5] [], some (.packet 101 (exPkt [[65]] 7 1)), exReg [2] [],
      some (.packet 102 (exPkt [[65]] 8 2))] [2] = some ([([1, 5], 2), ([2], 1)], some 1) ∧
    exRun [exReg [2] [], exReg [1] [], exReg [1, 5] [], some (.stop [1] true)] [2] = some ([([2], 0)], some 0) ∧
    exRun [exReg [2] [], exReg [1, 5] [], some (.stop [1] true)] [2] = some ([([1, 5], 0), ([2], 0)], some 0) := by decide +kernel

/-- Feeding one watch with `n` packets: those given to the callback, and whether the watch is still there. -/
def exFeed (nth : Nat) (rs : List Stmt) (n : Nat) : Option (List Nat × Bool) :=
  (exWatch [1] nth rs).bind fun w =>
    match feed exCb [w] ((List.range n).map (fun i => (100 + i, exPkt [[65]] i 1))) with
    | .error _ => none
    | .ok (d, m) => some (d.map (·.1), !m.isEmpty)

/-- The callback breaks at the third call; a position bound or a receive bound ends the watch. -/
theorem exFeed_ends : exFeed 0 [createStmt .greater 1] 7 = some ([102, 103, 104], false) ∧
    exFeed 1 [createStmt .greater 1, limitStmt .query .less 3] 7 = some ([102, 103], false) ∧
    exFeed 1 [limitStmt .new .greater 2] 5 = some ([103, 104], true) ∧
    exFeed 0 [recvStmt .less 102] 3 = some ([100, 101], false) ∧
    exFeed 3 [limitStmt .query .less 3] 3 = none := by decide +kernel

/-- `watch_ends_partial` needs its hypothesis: with a mask that allows the positions 0 and 1 only, the watch stays. -/
theorem watch_lingers : exFeed 0 [limitStmt .query .mask0 1] 5 = some ([100, 101], true) := by decide +kernel

/-- The hypotheses of the theorems on watches are met. -/
theorem exFeed_meets : ∃ s w, Preds.default.run true [createStmt .greater 1] = .ok s ∧ (∀ r ∈ [createStmt .greater 1], Plain r) ∧
    SomePosition .new [createStmt .greater 1] ∧ (∀ r ∈ [createStmt .greater 1], ∀ q, r.kind = .limit q → r.op ≠ .mask0 ∧ r.op ≠ .mask1) ∧
    Watch.new [1] s 0#32 () = .ok w := by
  have h3 : (match Preds.default.run true [createStmt .greater 1] with
      | .ok _ => true
      | .error _ => false) = true := by decide +kernel
  have hp : ∀ P : Stmt → Prop, P (createStmt .greater 1) → ∀ r ∈ [createStmt .greater 1], P r := by
    intro P h r hr; rw [List.mem_singleton] at hr; rw [hr]; exact h
  have hn : SomePosition .new [createStmt .greater 1] := ⟨0, by decide, countOk_absent (q := .new) nofun (hp _ nofun) 0⟩
  split at h3
  · rename_i s hs
    rcases watch_made hs hn [1] 0#32 () with ⟨w, hw, _⟩ | ⟨_, hno⟩
    · exact ⟨s, w, hs, hp _ ⟨fun h => (by rcases h with h | h <;> cases h), fun h => (by rcases h with h | h <;> cases h), fun h => (by cases h)⟩, hn,
        hp _ nofun, hw⟩
    · refine absurd ?_ (hno 0 (by simp) (by decide))
      exact hp _ ⟨nofun, nofun⟩
  · cases h3

/-- Of two watches with a last receive stamp one is over at 105; the other and one without are left. -/
theorem exGc : ((exWatch [1] 0 [recvStmt .less 102]).bind fun a => (exWatch [2] 0 [recvStmt .less 108]).bind fun b => (exWatch [3] 0 []).map fun c =>
    (((gc [a, b, c] 105).1.map (fun w => w.queryId)), (gc [a, b, c] 105).2, (gc [a] 105).2)) = some ([[2], [3]], some 107, none) := by decide +kernel

end Verif.Props
