import Verif.Model.Api
import Verif.Spec.Api
import Verif.Props.Query
import Verif.Props.TreeQuery
/-!
# C61: `lk_get_all`, `lk_get` and `lk_get_hashes`
-/
namespace Verif.Props
open Verif Verif.Pkt Verif.Tree Verif.Pred Verif.Env Verif.Spec Verif.Query

theorem loop_fed {α} {t : TestSet 32} {cb : List α → α → Bool} {n m : BitVec 32} {xs out : List α} (h : select t n xs = .ok (out, m))
    (seen : List α) : ∃ g b c, getLoop t cb seen n xs = .ok (seen ++ g, b, c) ∧ Fed cb seen out g b := by
  induction xs generalizing n m out seen with
  | nil => cases h; exact ⟨[], false, n, by simp [getLoop], .done _⟩
  | cons x xs ih =>
    rw [select] at h
    rw [getLoop]
    cases hm : t.memberNext true n with
    | error e => rw [hm] at h; cases h
    | ok o =>
      rw [hm] at h
      cases o with
      | none => cases h; exact ⟨[], false, n, by simp, .done _⟩
      | some p =>
        obtain ⟨b, n'⟩ := p
        dsimp only at h
        cases hs : select t n' xs with
        | error e => rw [hs] at h; cases h
        | ok q =>
          obtain ⟨l, k⟩ := q
          rw [hs] at h
          cases h
          cases b with
          | false => exact ih hs seen
          | true =>
            dsimp only
            cases hc : cb seen x with
            | true => exact ⟨[x], true, n', by simp, .stop _ hc⟩
            | false =>
              obtain ⟨g, b, c, h1, h2⟩ := ih hs (seen ++ [x])
              exact ⟨x :: g, b, c, by simp [h1], .go hc h2⟩

theorem loop_bounds {α} {t : TestSet 32} {cb : List α → α → Bool} {n c : BitVec 32} {xs seen seen' : List α} {b : Bool}
    (hn : n.toNat + xs.length < 2 ^ 32) (h : getLoop t cb seen n xs = .ok (seen', b, c)) :
    n.toNat + seen'.length ≤ c.toNat + seen.length ∧ c.toNat ≤ n.toNat + xs.length := by
  induction xs generalizing n seen with
  | nil => cases h; simp
  | cons x xs ih =>
    rw [List.length_cons] at hn
    rw [getLoop] at h
    unfold TestSet.memberNext at h
    by_cases hlt : t.bound.high < n
    · rw [if_pos hlt] at h; cases h; simp
    · rw [if_neg hlt] at h
      cases ht : t.test true n with
      | error e => rw [ht] at h; cases h
      | ok r =>
        rw [ht] at h
        dsimp only at h
        cases hi : inc n with
        | none => have := inc_none hi; omega
        | some n' =>
          have hn' := inc_some hi
          rw [hi] at h
          cases r with
          | false =>
            have := ih (by omega) h
            simp only [List.length_cons]
            omega
          | true =>
            dsimp only at h
            split at h
            · cases h
              simp only [List.length_append, List.length_cons, List.length_nil]
              omega
            · have := ih (by omega) h
              simp only [List.length_append, List.length_cons, List.length_nil] at this ⊢
              omega

theorem loop_exact {α} {t : TestSet 32} {cb : List α → α → Bool} {n c : BitVec 32} {xs seen seen' : List α} {b : Bool}
    (ht : ∀ v, t.bound.Mem v → t.test true v = .ok true) (hl : t.bound.low = 0#32)
    (hn : n.toNat + xs.length < 2 ^ 32) (h : getLoop t cb seen n xs = .ok (seen', b, c)) :
    n.toNat + seen'.length = c.toNat + seen.length := by
  induction xs generalizing n seen with
  | nil => cases h; omega
  | cons x xs ih =>
    rw [List.length_cons] at hn
    rw [getLoop] at h
    unfold TestSet.memberNext at h
    by_cases hlt : t.bound.high < n
    · rw [if_pos hlt] at h; cases h; omega
    · rw [if_neg hlt, ht n ⟨by rw [hl]; exact Nat.zero_le _, by simp only [BitVec.lt_def] at hlt; omega⟩] at h
      dsimp only at h
      cases hi : inc n with
      | none => have := inc_none hi; omega
      | some n' =>
        have hn' := inc_some hi
        rw [hi] at h
        dsimp only at h
        split at h
        · cases h
          simp only [List.length_append, List.length_cons, List.length_nil]
          omega
        · have := ih (by omega) h
          simp only [List.length_append, List.length_cons, List.length_nil] at this ⊢
          omega

/-- **C61.** The callback of `lk_get_all` is given the results of the query one by one, in order, until it says stop. The
number returned has the sign that tells whether it did, and its size is the number of packets that were counted: at
least those given. -/
theorem get_all_feeds {db : Db} {m : Mode} {s : Preds} {l out : List (Nat × NetParts)} {n : BitVec 32}
    (hl : candidates db m s = .ok l) (hlen : l.length < 2 ^ 31) (h : query db m s 0#32 = .ok (out, n))
    (cb : List (Nat × NetParts) → Nat × NetParts → Bool) :
    ∃ given b c, Fed cb [] out given b ∧ getAllWith db m s cb = .ok (given, SignedCount c b) ∧ given.length ≤ c ∧ c ≤ l.length := by
  unfold query at h
  rw [hl] at h
  obtain ⟨g, b, c, h1, h2⟩ := loop_fed (cb := cb) h []
  rw [List.nil_append] at h1
  have h3 := loop_bounds (by simp; omega) h1
  have h4 : (0#32).toNat = 0 := rfl
  simp only [h4, List.length_nil] at h3
  refine ⟨g, b, c.toNat, h2, ?_, by omega, by omega⟩
  unfold getAllWith
  rw [hl]
  simp only [h1]
  cases b with
  | false =>
    simp only [satCast, SignedCount]
    rw [if_neg (by decide), Int.min_eq_left (by omega)]
  | true =>
    simp only [satNegCast]
    rw [if_neg (by omega), if_neg (by omega)]
    simp [SignedCount]

/-- If the `i` statements have no masks and allow the first position, the number is that of the packets given. -/
theorem get_all_counts_partial {rs : List Stmt} {s : Preds} (h : Preds.default.run true rs = .ok s)
    (hm : ∀ r ∈ rs, r.kind = .limit .query → r.op ≠ .mask0 ∧ r.op ≠ .mask1) (h0 : ∀ r ∈ rs, CountOk .query r 0)
    {db : Db} {m : Mode} {l : List (Nat × NetParts)} (hl : candidates db m s = .ok l) (hlen : l.length < 2 ^ 31)
    (cb : List (Nat × NetParts) → Nat × NetParts → Bool) :
    ∃ out n given b, query db m s 0#32 = .ok (out, n) ∧ Fed cb [] out given b ∧ getAllWith db m s cb = .ok (given, SignedCount given.length b) := by
  have hmask : (s.state .query).mask = .default 32 := by
    obtain ⟨es, a, he, ha, hl, rfl⟩ := run_default.1 h
    obtain ⟨m1, m2⟩ := effsOf_mem he
    have h1 := effs_mask ha .query ((m2 (fun e => ∀ op v, e = .st .query op v → op ≠ .mask0 ∧ op ≠ .mask1)).2
      fun r hr fs hfs => stmt_masks hfs (hm r hr))
    exact h1
  have hmem : (s.state .query).Mem 0#32 := (run_count h .query 0#32).2 h0
  have hlow : (s.state .query).bound.low = 0#32 := BitVec.eq_of_toNat_eq (Nat.le_antisymm hmem.1.1 (Nat.zero_le _))
  have hany : (s.state .query).mask.hasAny = true := mask_hasAny_of_test hmem.2
  have htest : ∀ v, (s.state .query).bound.Mem v → (s.state .query).test true v = .ok true := by
    intro v hv
    rcases test_iff (w := 32) (by decide) (by decide) true (s.state .query) v (.inr hany) with ⟨e, _⟩ | ⟨_, e⟩
    · exact e
    · refine absurd ⟨hv, ?_⟩ e
      rw [hmask]
      exact (default_mem 32 v).2
  obtain ⟨out, n, hq, _⟩ := query_counts h 0#32 hl
  have hq' := hq
  unfold query at hq'
  rw [hl] at hq'
  obtain ⟨g, b', c', e1, e2⟩ := loop_fed (cb := cb) hq' []
  rw [List.nil_append] at e1
  have e3 := loop_exact htest hlow (by simp; omega) e1
  have h5 : (0#32).toNat = 0 := rfl
  simp only [h5, List.length_nil] at e3
  have hle : g.length ≤ l.length := by
    have := loop_bounds (by simp; omega) e1
    simp only [h5, List.length_nil] at this
    omega
  refine ⟨out, n, g, b', hq, e2, ?_⟩
  · unfold getAllWith
    rw [hl]
    simp only [e1]
    cases b' with
    | false =>
      simp only [satCast, SignedCount]
      rw [if_neg (by decide), Int.min_eq_left (by omega)]
      congr 2; omega
    | true =>
      simp only [satNegCast]
      rw [if_neg (by omega), if_neg (by omega)]
      simp only [SignedCount, if_true]
      congr 2; omega

/-- Missing above: with a statement that skips the first positions the number is larger than that of the packets given. -/
theorem get_all_counts_skipped :
    (match Preds.default.run true [limitStmt .query .greater 0] with
      | .ok s => (match getAllWith exDb ⟨.log, true⟩ s (fun _ _ => false) with
        | .ok r => some (r.1.map (·.1), r.2)
        | .error _ => none)
      | .error _ => none) = some ([101, 102], 3) := by decide +kernel

/-- **Negative.** Stopping after `2 ^ 31` counted packets overflows. -/
theorem break_overflows : satNegCast (BitVec.ofNat 32 (2 ^ 31)) = .error .panic := by decide

/-! ### the first result -/

theorem counted_head {rs : List Stmt} {sel out : List (Nat × NetParts)} (h : Counted rs 0 sel out)
    (hi : ∀ r ∈ rs, CountOk .index r 0) (hq : ∀ r ∈ rs, CountOk .query r 0) : out.head? = sel.head? := by
  obtain ⟨mid, h1, h2⟩ := h
  have e1 : mid.head? = sel.head? := by
    cases h1 with
    | nil => rfl
    | take => rfl
    | skip x hx _ => exact absurd hi hx
  rw [← e1]
  cases h2 with
  | nil => rfl
  | take => rfl
  | skip x hx _ => exact absurd hq hx

/-- `lk_get` answers `r`: nothing if no stored packet is asked for, otherwise one that is and comes before all others that
are. -/
def FirstOf (db : Db) (M : Nat × NetParts → Prop) (R : Nat × NetParts → Nat × NetParts → Prop) (r : Option (Nat × NetParts)) : Prop :=
  match r with
  | none => ∀ e ∈ db.log, ¬ M e
  | some e => e ∈ db.log ∧ M e ∧ ∀ f ∈ db.log, M f → f = e ∨ R e f

theorem first_of {rs : List Stmt} {s : Preds} {db : Db} {m : Mode} {sel out : List (Nat × NetParts)} {n : BitVec 32}
    {M : Nat × NetParts → Prop} {R : Nat × NetParts → Nat × NetParts → Prop}
    (hq : query db m s 0#32 = .ok (out, n)) (hc : Counted rs 0 sel out) (hp : sel.Pairwise R) (hs : ∀ e, e ∈ sel ↔ e ∈ db.log ∧ M e)
    (h1 : ∀ r ∈ rs, CountOk .index r 0) (h2 : ∀ r ∈ rs, CountOk .query r 0) :
    ∃ r, getFirst db m s = .ok r ∧ FirstOf db M R r := by
  refine ⟨sel.head?, ?_, ?_⟩
  · unfold getFirst getAll
    rw [hq, ← counted_head hc h1 h2]
  · cases sel with
    | nil =>
      intro e he hm
      exact absurd ((hs e).2 ⟨he, hm⟩) (by simp)
    | cons x xs =>
      refine ⟨((hs x).1 (by simp)).1, ((hs x).1 (by simp)).2, fun f hf hm => ?_⟩
      rcases List.mem_cons.1 ((hs f).2 ⟨hf, hm⟩) with h | h
      · exact .inl h
      · exact .inr ((List.pairwise_cons.1 hp).1 f h)

/-- `lk_get` on the log gives the oldest packet that meets the statements. -/
theorem get_oldest_partial {rs : List Stmt} {s : Preds} (h : Preds.default.run true rs = .ok s) (hr : ∀ r ∈ rs, Plain r)
    (hb : ∀ r ∈ rs, r.kind ≠ .limit .branch) (hi : ∀ r ∈ rs, CountOk .index r 0) (hq : ∀ r ∈ rs, CountOk .query r 0)
    (hu : ∀ r ∈ rs, r.kind = .recv → r.op = .greater) {db : Db} (hc : Consistent db) (hw : AllShow db) :
    ∃ r, getFirst db ⟨.log, true⟩ s = .ok r ∧ FirstOf db (fun e => Meets rs e.1 e.2) (RecvBefore true) r := by
  obtain ⟨sel, out, n, h1, h2, h3, h4⟩ := log_query_asc_partial h hr hb ⟨0, by decide, hi⟩ hu hc hw 0#32
  exact first_of h1 h2 h3 h4 hi hq

/-- And backwards the newest, when no statement is about the receive stamp. -/
theorem get_newest_partial {rs : List Stmt} {s : Preds} (h : Preds.default.run true rs = .ok s) (hr : ∀ r ∈ rs, Plain r)
    (hb : ∀ r ∈ rs, r.kind ≠ .limit .branch) (hi : ∀ r ∈ rs, CountOk .index r 0) (hq : ∀ r ∈ rs, CountOk .query r 0)
    (hu : ∀ r ∈ rs, r.kind ≠ .recv) {db : Db} (hc : Consistent db) (hw : AllShow db) :
    ∃ r, getFirst db ⟨.log, false⟩ s = .ok r ∧ FirstOf db (fun e => Meets rs e.1 e.2) (RecvBefore false) r := by
  obtain ⟨sel, out, n, h1, h2, h3, h4⟩ := log_query_desc_partial h hr hb ⟨0, by decide, hi⟩ hu hc hw 0#32
  exact first_of h1 h2 h3 h4 hi hq

/-- On the hashes it gives the packet with the smallest hash. -/
theorem get_hash_first_partial {rs : List Stmt} {s : Preds} (h : Preds.default.run true rs = .ok s) (hr : ∀ r ∈ rs, Plain r)
    (hi : ∀ r ∈ rs, CountOk .index r 0) (hq : ∀ r ∈ rs, CountOk .query r 0) {db : Db} (hc : Consistent db) (hw : AllShow db) :
    ∃ r, getFirst db ⟨.hash, true⟩ s = .ok r ∧ FirstOf db (fun e => Meets rs e.1 e.2) (fun a b => BytesBefore a.2.hash b.2.hash) r := by
  obtain ⟨sel, out, n, h1, h2, h3, h4⟩ := hash_query_partial h hr ⟨0, by decide, hi⟩ hc hw 0#32
  exact first_of h1 h2 h3 h4 hi hq

/-- In a tree query that is answered in full (C28) it gives the first of the tree: forwards the oldest, backwards the newest
packet of the first key. -/
theorem get_tree_first_partial {rs : List Stmt} {s : Preds} {asc : Bool} {db : Db} (h : TreeAnswer db rs asc s 0#32)
    (hi : ∀ r ∈ rs, CountOk .index r 0) (hq : ∀ r ∈ rs, CountOk .query r 0) :
    ∃ r, getFirst db ⟨.tree, asc⟩ s = .ok r ∧
      FirstOf db (fun e => Meets rs e.1 e.2 ∧ ∃ t, HasTuple e.2 t) (fun e f => TreeBefore asc e.2 f.2) r := by
  obtain ⟨sel, out, n, h1, h2, h3, h4⟩ := h
  exact first_of h1 h2 h3 h4 hi hq

/-! ### by hash -/

theorem hashLoop_fed {db : Db} (cb : List (Nat × NetParts) → Nat × NetParts → Bool) (hs : List Bytes) (seen : List (Nat × NetParts)) (c : BitVec 32)
    (hc : c.toNat + hs.length < 2 ^ 31) : ∃ given b, Fed cb seen (hs.filterMap db.read) given b ∧
      hashLoop db cb seen c hs = .ok (seen ++ given, SignedCount (c.toNat + given.length) b) := by
  induction hs generalizing seen c with
  | nil =>
    refine ⟨[], false, .done _, ?_⟩
    simp only [hashLoop, satCast, SignedCount, List.append_nil, List.length_nil, Nat.add_zero]
    rw [if_neg (by decide), Int.min_eq_left (by omega)]
  | cons h hs ih =>
    rw [List.length_cons] at hc
    rw [hashLoop]
    cases hr : db.read h with
    | none =>
      rw [List.filterMap_cons_none hr]
      exact ih seen c (by omega)
    | some x =>
      rw [List.filterMap_cons_some hr]
      dsimp only
      rw [if_pos (by omega)]
      have e : (c + 1).toNat = c.toNat + 1 := by
        rw [BitVec.toNat_add]
        show (c.toNat + 1) % _ = _
        omega
      cases hcb : cb seen x with
      | true =>
        refine ⟨[x], true, .stop _ hcb, ?_⟩
        simp only [if_true, satNegCast, e]
        rw [if_neg (by omega), if_neg (by omega)]
        simp [SignedCount]
      | false =>
        obtain ⟨g, b, h1, h2⟩ := ih (seen ++ [x]) (c + 1) (by omega)
        refine ⟨x :: g, b, .go hcb h1, ?_⟩
        rw [if_neg (by decide), h2, e]
        simp only [List.append_assoc, List.singleton_append, List.length_cons]
        congr 3; omega

/-- `lk_get_hashes` gives the callback the stored packets with the given hashes, in the order of the hashes, until it says
stop, and returns how many it gave. -/
theorem get_hashes_feeds {db : Db} (hs : List Bytes) (hlen : hs.length < 2 ^ 31) (cb : List (Nat × NetParts) → Nat × NetParts → Bool) :
    ∃ given b, Fed cb [] (hs.filterMap db.read) given b ∧ getHashes db hs cb = .ok (given, SignedCount given.length b) := by
  obtain ⟨g, b, h1, h2⟩ := hashLoop_fed (db := db) cb hs [] 0#32 (by simpa using hlen)
  refine ⟨g, b, h1, ?_⟩
  unfold getHashes
  rw [h2]
  simp

/-- The query of `exLogQuery_meets` also meets the hypotheses about positions. -/
theorem exLogQuery_first : (∀ r ∈ exLogQuery, CountOk .index r 0) ∧ (∀ r ∈ exLogQuery, CountOk .query r 0) ∧
    ∀ r ∈ exLogQuery, r.kind = .limit .query → r.op ≠ .mask0 ∧ r.op ≠ .mask1 := by
  have h2 : ∀ P : Stmt → Prop, P (recvStmt .greater 100) → P (createStmt .greater 2) → ∀ r ∈ exLogQuery, P r := by
    intro P h1 h2 r hr
    simp only [exLogQuery, List.mem_cons, List.not_mem_nil, or_false] at hr
    rcases hr with rfl | rfl
    · exact h1
    · exact h2
  exact ⟨h2 _ ⟨nofun, nofun⟩ ⟨nofun, nofun⟩, h2 _ ⟨nofun, nofun⟩ ⟨nofun, nofun⟩, h2 _ nofun nofun⟩

/-- A callback that stops at its second packet. -/
theorem exLogQuery_stops :
    (match Preds.default.run true [] with
      | .ok s => (match getAllWith exDb ⟨.log, true⟩ s (fun seen _ => seen.length == 1), getFirst exDb ⟨.log, true⟩ s, getFirst exDb ⟨.log, false⟩ s with
        | .ok r, .ok f, .ok g => some (r.1.map (·.1), r.2, f.map (·.1), g.map (·.1))
        | _, _, _ => none)
      | .error _ => none) = some ([100, 101], -2, some 100, some 102) := by decide +kernel

end Verif.Props
