import Verif.Lemmas.Query3
/-!
# C20, C29, C30, C47: counting, queries on the log, on the hashes, and stamp ranges
-/
namespace Verif.Props
open Verif Verif.Pkt Verif.Tree Verif.Pred Verif.Env Verif.Spec Verif.Query

/-! ## C20: the `i` statements -/

/-- Whatever the candidates are, the query answers those whose position satisfies the `i` statements, in order. -/
theorem query_counts {rs : List Stmt} {s : Preds} (h : Preds.default.run true rs = .ok s) {db : Db} {m : Mode} (nth : BitVec 32)
    {l : List (Nat × NetParts)} (hl : candidates db m s = .ok l) :
    ∃ out n, query db m s nth = .ok (out, n) ∧ Picks (fun i => ∀ r ∈ rs, CountOk .query r (position i)) nth.toNat l out := by
  unfold query
  rw [hl]
  exact select_query h nth l

/-- Up to the width of the counter a position is itself. -/
theorem query_counts_exact {rs : List Stmt} {s : Preds} (h : Preds.default.run true rs = .ok s) {db : Db} {m : Mode} (nth : BitVec 32)
    {l : List (Nat × NetParts)} (hl : candidates db m s = .ok l) (hn : nth.toNat + l.length ≤ 2 ^ 32) :
    ∃ out n, query db m s nth = .ok (out, n) ∧ Picks (fun i => ∀ r ∈ rs, CountOk .query r i) nth.toNat l out := by
  obtain ⟨out, n, h1, h2⟩ := query_counts h nth hl
  refine ⟨out, n, h1, picks_congr' (fun i hi h3 => ?_) h2⟩
  have : position i = i := by unfold position; omega
  rw [this]

theorem eff_mask {a a' : Abs} {e : Eff} (h : a.eff e = some a') (q : QScope)
    (he : ∀ op v, e = .st q op v → op ≠ .mask0 ∧ op ≠ .mask1) : (a'.state q).mask = (a.state q).mask := by
  cases e with
  | add f op v => cases h; rfl
  | st r op v =>
    cases h
    simp only [Abs.addState]
    by_cases hq : q = r
    · subst hq
      obtain ⟨h0, h1⟩ := he op v rfl
      simp only [if_true, TestSet.add]
      cases op <;> first | rfl | exact absurd rfl h0 | exact absurd rfl h1
    · simp [hq]
  | rcv op v => cases h; rfl
  | pre cs =>
    simp only [Abs.eff, Option.map_eq_some_iff] at h
    obtain ⟨q, _, rfl⟩ := h
    rw [addGt_state]

theorem effs_mask {a a' : Abs} {es : List Eff} (h : a.effs es = some a') (q : QScope)
    (he : ∀ e ∈ es, ∀ op v, e = .st q op v → op ≠ .mask0 ∧ op ≠ .mask1) : (a'.state q).mask = (a.state q).mask := by
  induction es generalizing a with
  | nil => cases h; rfl
  | cons e es ih =>
    simp only [Abs.effs] at h
    cases hb : a.eff e with
    | none => rw [hb] at h; cases h
    | some b =>
      rw [hb] at h
      rw [ih h (fun e' h' => he e' (by simp [h'])), eff_mask hb q (he e (by simp))]

theorem stmt_masks {r : Stmt} {es : List Eff} (he : r.effs = some es) {q : QScope} (hr : r.kind = .limit q → r.op ≠ .mask0 ∧ r.op ≠ .mask1) :
    ∀ e ∈ es, ∀ op v, e = .st q op v → op ≠ .mask0 ∧ op ≠ .mask1 := by
  obtain ⟨k, op, val⟩ := r
  intro e hm op' v heq
  subst heq
  cases k <;> simp only [Stmt.effs] at he
  case limit q' =>
    split at he
    · cases he
      rw [List.mem_singleton] at hm
      cases hm
      exact hr rfl
    · cases he
  case field f =>
    split at he
    · cases he
      rcases List.mem_append.1 hm with hm | hm
      · simp at hm
      · split at hm
        · rw [List.mem_singleton] at hm
          cases hm
          simp
        · cases hm
    · cases he
  case todo => cases he
  case recv =>
    split at he
    · cases he; simp at hm
    · cases he
  all_goals
    split at he
    · simp only [Option.map_eq_some_iff] at he
      obtain ⟨cs, _, rfl⟩ := he
      simp at hm
    · cases he

/-- When no position from the end of `xs` on is allowed, one candidate more is read and no other: what comes after it
does not matter. Statements with masks are left out (`masks_read_on`). -/
theorem count_stops_partial {rs : List Stmt} {s : Preds} (h : Preds.default.run true rs = .ok s)
    (hm : ∀ r ∈ rs, r.kind = .limit .query → r.op ≠ .mask0 ∧ r.op ≠ .mask1) (nth : BitVec 32) {α : Type} (xs : List α) (y : α) (ys : List α)
    (hn : nth.toNat + xs.length < 2 ^ 32) (hx : ∀ i, nth.toNat + xs.length ≤ i → i < 2 ^ 32 → ¬ ∀ r ∈ rs, CountOk .query r i) :
    select (s.state .query) nth (xs ++ y :: ys) = select (s.state .query) nth (xs ++ [y]) := by
  have hmask : (s.state .query).mask = .default 32 := by
    obtain ⟨es, a, he, ha, hl, rfl⟩ := run_default.1 h
    obtain ⟨m1, m2⟩ := effsOf_mem he
    have h1 := effs_mask ha .query ((m2 (fun e => ∀ op v, e = .st .query op v → op ≠ .mask0 ∧ op ≠ .mask1)).2
      fun r hr fs hfs => stmt_masks hfs (hm r hr))
    exact h1
  have hmem : ∀ v : BitVec 32, (s.state .query).Mem v ↔ (s.state .query).bound.Mem v := by
    intro v
    constructor
    · exact fun hh => hh.1
    · intro hh
      refine ⟨hh, ?_⟩
      rw [hmask]
      exact (default_mem 32 v).2
  obtain ⟨k, hk, hc⟩ := query_position h
  have hck : (s.state .query).bound.Mem (BitVec.ofNat 32 k) := by
    rw [← hmem, run_count h, BitVec.toNat_ofNat, Nat.mod_eq_of_lt hk]; exact hc
  have hhigh : (s.state .query).Mem (s.state .query).bound.high := by
    rw [hmem]
    exact ⟨Nat.le_trans hck.1 hck.2, Nat.le_refl _⟩
  have hlt : (s.state .query).bound.high.toNat < nth.toNat + xs.length := by
    apply Nat.lt_of_not_le
    intro hle
    exact hx _ hle (s.state .query).bound.high.isLt ((run_count h .query _).1 hhigh)
  have := select_stops (s.state .query) nth (xs ++ [y]) ys (by omega) (by simp) (by simp; omega)
  rw [List.append_assoc] at this
  exact this

/-! ## C29: queries on the log -/

theorem log_low {rs : List Stmt} {s : Preds} (h : Preds.default.run true rs = .ok s) (hr : ∀ r ∈ rs, Plain r) {i : Nat} (hi : i < 2 ^ 64) :
    s.recv.low.toNat ≤ i ↔ ∃ j, j ≤ i ∧ ∀ r ∈ rs, RecvOk r j := by
  obtain ⟨a, hl, hg, rfl⟩ := run_live h
  obtain ⟨x, hx1, hx2⟩ := hl.recv
  constructor
  · intro hlow
    refine ⟨a.recv.low.toNat, hlow, ?_⟩
    rw [← run_recv h hr]
    exact ⟨Nat.le_refl _, Nat.le_trans hx1 hx2⟩
  · rintro ⟨j, hj, hall⟩
    have hj2 : j < 2 ^ 64 := by omega
    have e : (BitVec.ofNat 64 j).toNat = j := by rw [BitVec.toNat_ofNat]; exact Nat.mod_eq_of_lt hj2
    have := (run_recv h hr (BitVec.ofNat 64 j)).2 (by rw [e]; exact hall)
    have h1 := this.1
    rw [e] at h1
    show a.recv.low.toNat ≤ i
    have h1 : a.recv.low.toNat ≤ j := h1
    omega

/-- What is left after the range of the log is known. -/
theorem log_query_range {rs : List Stmt} {s : Preds} (h : Preds.default.run true rs = .ok s) (hb : ∀ r ∈ rs, r.kind ≠ .limit .branch)
    (hi : SomePosition .index rs) {db : Db} {asc : Bool} (nth : BitVec 32) :
    ∃ out n, query db ⟨.log, asc⟩ s nth = .ok (out, n) ∧
      Counted rs nth.toNat ((logRange db (stampRange s.recv asc)).filter (fun e => s.test e.2)) out := by
  obtain ⟨l0, n0, h0, p0⟩ := select_index h .branch ⟨0, by decide, countOk_absent (q := .branch) nofun hb 0⟩ 0#32 (logRange db (stampRange s.recv asc))
  have e0 : l0 = logRange db (stampRange s.recv asc) := picks_all (fun i => countOk_absent (q := .branch) nofun hb _) p0
  subst e0
  obtain ⟨l1, n1, h1, p1⟩ := select_index h .index hi 0#32 ((logRange db (stampRange s.recv asc)).filter (fun e => s.test e.2))
  have hq : candidates db ⟨.log, asc⟩ s = .ok l1 := by
    simp only [candidates, queryLog, h0, h1]
  obtain ⟨out, n, h2, p2⟩ := query_counts h nth hq
  exact ⟨out, n, h2, l1, p1, p2⟩

theorem log_from {db : Db} (hc : Consistent db) (k : Nat) : db.logFrom k = db.log.filter (fun e => !decide (e.1 < k)) := by
  unfold Db.logFrom
  apply dropWhile_filter
  refine hc.logSorted.imp ?_
  intro a b hab hb
  simp only [decide_eq_true_eq] at hb ⊢
  omega

theorem filter_test {rs : List Stmt} {s : Preds} (h : Preds.default.run true rs = .ok s) (hr : ∀ r ∈ rs, Plain r) {db : Db}
    (hw : AllShow db) {e : Nat × NetParts} (he : e ∈ db.log) : s.test e.2 = true ↔ ∃ x, Shows e.2 x ∧ ∀ r ∈ rs, Sat r x := by
  obtain ⟨x, hx⟩ := hw e.1 e.2 he
  constructor
  · intro ht
    exact ⟨x, hx, (filter_exact h hr hx).1 ht⟩
  · rintro ⟨y, hy, ht⟩
    exact (filter_exact h hr hy).2 ht

/-- What a query in ascending log order answers: of the receive statements only the lower bound counts. -/
theorem log_query_asc {rs : List Stmt} {s : Preds} (h : Preds.default.run true rs = .ok s) (hr : ∀ r ∈ rs, Plain r)
    (hb : ∀ r ∈ rs, r.kind ≠ .limit .branch) (hi : SomePosition .index rs) {db : Db} (hc : Consistent db) (hw : AllShow db) (nth : BitVec 32) :
    ∃ sel out n, query db ⟨.log, true⟩ s nth = .ok (out, n) ∧ Counted rs nth.toNat sel out ∧ sel.Pairwise (RecvBefore true) ∧
      ∀ e, e ∈ sel ↔ e ∈ db.log ∧ (∃ x, Shows e.2 x ∧ ∀ r ∈ rs, Sat r x) ∧ ∃ j, j ≤ e.1 ∧ ∀ r ∈ rs, RecvOk r j := by
  obtain ⟨out, n, h1, h2⟩ := log_query_range h hb hi (db := db) (asc := true) nth
  refine ⟨_, out, n, h1, h2, ?_, ?_⟩
  all_goals
    obtain ⟨a, hl, hg, rfl⟩ := run_live h
    obtain ⟨x, hx1, hx2⟩ := hl.recv
    have hle : a.preds.recv.low.toNat ≤ a.preds.recv.high.toNat := Nat.le_trans hx1 hx2
    have hlr : logRange db (stampRange a.preds.recv true) = db.log.filter (fun e => !decide (e.1 < a.preds.recv.low.toNat)) := by
      unfold logRange stampRange
      rw [if_pos rfl, if_pos hle, log_from hc]
    rw [hlr]
  · apply List.Pairwise.filter
    apply List.Pairwise.filter
    exact hc.logSorted.imp (fun h => h)
  · intro e
    rw [List.mem_filter, List.mem_filter]
    constructor
    · rintro ⟨⟨h3, h4⟩, h5⟩
      refine ⟨h3, (filter_test h hr hw h3).1 h5, (log_low h hr (hc.stamps _ _ h3)).1 ?_⟩
      simpa using h4
    · rintro ⟨h3, h4, h5⟩
      refine ⟨⟨h3, ?_⟩, (filter_test h hr hw h3).2 h4⟩
      have := (log_low h hr (hc.stamps _ _ h3)).2 h5
      simpa using this

/-- In descending log order the receive statements do not count at all, if they allow more than one stamp. -/
theorem log_query_desc {rs : List Stmt} {s : Preds} (h : Preds.default.run true rs = .ok s) (hr : ∀ r ∈ rs, Plain r)
    (hb : ∀ r ∈ rs, r.kind ≠ .limit .branch) (hi : SomePosition .index rs) {db : Db} (hc : Consistent db) (hw : AllShow db) (nth : BitVec 32)
    {j k : Nat} (hjk : j < k) (hk : k < 2 ^ 64) (hj1 : ∀ r ∈ rs, RecvOk r j) (hk1 : ∀ r ∈ rs, RecvOk r k) :
    ∃ sel out n, query db ⟨.log, false⟩ s nth = .ok (out, n) ∧ Counted rs nth.toNat sel out ∧ sel.Pairwise (RecvBefore false) ∧
      ∀ e, e ∈ sel ↔ e ∈ db.log ∧ ∃ x, Shows e.2 x ∧ ∀ r ∈ rs, Sat r x := by
  obtain ⟨out, n, h1, h2⟩ := log_query_range h hb hi (db := db) (asc := false) nth
  have hlr : logRange db (stampRange s.recv false) = db.log.reverse := by
    have m1 := (run_recv h hr (BitVec.ofNat 64 j)).2 (by rw [BitVec.toNat_ofNat, Nat.mod_eq_of_lt (by omega)]; exact hj1)
    have m2 := (run_recv h hr (BitVec.ofNat 64 k)).2 (by rw [BitVec.toNat_ofNat, Nat.mod_eq_of_lt (by omega)]; exact hk1)
    unfold Bound.Mem at m1 m2
    rw [BitVec.toNat_ofNat, Nat.mod_eq_of_lt (by omega)] at m1 m2
    unfold logRange stampRange
    rw [if_neg (by decide : ¬ (false = true))]
    rw [if_neg (by simp only; omega)]
  rw [hlr] at h2
  refine ⟨_, out, n, h1, h2, ?_, ?_⟩
  · apply List.Pairwise.filter
    rw [List.pairwise_reverse]
    exact hc.logSorted.imp (fun h => h)
  · intro e
    rw [List.mem_filter, List.mem_reverse]
    constructor
    · rintro ⟨h3, h4⟩; exact ⟨h3, (filter_test h hr hw h3).1 h4⟩
    · rintro ⟨h3, h4⟩; exact ⟨h3, (filter_test h hr hw h3).2 h4⟩

/-- C29 in ascending order when receive stamps are bounded from below only. Missing: an upper bound is ignored
(`log_ignores_upper`). -/
theorem log_query_asc_partial {rs : List Stmt} {s : Preds} (h : Preds.default.run true rs = .ok s) (hr : ∀ r ∈ rs, Plain r)
    (hb : ∀ r ∈ rs, r.kind ≠ .limit .branch) (hi : SomePosition .index rs) (hu : ∀ r ∈ rs, r.kind = .recv → r.op = .greater)
    {db : Db} (hc : Consistent db) (hw : AllShow db) (nth : BitVec 32) :
    ∃ sel out n, query db ⟨.log, true⟩ s nth = .ok (out, n) ∧ Counted rs nth.toNat sel out ∧ sel.Pairwise (RecvBefore true) ∧
      ∀ e, e ∈ sel ↔ e ∈ db.log ∧ Meets rs e.1 e.2 := by
  obtain ⟨sel, out, n, h1, h2, h3, h4⟩ := log_query_asc h hr hb hi hc hw nth
  refine ⟨sel, out, n, h1, h2, h3, fun e => (h4 e).trans ?_⟩
  constructor
  · rintro ⟨h5, ⟨x, h6, h7⟩, j, hj, h8⟩
    refine ⟨h5, x, h6, h7, fun r hm hk => ?_⟩
    obtain ⟨b, b1, b2, b3⟩ := h8 r hm hk
    refine ⟨b, b1, b2, ?_⟩
    rw [hu r hm hk] at b3 ⊢
    exact Nat.lt_of_lt_of_le b3 hj
  · rintro ⟨h5, x, h6, h7, h8⟩
    exact ⟨h5, ⟨x, h6, h7⟩, e.1, Nat.le_refl _, h8⟩

/-- C29 in descending order without receive statements. Missing: all of them are ignored (`log_desc_ignores`). -/
theorem log_query_desc_partial {rs : List Stmt} {s : Preds} (h : Preds.default.run true rs = .ok s) (hr : ∀ r ∈ rs, Plain r)
    (hb : ∀ r ∈ rs, r.kind ≠ .limit .branch) (hi : SomePosition .index rs) (hu : ∀ r ∈ rs, r.kind ≠ .recv)
    {db : Db} (hc : Consistent db) (hw : AllShow db) (nth : BitVec 32) :
    ∃ sel out n, query db ⟨.log, false⟩ s nth = .ok (out, n) ∧ Counted rs nth.toNat sel out ∧ sel.Pairwise (RecvBefore false) ∧
      ∀ e, e ∈ sel ↔ e ∈ db.log ∧ Meets rs e.1 e.2 := by
  have hall : ∀ i, ∀ r ∈ rs, RecvOk r i := fun i r hm hk => absurd hk (hu r hm)
  obtain ⟨sel, out, n, h1, h2, h3, h4⟩ := log_query_desc h hr hb hi hc hw nth (j := 0) (k := 1) (by decide) (by decide) (hall 0) (hall 1)
  refine ⟨sel, out, n, h1, h2, h3, fun e => (h4 e).trans ?_⟩
  constructor
  · rintro ⟨h5, x, h6, h7⟩; exact ⟨h5, x, h6, h7, hall _⟩
  · rintro ⟨h5, x, h6, h7, _⟩; exact ⟨h5, x, h6, h7⟩

/-! ## C30: queries on the hashes -/

/-- The entries of the hash index that are read. -/
theorem hash_entries (t : TestSet 256) (recv : Bound 64) {db : Db} (hc : Consistent db) (hw : AllShow db) :
    hashEntries db true t recv = .ok ((db.hash.filter (fun e => decide (t.bound.low.toNat ≤ beNat e.1) &&
      (decide (beNat e.1 ≤ t.bound.high.toNat) && (recv.test (BitVec.ofNat 64 e.2) && t.mask.test (num 256 e.1))))).map (·.2)) := by
  have hlen : ∀ e ∈ db.hash, e.1.length = 32 := by
    intro e he
    obtain ⟨p, hp, hh⟩ := (hc.hashLog e.1 e.2).1 he
    obtain ⟨x, hx⟩ := hw _ _ hp
    rw [← hh]; exact (shows_hash hx).1
  have hmono : db.hash.Pairwise (fun a b => beNat a.1 < beNat b.1) := by
    refine hc.hashSorted.imp_of_mem ?_
    intro a b ha hb hab
    exact (bytesLt_beNat (by rw [hlen a ha, hlen b hb])).1 hab
  have e1 : db.hash.dropWhile (fun e => bytesLt e.1 (be t.bound.low)) =
      db.hash.filter (fun e => decide (t.bound.low.toNat ≤ beNat e.1)) := by
    rw [dropWhile_filter]
    · apply List.filter_congr
      intro e he
      have := bytesLt_be (w := 256) (by decide) t.bound.low (b := e.1) (hlen e he)
      by_cases hh : bytesLt e.1 (be t.bound.low) = true
      · rw [hh]; have := this.1 hh; simp; omega
      · rw [Bool.not_eq_true] at hh
        rw [hh] at this ⊢
        simp at this ⊢; omega
    · refine hmono.imp_of_mem ?_
      intro a b ha hb hab hh
      have h1 := (bytesLt_be (w := 256) (by decide) t.bound.low (b := b.1) (hlen b hb)).1 hh
      exact (bytesLt_be (w := 256) (by decide) t.bound.low (b := a.1) (hlen a ha)).2 (by omega)
  have e2 : ∀ l : List (Bytes × Nat), l.Sublist db.hash → l.takeWhile (fun e => decide (num 256 e.1 ≤ t.bound.high)) =
      l.filter (fun e => decide (beNat e.1 ≤ t.bound.high.toNat)) := by
    intro l hl
    have hn : ∀ e ∈ l, (num 256 e.1).toNat = beNat e.1 := fun e he => num_toNat (by rw [hlen e (hl.subset he)]; decide)
    rw [takeWhile_filter]
    · apply List.filter_congr
      intro e he
      rw [decide_eq_decide, BitVec.le_def, hn e he]
    · refine (hmono.sublist hl).imp_of_mem ?_
      intro a b ha hb hab hh
      simp only [decide_eq_true_eq, BitVec.le_def, hn a ha, hn b hb] at hh ⊢
      omega
  unfold hashEntries
  rw [if_pos rfl, e1, e2 _ List.filter_sublist, List.filter_filter, List.filter_filter]
  congr 2
  apply List.filter_congr
  intro e he
  simp only [Bool.and_assoc, Bool.and_comm]

/-- A query on the hashes in ascending order answers exactly the packets that meet the statements, by hash. -/
theorem hash_query_partial {rs : List Stmt} {s : Preds} (h : Preds.default.run true rs = .ok s) (hr : ∀ r ∈ rs, Plain r)
    (hi : SomePosition .index rs) {db : Db} (hc : Consistent db) (hw : AllShow db) (nth : BitVec 32) :
    ∃ sel out n, query db ⟨.hash, true⟩ s nth = .ok (out, n) ∧ Counted rs nth.toNat sel out ∧
      sel.Pairwise (fun a b => BytesBefore a.2.hash b.2.hash) ∧ ∀ e, e ∈ sel ↔ e ∈ db.log ∧ Meets rs e.1 e.2 := by
  obtain ⟨L, hL, hLs, hLm⟩ : ∃ L : List (Bytes × Nat), hashEntries db true (s.set .hash) s.recv = .ok (L.map (·.2)) ∧ L.Sublist db.hash ∧
      ∀ e ∈ db.hash, e ∈ L ↔ (s.set .hash).Mem (num 256 e.1) ∧ s.recv.Mem (BitVec.ofNat 64 e.2) := by
    obtain ⟨t, ht⟩ : ∃ t : TestSet 256, t = s.set .hash := ⟨_, rfl⟩
    rw [← ht]
    show ∃ L : List (Bytes × Nat), hashEntries db true t s.recv = .ok (L.map (·.2)) ∧ L.Sublist db.hash ∧
      ∀ e ∈ db.hash, e ∈ L ↔ t.Mem (num 256 e.1) ∧ s.recv.Mem (BitVec.ofNat 64 e.2)
    refine ⟨_, hash_entries t s.recv hc hw, List.filter_sublist, fun e he => ?_⟩
    obtain ⟨p, hp, hh⟩ := (hc.hashLog e.1 e.2).1 he
    obtain ⟨x, hx⟩ := hw _ _ hp
    have hn : (num 256 e.1).toNat = beNat e.1 := num_toNat (by rw [← hh, (shows_hash hx).1]; decide)
    rw [List.mem_filter, and_iff_right he, ← bound_test_iff (b := s.recv)]
    simp only [Bool.and_eq_true, decide_eq_true_eq, TestSet.Mem, Bound.Mem, hn]
    constructor
    · rintro ⟨a, b, c, d⟩; exact ⟨⟨⟨a, b⟩, d⟩, c⟩
    · rintro ⟨⟨⟨a, b⟩, d⟩, c⟩; exact ⟨a, b, c, d⟩
  have hread : ∀ b ∈ L, ∃ p, (b.2, p) ∈ db.log ∧ p.hash = b.1 := fun b hb => (hc.hashLog b.1 b.2).1 (hLs.subset hb)
  obtain ⟨ps, r1, r2, r3⟩ := readAll_ok hc (fun e : Bytes × Nat => e.2) L (fun b hb => by obtain ⟨p, hp, _⟩ := hread b hb; exact ⟨p, hp⟩)
  have hps : ps.map (fun e => (e.2.hash, e.1)) = L := by
    have hlen : ps.length = L.length := by have := congrArg List.length r2; simpa using this
    apply List.ext_getElem (by simp [hlen])
    intro j h1 h2
    rw [List.getElem_map]
    have hj : j < ps.length := by simpa using h1
    have e1 : (ps[j]).1 = (L[j]).2 := by
      have := congrArg (fun l => l[j]?) r2
      simpa [hj, h2] using this
    obtain ⟨p, hp, hph⟩ := hread L[j] (List.getElem_mem h2)
    have hq := r3 ps[j] (List.getElem_mem hj)
    have : (ps[j]).2 = p := log_at hc (i := (L[j]).2) (by rw [← e1]; exact hq) hp
    rw [this, hph, e1]
  obtain ⟨a, hl, hg, rfl⟩ := run_live h
  obtain ⟨l1, n1, h1, p1⟩ := select_index h .index hi 0#32 (ps.filter (fun e => (restTests a.preds (fun f => f == .hash) ++
    (if a.preds.rspace = [] then [] else [prefixTest (spaceOf a.preds.rspace)])).all (fun t => t e.2)))
  have hq : candidates db ⟨.hash, true⟩ a.preds = .ok l1 := by
    simp only [candidates, queryHash, hL]
    rw [r1]
    simp only
    rw [h1]
  obtain ⟨out, n, h2, p2⟩ := query_counts h nth hq
  refine ⟨_, out, n, h2, ⟨l1, p1, p2⟩, ?_, ?_⟩
  · apply List.Pairwise.filter
    have h3 := hc.hashSorted.sublist hLs
    rw [← hps, List.pairwise_map] at h3
    exact h3.imp (fun h => (bytesBefore_iff _ _).2 h)
  · intro e
    rw [List.mem_filter, List.all_append, Bool.and_eq_true, restTests_iff a hl, prefixTests_iff]
    have hin : e ∈ ps ↔ e ∈ db.log ∧ (e.2.hash, e.1) ∈ L := by
      constructor
      · intro he
        exact ⟨r3 e he, by rw [← hps]; exact List.mem_map.2 ⟨e, he, rfl⟩⟩
      · rintro ⟨h3, h4⟩
        rw [← hps] at h4
        obtain ⟨f, hf, hfe⟩ := List.mem_map.1 h4
        have h5 := r3 f hf
        obtain ⟨i, p⟩ := e
        obtain ⟨j, q⟩ := f
        have e2 : j = i := congrArg Prod.snd hfe
        subst e2
        rw [log_at hc h3 h5]; exact hf
    have hkey : e ∈ db.log → ((e.2.hash, e.1) ∈ L ↔ (a.set .hash).Mem (VF.hash.val e.2) ∧ a.preds.recv.Mem (BitVec.ofNat 64 e.1)) := by
      intro he
      exact hLm (e.2.hash, e.1) ((hc.hashLog _ _).2 ⟨e.2, he, rfl⟩)
    have hm : e ∈ db.log → ((a.preds.test e.2 = true ∧ a.preds.recv.Mem (BitVec.ofNat 64 e.1)) ↔ Meets rs e.1 e.2) :=
      fun he => test_meets h hr (hw _ _ he) (hc.stamps _ _ he)
    rw [hin]
    constructor
    · rintro ⟨⟨he, h3⟩, h4, h5⟩
      refine ⟨he, (hm he).1 ⟨?_, ((hkey he).1 h3).2⟩⟩
      rw [test_iff' a hl]
      refine ⟨fun f => ?_, h5⟩
      by_cases hf : f = .hash
      · subst hf; exact ((hkey he).1 h3).1
      · exact h4 f (by simpa using hf)
    · rintro ⟨he, h3⟩
      obtain ⟨h4, h5⟩ := (hm he).2 h3
      rw [test_iff' a hl] at h4
      exact ⟨⟨he, (hkey he).2 ⟨h4.1 .hash, h5⟩⟩, fun f _ => h4.1 f, h4.2⟩

/-- Going backwards by hash always aborts. -/
theorem hash_query_desc (db : Db) (s : Preds) (nth : BitVec 32) : query db ⟨.hash, false⟩ s nth = .error .panic := rfl

/-- The statement `hash:=:h`. -/
def hashIs (h : Bytes) : Stmt := ⟨.field .hash, .equal, [(none, h)]⟩

theorem hashIs_plain (h : Bytes) : Plain (hashIs h) :=
  ⟨fun h => (by rcases h with h | h <;> cases h), fun h => (by rcases h with h | h <;> cases h), fun h => (by cases h)⟩

theorem hashIs_sat {h : Bytes} (hh : h.length = 32) (x : Seen) : Sat (hashIs h) x ↔ HasType x 1 ∧ x.num .hash = beNat h := by
  have hv : ∀ n, ValueIs .hash [(none, h)] n ↔ n = beNat h := by
    intro n
    constructor
    · rintro ⟨b, hb, y, hy, hn, hby⟩
      have hb : h = b := by
        rcases hb with hb | ⟨hb, _⟩
        · cases hb; rfl
        · cases hb
      subst hb
      rcases hby with rfl | ⟨ds, _, _, hl, _⟩
      · exact hn
      · omega
    · rintro rfl
      exact ⟨h, .inl rfl, h, hh, rfl, .inl rfl⟩
  show HasType x 1 ∧ (∃ n, ValueIs .hash [(none, h)] n ∧ x.num .hash = n) ↔ _
  simp only [hv, exists_eq_left]

/-- The packet is an error point. -/
def IsErrorPoint (p : NetParts) : Prop := ∃ b, IsPacket p (.error b)

theorem shows_type {p : NetParts} {x : Seen} (h : Shows p x) : HasType x 1 ↔ ¬ IsErrorPoint p := by
  obtain ⟨c, cs, hp, rfl, hw⟩ := h
  have h1 : HasType (seenOf p.netHeader p.hash c cs) 1 ↔ Allows .mask1 c.type.toNat 1 := Iff.rfl
  have key : ∀ n, n < 256 → n % 2 = 1 → Allows .mask1 n 1 := by
    intro n _ hn i hi
    cases i with
    | zero => simp [Nat.testBit_zero, hn]
    | succ i => rw [Nat.testBit_succ] at hi; simp at hi
  rw [h1]
  cases c with
  | error b =>
    constructor
    · intro h2
      have := h2 0 (by decide)
      simp [Content.type] at this
    · intro h2; exact absurd ⟨b, hp⟩ h2
  | data b =>
    refine ⟨fun _ => ?_, fun _ => key 1 (by decide) (by decide)⟩
    rintro ⟨b', hb⟩
    have := hp.parts.symm.trans hb.parts
    have : (1 : UInt8) = 128 := congrArg (fun q : Parts => q.header.ptype) this
    exact absurd this (by decide)
  | link l =>
    refine ⟨fun _ => ?_, fun _ => key 3 (by decide) (by decide)⟩
    rintro ⟨b', hb⟩
    have := hp.parts.symm.trans hb.parts
    have : (3 : UInt8) = 128 := congrArg (fun q : Parts => q.header.ptype) this
    exact absurd this (by decide)
  | key l pk sig =>
    refine ⟨fun _ => ?_, fun _ => key 7 (by decide) (by decide)⟩
    rintro ⟨b', hb⟩
    have := hp.parts.symm.trans hb.parts
    have : (7 : UInt8) = 128 := congrArg (fun q : Parts => q.header.ptype) this
    exact absurd this (by decide)

theorem shows_num_hash {p : NetParts} {x : Seen} (h : Shows p x) : x.num .hash = beNat p.hash := by
  obtain ⟨c, cs, hp, rfl, hw⟩ := h
  rfl

/-- Looking up one hash finds the packet exactly when it is stored, unless it is an error point, which no statement
about a field selects (`error_points_never`). -/
theorem hash_lookup_partial {db : Db} (hc : Consistent db) (hw : AllShow db) {h : Bytes} (hh : h.length = 32) :
    ∃ s, Preds.default.run true [hashIs h] = .ok s ∧ ∃ out, getAll db ⟨.hash, true⟩ s = .ok out ∧
      (∀ i p, out = [(i, p)] ↔ (i, p) ∈ db.log ∧ p.hash = h ∧ ¬ IsErrorPoint p) ∧
      (out = [] ↔ ∀ i p, (i, p) ∈ db.log → p.hash = h → IsErrorPoint p) := by
  have hplain : ∀ r ∈ [hashIs h], Plain r := by
    intro r hr
    rw [List.mem_singleton.1 hr]; exact hashIs_plain h
  have hx : Shows ⟨List.replicate 32 0, h, (Content.data []).parts⟩ (seenOf (List.replicate 32 0) h (.data []) []) :=
    ⟨.data [], [], ⟨rfl, ⟨by decide, trivial⟩, hh, by simp⟩, rfl, trivial⟩
  have hne : ¬ IsErrorPoint ⟨List.replicate 32 0, h, (Content.data []).parts⟩ := by
    rintro ⟨b, hb⟩
    have : (1 : UInt8) = 128 := congrArg (fun q : Parts => q.header.ptype) hb.parts
    exact absurd this (by decide)
  obtain ⟨s, hs⟩ := query_accepts hplain (wf_shown hx) (t := 0#64) (c := fun _ => 0#32)
    (by intro r hr; rw [List.mem_singleton.1 hr, hashIs_sat hh]; exact ⟨(shows_type hx).2 hne, rfl⟩)
    (by intro r hr; rw [List.mem_singleton.1 hr]; exact fun _ _ => rfl)
  refine ⟨s, hs, ?_⟩
  have hcount : ∀ q n, (∀ r ∈ [hashIs h], CountOk q r n) ↔ (q = .query → n = 0) := by
    intro q n
    simp only [List.mem_singleton, forall_eq]
    exact ⟨fun h1 hq => h1.2 hq rfl rfl, fun h1 => ⟨fun h2 => (by cases h2), fun hq _ _ => h1 hq⟩⟩
  obtain ⟨sel, out, n, h1, ⟨mid, p1, p2⟩, h3, h4⟩ := hash_query_partial hs hplain ⟨0, by decide, (hcount _ _).2 (fun _ => rfl)⟩ hc hw 0#32
  have hmid : mid = sel := picks_all (fun i => (hcount _ _).2 (by intro hq; cases hq)) p1
  subst hmid
  have hmem : ∀ i p, (i, p) ∈ mid ↔ (i, p) ∈ db.log ∧ p.hash = h ∧ ¬ IsErrorPoint p := by
    intro i p
    rw [h4]
    constructor
    · rintro ⟨h5, x, h6, h7, _⟩
      have h8 := (hashIs_sat hh x).1 (h7 _ (by simp))
      refine ⟨h5, ?_, (shows_type h6).1 h8.1⟩
      rw [shows_num_hash h6] at h8
      exact beNat_inj (by rw [(shows_hash h6).1, hh]) h8.2
    · rintro ⟨h5, h6, h7⟩
      obtain ⟨x, hx⟩ := hw _ _ h5
      refine ⟨h5, x, hx, ?_, ?_⟩
      · intro r hr
        rw [List.mem_singleton.1 hr, hashIs_sat hh]
        exact ⟨(shows_type hx).2 h7, by rw [shows_num_hash hx, h6]⟩
      · intro r hr hk
        rw [List.mem_singleton.1 hr] at hk
        cases hk
  have hone : ∀ a b r, mid ≠ a :: b :: r := by
    intro a b r he
    rw [he, List.pairwise_cons] at h3
    have h5 := h3.1 b (by simp)
    have ha := (hmem a.1 a.2).1 (by rw [he]; simp)
    have hb := (hmem b.1 b.2).1 (by rw [he]; simp)
    rw [ha.2.1, hb.2.1, bytesBefore_iff, bytesLt_irrefl] at h5
    cases h5
  have hout : out = mid := by
    cases hm : mid with
    | nil => rw [hm] at p2; cases p2; rfl
    | cons a r =>
      cases r with
      | cons b r => exact absurd hm (hone a b r)
      | nil =>
        rw [hm] at p2
        cases p2 with
        | take x hx hp => cases hp; rfl
        | skip x hx hp => exact absurd ((hcount _ _).2 (fun _ => rfl)) hx
  subst hout
  refine ⟨out, by unfold getAll; rw [h1], ?_, ?_⟩
  · intro i p
    rw [← hmem]
    constructor
    · rintro rfl; simp
    · intro hi
      cases hm : out with
      | nil => rw [hm] at hi; cases hi
      | cons a r =>
        cases r with
        | cons b r => exact absurd hm (hone a b r)
        | nil => rw [hm, List.mem_singleton] at hi; rw [hi]
  · constructor
    · intro he i p h5 h6
      apply Classical.byContradiction
      intro h7
      have := (hmem i p).2 ⟨h5, h6, h7⟩
      rw [he] at this; cases this
    · intro hall
      cases hm : out with
      | nil => rfl
      | cons a r =>
        have := (hmem a.1 a.2).1 (by rw [hm]; simp)
        exact absurd (hall _ _ this.1 this.2.1) this.2.2

/-! ## C47: stamp ranges -/

/-- A range contains the stamps between its ends, both included, whatever its direction. -/
theorem range_contains (r : StampRange) (i : Nat) :
    r.contains i = true ↔ (r.start ≤ i ∧ i ≤ r.stop) ∨ (r.stop ≤ i ∧ i ≤ r.start) := by
  rw [contains_iff]; omega

/-- The range of a bound contains its values in both directions. -/
theorem range_of_bound (b : Bound 64) (hb : b.low.toNat ≤ b.high.toNat) (asc : Bool) (v : BitVec 64) :
    (stampRange b asc).contains v.toNat = true ↔ b.Mem v := by
  rw [range_contains]
  unfold stampRange Bound.Mem
  cases asc <;> simp <;> omega

/-- The ranges after a stamp. Both leave the stamp itself out. -/
theorem range_after (s : Nat) (r : StampRange) (h : StampRange.after s = some r ∨ StampRange.ascFrom s = some r) (i : Nat) (hi : i < 2 ^ 64) :
    r.contains i = true ↔ s < i := by
  rw [range_contains]
  unfold StampRange.after StampRange.ascFrom at h
  rw [or_self] at h
  split at h
  · cases h
    simp only
    omega
  · cases h

/-- Walking a range from its start to its stop: `before` is the order of the walk. -/
def walkBefore (asc : Bool) (i j : Nat) : Prop := if asc then i < j else j < i

/-- The classification agrees with the walk: before the start, in the range, past the stop. Missing: a walk backwards
over a single stamp (`range_single_backwards`). -/
theorem range_walk_partial (r : StampRange) (asc : Bool) (h : if asc then r.start ≤ r.stop else r.stop < r.start) (i : Nat) :
    (r.iterCmp i = .pre ↔ walkBefore asc i r.start) ∧ (r.iterCmp i = .post ↔ walkBefore asc r.stop i) ∧
      (r.iterCmp i = .inside ↔ r.contains i = true) := by
  rw [iterCmp_eq, range_contains]
  unfold walkBefore
  cases asc
  · simp only [Bool.false_eq_true, if_false] at h ⊢
    rw [if_neg (by omega)]
    repeat' split
    all_goals simp <;> omega
  · simp only [if_true] at h ⊢
    rw [if_pos h]
    repeat' split
    all_goals simp <;> omega

/-- Backwards over a single stamp the stamps that come first count as past the range. -/
theorem range_single_backwards (a i : Nat) (h : a < i) :
    walkBefore false i (StampRange.mk a a).start ∧ (StampRange.mk a a).iterCmp i = .post := by
  refine ⟨h, ?_⟩
  rw [iterCmp_eq, if_pos (Nat.le_refl _), if_neg (by simp only; omega), if_neg (by simp only; omega)]

/-! ## The hypotheses are met -/

/-- Whatever was saved as `Proper` packets can be queried. -/
theorem proper_shows {p : NetParts} : Proper p ↔ ∃ x, Shows p x := by
  constructor
  · rintro (⟨t, c, hw, _, _, _, _, hp⟩ | ⟨c, hp, hg⟩)
    · rcases hp with ⟨hp, _⟩ | ⟨sig, hp⟩
      · exact ⟨_, .link c, t.space, hp, rfl, hw⟩
      · exact ⟨_, .key c _ sig, t.space, hp, rfl, hw⟩
    · refine ⟨_, c, [], hp, rfl, ?_⟩
      cases c with
      | data b => trivial
      | error b => trivial
      | link l => cases hg
      | key l pk sig => cases hg
  · rintro ⟨x, c, cs, hp, rfl, hw⟩
    cases c with
    | data b => exact .inr ⟨_, hp, rfl⟩
    | error b => exact .inr ⟨_, hp, rfl⟩
    | link l => exact .inl ⟨⟨l.group, l.domain, cs, _, l.stamp, p.hash⟩, l, hw, rfl, rfl, rfl, rfl, .inl ⟨hp, rfl⟩⟩
    | key l pk sig => exact .inl ⟨⟨l.group, l.domain, cs, pk, l.stamp, p.hash⟩, l, hw, rfl, rfl, rfl, rfl, .inr ⟨sig, hp⟩⟩

theorem allProper_allShow {db : Db} : AllProper db ↔ AllShow db :=
  ⟨fun h i p hp => proper_shows.1 (h i p hp), fun h i p hp => proper_shows.2 (h i p hp)⟩

/-- A history of saves, and statements on it. -/
def exDb : Db := runSaves {} exHistory
theorem exDb_consistent : Consistent exDb := saves_consistent _

theorem exDb_shows : AllShow exDb := by
  apply allProper_allShow.1
  intro i p hp
  have hlog : exDb.log = [(100, exPkt [[65]] 7 1), (101, exPkt [[65]] 8 2), (102, exPkt [[66]] 3 3)] := exHistory_log
  rw [hlog] at hp
  simp only [List.mem_cons, Prod.mk.injEq, List.not_mem_nil, or_false] at hp
  rcases hp with ⟨_, rfl⟩ | ⟨_, rfl⟩ | ⟨_, rfl⟩ <;>
    exact .inl ⟨_, exTuple_has _ _ _ ⟨by simp [ValidComps], rfl, by decide⟩ (by decide) (by decide) (by decide)⟩

/-- The receive stamps of an answer. -/
def ask (db : Db) (m : Mode) (rs : List Stmt) : Option (List Nat) :=
  match Preds.default.run true rs with
  | .error _ => none
  | .ok s => match getAll db m s with
    | .error _ => none
    | .ok l => some (l.map (·.1))

def recvStmt (op : TestOp) (n : Nat) : Stmt := ⟨.recv, op, [(none, beBytes 8 n)]⟩
def limitStmt (q : QScope) (op : TestOp) (n : Nat) : Stmt := ⟨.limit q, op, [(none, beBytes 4 n)]⟩
def createStmt (op : TestOp) (n : Nat) : Stmt := ⟨.field .create, op, [(none, beBytes 8 n)]⟩

/-- `log_query_asc_partial` and `log_query_desc_partial` have answers to give. -/
theorem ask_log : ask exDb ⟨.log, true⟩ [recvStmt .greater 100, createStmt .greater 2] = some [101, 102] ∧
    ask exDb ⟨.log, false⟩ [createStmt .greater 3] = some [101, 100] ∧
    ask exDb ⟨.log, false⟩ [createStmt .greater 3, limitStmt .query .equal 1] = some [100] := by decide +kernel

def exLogQuery : List Stmt := [recvStmt .greater 100, createStmt .greater 2]
/-- The statements of `ask_log` are as the theorems ask. -/
theorem exLogQuery_meets : (∀ r ∈ exLogQuery, Plain r) ∧ (∀ r ∈ exLogQuery, r.kind ≠ .limit .branch) ∧ SomePosition .index exLogQuery ∧
    (∀ r ∈ exLogQuery, r.kind = .recv → r.op = .greater) ∧ ∃ s, Preds.default.run true exLogQuery = .ok s := by
  have h2 : ∀ P : Stmt → Prop, P (recvStmt .greater 100) → P (createStmt .greater 2) → ∀ r ∈ exLogQuery, P r := by
    intro P h1 h2 r hr
    simp only [exLogQuery, List.mem_cons, List.not_mem_nil, or_false] at hr
    rcases hr with rfl | rfl
    · exact h1
    · exact h2
  refine ⟨h2 _ ?_ ?_, h2 _ nofun nofun, ⟨0, by decide, countOk_absent (q := .index) nofun (h2 _ nofun nofun) 0⟩, h2 _ (fun _ => rfl) nofun, ?_⟩
  · exact ⟨fun h => (by rcases h with h | h <;> cases h), fun h => (by rcases h with h | h <;> cases h), fun _ => ⟨nofun, nofun⟩⟩
  · exact ⟨fun h => (by rcases h with h | h <;> cases h), fun h => (by rcases h with h | h <;> cases h), fun h => (by cases h)⟩
  · have h3 : (match Preds.default.run true exLogQuery with
      | .ok _ => true
      | .error _ => false) = true := by decide +kernel
    split at h3
    · rename_i s hs; exact ⟨s, hs⟩
    · cases h3

/-- C29 does not hold: `recv:<:101` in ascending order answers packets received later. -/
theorem log_ignores_upper : ask exDb ⟨.log, true⟩ [recvStmt .less 101] = some [100, 101, 102] := by decide +kernel
/-- C29 does not hold: in descending order the bounds are ignored, but one stamp is taken as ascending from there. -/
theorem log_desc_ignores : ask exDb ⟨.log, false⟩ [recvStmt .greater 101] = some [102, 101, 100] ∧
    ask exDb ⟨.log, false⟩ [recvStmt .equal 101] = some [101, 102] := by decide +kernel

theorem ask_hash : ask exDb ⟨.hash, true⟩ [recvStmt .less 102] = some [100, 101] ∧
    ask exDb ⟨.hash, true⟩ [hashIs (List.replicate 32 2)] = some [101] ∧
    ask exDb ⟨.hash, true⟩ [hashIs (List.replicate 32 9)] = some [] := by decide +kernel

/-- The count of C20 is exact, but a limit given by a mask does not end the reading: with the positions 0 and 1 allowed,
all five candidates are read. -/
theorem masks_read_on :
    (match Preds.default.run true [limitStmt .query .mask0 1] with
      | .ok s => (match select (s.state .query) 0#32 [10, 11, 12, 13, 14] with
        | .ok r => some r
        | .error _ => none)
      | .error _ => none) = some ([10, 11], 5#32) ∧
    (match Preds.default.run true [limitStmt .query .less 2] with
      | .ok s => (match select (s.state .query) 0#32 [10, 11, 12, 13, 14] with
        | .ok r => some r
        | .error _ => none)
      | .error _ => none) = some ([10, 11], 2#32) := by decide +kernel

/-- `SomePosition` is needed: masks on `i_db` that contradict each other are accepted, and the query panics. -/
theorem masks_contradict :
    (match Preds.default.run true [limitStmt .index .mask0 1, limitStmt .index .mask1 2] with
      | .ok s => (query exDb ⟨.log, true⟩ s 0#32 matches .error .panic)
      | .error _ => false) = true := by decide +kernel

end Verif.Props
