import Verif.Lemmas.Query2
import Verif.Props.Env
/-!
# Queries on the log and on the hashes
-/
namespace Verif.Query
open Verif Verif.Pkt Verif.Tree Verif.Pred Verif.Env Verif.Spec Verif.Props

theorem dropWhile_filter {α} {p : α → Bool} {l : List α} (h : l.Pairwise (fun a b => p b = true → p a = true)) :
    l.dropWhile p = l.filter (fun x => !p x) := by
  induction l with
  | nil => rfl
  | cons x l ih =>
    rw [List.pairwise_cons] at h
    rw [List.dropWhile_cons, List.filter_cons]
    by_cases hx : p x = true
    · rw [if_pos hx, if_neg (by simp [hx]), ih h.2]
    · rw [if_neg hx, if_pos (by simp [hx])]
      congr 1
      symm
      rw [List.filter_eq_self]
      intro y hy
      simp only [Bool.not_eq_true', Bool.eq_false_iff]
      exact fun hp => hx (h.1 y hy hp)

theorem takeWhile_filter {α} {p : α → Bool} {l : List α} (h : l.Pairwise (fun a b => p b = true → p a = true)) :
    l.takeWhile p = l.filter p := by
  induction l with
  | nil => rfl
  | cons x l ih =>
    rw [List.pairwise_cons] at h
    rw [List.takeWhile_cons, List.filter_cons]
    by_cases hx : p x = true
    · rw [if_pos hx, if_pos hx, ih h.2]
    · rw [if_neg hx, if_neg hx]
      symm
      rw [List.filter_eq_nil_iff]
      intro y hy hp
      exact hx (h.1 y hy hp)

theorem capPos_eq (i : Nat) : capPos i = position i := rfl

/-- The selections by `i_db` and `i`. -/
theorem select_index {rs : List Stmt} {s : Preds} (h : Preds.default.run true rs = .ok s) (q : QScope) (hi : SomePosition q rs)
    (n : BitVec 32) {α} (xs : List α) : ∃ out m, select (s.state q) n xs = .ok (out, m) ∧
      Picks (fun i => ∀ r ∈ rs, CountOk q r (position i)) n.toNat xs out := by
  obtain ⟨k, hk, hc⟩ := hi
  have hm : (s.state q).mask.hasAny = true := by
    have := (run_count h q (BitVec.ofNat 32 k)).2 (by rw [BitVec.toNat_ofNat, Nat.mod_eq_of_lt hk]; exact hc)
    exact mask_hasAny_of_test this.2
  obtain ⟨out, m, h1, h2⟩ := select_picks (s.state q) hm n xs
  exact ⟨out, m, h1, picks_congr (fun i _ => by rw [run_inSet h, capPos_eq]) h2⟩

/-- An accepted query leaves some position for `i`. -/
theorem query_position {rs : List Stmt} {s : Preds} (h : Preds.default.run true rs = .ok s) : SomePosition .query rs := by
  obtain ⟨a, hl, hg, rfl⟩ := run_live h
  obtain ⟨x, hx⟩ := ((isValid_iff _).1 hl.valid).1
  exact ⟨x.toNat, x.isLt, (run_count h .query x).1 hx⟩

theorem select_query {rs : List Stmt} {s : Preds} (h : Preds.default.run true rs = .ok s)
    (n : BitVec 32) {α} (xs : List α) : ∃ out m, select (s.state .query) n xs = .ok (out, m) ∧
      Picks (fun i => ∀ r ∈ rs, CountOk .query r (position i)) n.toNat xs out :=
  select_index h .query (query_position h) n xs

/-- Without statements on a count all positions are allowed. -/
theorem countOk_absent {rs : List Stmt} {q : QScope} (hq : q ≠ .query) (h : ∀ r ∈ rs, r.kind ≠ .limit q) (n : Nat) :
    ∀ r ∈ rs, CountOk q r n :=
  fun r hr => ⟨fun h1 => absurd h1 (h r hr), fun h1 => absurd h1 hq⟩

/-- Reading what the log has. -/
theorem readAll_ok {db : Db} (hc : Consistent db) {β : Type} (key : β → Nat) (L : List β)
    (h : ∀ b ∈ L, ∃ p, (key b, p) ∈ db.log) :
    ∃ ps, readAll db (L.map key) = .ok ps ∧ ps.map (·.1) = L.map key ∧ ∀ e ∈ ps, e ∈ db.log := by
  induction L with
  | nil => exact ⟨[], rfl, rfl, by simp⟩
  | cons b L ih =>
    obtain ⟨ps, h1, h2, h3⟩ := ih (fun c hc => h c (by simp [hc]))
    obtain ⟨p, hp⟩ := h b (by simp)
    refine ⟨(key b, p) :: ps, ?_, by simp [h2], ?_⟩
    · rw [List.map_cons, readAll, (logGet_iff _ hc.logSorted _ _).2 hp, h1]
    · intro e he
      rcases List.mem_cons.1 he with rfl | he
      · exact hp
      · exact h3 e he

/-- Stamps of the log are unique. -/
theorem log_at {db : Db} (hc : Consistent db) {i : Nat} {p q : NetParts} (hp : (i, p) ∈ db.log) (hq : (i, q) ∈ db.log) : p = q := by
  have h1 := (logGet_iff _ hc.logSorted i p).2 hp
  rw [(logGet_iff _ hc.logSorted i q).2 hq] at h1
  cases h1; rfl

theorem fieldTest_iff (a : Abs) (hl : a.Live) (f : VF) (p : NetParts) :
    (∀ t ∈ a.preds.fieldTest f, t p = true) ↔ (a.set f).Mem (f.val p) := by
  rw [← compileTest_iff _ (hl.sets f)]
  unfold Preds.fieldTest
  show (∀ t ∈ (match compileTest (a.set f) with
    | none => []
    | some t => [fun p => t (f.val p)] : List (NetParts → Bool)), t p = true) ↔ _
  cases compileTest (a.set f) with
  | none => simp
  | some t => simp

theorem restTests_iff (a : Abs) (hl : a.Live) (skip : VF → Bool) (p : NetParts) :
    (restTests a.preds skip).all (fun t => t p) = true ↔ ∀ f, skip f = false → (a.set f).Mem (f.val p) := by
  unfold restTests
  rw [List.all_eq_true]
  constructor
  · intro h f hf
    rw [← fieldTest_iff a hl f p]
    exact fun t ht => h t (List.mem_flatMap.2 ⟨f, List.mem_filter.2 ⟨mem_order f, by simp [hf]⟩, ht⟩)
  · intro h t ht
    obtain ⟨f, hf, hft⟩ := List.mem_flatMap.1 ht
    have h2 := (List.mem_filter.1 hf).2
    exact (fieldTest_iff a hl f p).2 (h f (by simpa using h2)) t hft

theorem rspace_nil (a : Abs) : a.preds.rspace = [] ↔ a.pc = [] := by
  simp only [Abs.preds]
  unfold rootedOf
  split
  · rename_i h; simp [h]
  · rename_i h
    have := Rooted.rootedWith_not_empty (UInt8.ofNat a.pc.length) a.pc
    constructor
    · intro h'; rw [h'] at this; cases this
    · intro h'; exact absurd h' h

theorem prefixTests_iff (a : Abs) (p : NetParts) :
    (if a.preds.rspace = [] then [] else [prefixTest (spaceOf a.preds.rspace)]).all (fun t => t p) = true ↔
      (a.pc = [] ∨ prefixTest (encodeSpace a.pc) p = true) := by
  by_cases h0 : a.pc = []
  · rw [if_pos ((rspace_nil a).2 h0)]; simp [h0]
  · rw [if_neg (fun h => h0 ((rspace_nil a).1 h)), spaceOf_pc]; simp [h0]

theorem bound_test_iff {w} (b : Bound w) (v : BitVec w) : b.test v = true ↔ b.Mem v := by
  unfold Bound.test Bound.Mem
  rw [Bool.and_eq_true, decide_eq_true_iff, decide_eq_true_iff, BitVec.le_def, ge_iff_le, BitVec.le_def, and_comm]

/-- What a stored packet has to meet. -/
theorem test_meets {rs : List Stmt} {s : Preds} (h : Preds.default.run true rs = .ok s) (hr : ∀ r ∈ rs, Plain r) {p : NetParts}
    (hp : ∃ x, Shows p x) {i : Nat} (hi : i < 2 ^ 64) :
    (s.test p = true ∧ s.recv.Mem (BitVec.ofNat 64 i)) ↔ Meets rs i p := by
  have e : (BitVec.ofNat 64 i).toNat = i := by rw [BitVec.toNat_ofNat]; exact Nat.mod_eq_of_lt hi
  rw [run_recv h hr, e]
  constructor
  · rintro ⟨h1, h2⟩
    obtain ⟨x, hx⟩ := hp
    exact ⟨x, hx, (filter_exact h hr hx).1 h1, h2⟩
  · rintro ⟨x, hx, h1, h2⟩
    exact ⟨(filter_exact h hr hx).2 h1, h2⟩

/-- The number of the hash. -/
theorem shows_hash {p : NetParts} {x : Seen} (h : Shows p x) : p.hash.length = 32 ∧ num 256 p.hash = VF.hash.val p := by
  obtain ⟨c, cs, hp, _⟩ := h
  exact ⟨hp.hash, rfl⟩

theorem num_toNat {w : Nat} {b : Bytes} (hw : 8 * b.length ≤ w) : (num w b).toNat = beNat b := by
  unfold num
  rw [BitVec.toNat_ofNat]
  apply Nat.mod_eq_of_lt
  calc beNat b < 256 ^ b.length := beNat_lt b
    _ = 2 ^ (8 * b.length) := by rw [show (256:Nat) = 2 ^ 8 from rfl, ← Nat.pow_mul]
    _ ≤ 2 ^ w := Nat.pow_le_pow_right (by decide) hw

theorem be_length {w : Nat} (v : BitVec w) : (be v).length = w / 8 := by unfold be; simp
theorem beNat_be {w : Nat} (hw : 8 * (w / 8) = w) (v : BitVec w) : beNat (be v) = v.toNat := by
  unfold be
  apply beNat_beBytes
  rw [show (256:Nat) = 2 ^ 8 from rfl, ← Nat.pow_mul, hw]
  exact v.isLt

theorem bytesLt_be {w : Nat} (hw : 8 * (w / 8) = w) (v : BitVec w) {b : Bytes} (hb : b.length = w / 8) :
    bytesLt b (be v) = true ↔ beNat b < v.toNat := by
  rw [bytesLt_beNat (by rw [be_length, hb]), beNat_be hw]

end Verif.Query
