import Verif.Lemmas.Query
import Verif.Props.Predicates
/-!
# The receive stamp and the counters of an accepted query
-/
namespace Verif.Query
open Verif Verif.Pkt Verif.Tree Verif.Pred Verif.Env Verif.Spec Verif.Props

/-- What an effect says about the receive stamp. -/
def recvEff (e : Eff) (t : BitVec 64) : Prop :=
  match e with
  | .rcv op v => op = .mask0 ∨ op = .mask1 ∨ Allows op t.toNat v.toNat
  | _ => True
/-- What an effect says about a counter. -/
def countEff (q : QScope) (e : Eff) (n : BitVec 32) : Prop :=
  match e with
  | .st r op v => r = q → Allows op n.toNat v.toNat
  | _ => True

theorem eff_recv {a a' : Abs} {e : Eff} (h : a.eff e = some a') (t : BitVec 64) :
    a'.recv.Mem t ↔ a.recv.Mem t ∧ recvEff e t := by
  cases e with
  | add f op v => cases h; simp [recvEff, Abs.addSet]
  | st q op v => cases h; simp [recvEff, Abs.addState]
  | rcv op v => cases h; exact recv_mem _ _ _ _
  | pre cs =>
    simp only [Abs.eff, Option.map_eq_some_iff] at h
    obtain ⟨q, _, rfl⟩ := h
    rw [addGt_recv]; simp [recvEff]

theorem eff_count {a a' : Abs} {e : Eff} (h : a.eff e = some a') (q : QScope) (n : BitVec 32) :
    (a'.state q).Mem n ↔ (a.state q).Mem n ∧ countEff q e n := by
  cases e with
  | add f op v => cases h; simp [countEff, Abs.addSet]
  | st r op v =>
    cases h
    simp only [Abs.addState, countEff]
    by_cases hq : q = r
    · subst hq; simp [add_mem (w := 32) (by decide)]
    · have : r ≠ q := fun h => hq h.symm
      simp [hq, this]
  | rcv op v => cases h; simp [countEff]
  | pre cs =>
    simp only [Abs.eff, Option.map_eq_some_iff] at h
    obtain ⟨q, _, rfl⟩ := h
    rw [addGt_state]; simp [countEff]

theorem effs_recv {a a' : Abs} {es : List Eff} (h : a.effs es = some a') (t : BitVec 64) :
    a'.recv.Mem t ↔ a.recv.Mem t ∧ ∀ e ∈ es, recvEff e t := by
  induction es generalizing a with
  | nil => cases h; simp
  | cons e es ih =>
    simp only [Abs.effs] at h
    cases hb : a.eff e with
    | none => rw [hb] at h; cases h
    | some b =>
      rw [hb] at h
      rw [ih h, eff_recv hb, and_assoc]
      simp

theorem effs_count {a a' : Abs} {es : List Eff} (h : a.effs es = some a') (q : QScope) (n : BitVec 32) :
    (a'.state q).Mem n ↔ (a.state q).Mem n ∧ ∀ e ∈ es, countEff q e n := by
  induction es generalizing a with
  | nil => cases h; simp
  | cons e es ih =>
    simp only [Abs.effs] at h
    cases hb : a.eff e with
    | none => rw [hb] at h; cases h
    | some b =>
      rw [hb] at h
      rw [ih h, eff_count hb, and_assoc]
      simp

theorem stmt_recv {r : Stmt} {es : List Eff} (he : r.effs = some es) (hr : Plain r) (t : BitVec 64) :
    (∀ e ∈ es, recvEff e t) ↔ RecvOk r t.toNat := by
  obtain ⟨k, op, val⟩ := r
  cases k with
  | field f =>
    simp only [Stmt.effs] at he
    split at he
    · cases he
      constructor
      · intro _ h; cases h
      · intro _ e he
        rcases List.mem_append.1 he with he | he
        · simp only [List.mem_cons, List.not_mem_nil, or_false] at he
          rcases he with rfl | rfl <;> trivial
        · split at he
          · rw [List.mem_singleton.1 he]; trivial
          · cases he
    · cases he
  | spacename =>
    simp only [Stmt.effs] at he
    split at he
    · simp only [Option.map_eq_some_iff] at he
      obtain ⟨cs, _, rfl⟩ := he
      constructor
      · intro _ h; cases h
      · intro _ e he
        simp only [List.mem_cons, List.not_mem_nil, or_false] at he
        rcases he with rfl | rfl | rfl <;> trivial
    · cases he
  | todo p => cases he
  | recv =>
    simp only [Stmt.effs] at he
    split at he
    · rename_i b hb
      cases he
      obtain ⟨h1, h2⟩ := readExact_ok.1 hb
      have h1 : val = [(none, b)] := by
        rcases h1 with h1 | ⟨_, h1⟩
        · exact h1
        · rw [h1] at h2; simp at h2
      obtain ⟨n0, n1⟩ := hr.recv rfl
      simp only at n0 n1
      have hlt : beNat b < 2 ^ 64 := by have := beNat_lt b; rw [h2] at this; exact this
      have e2 : (BitVec.ofNat 64 (beNat b)).toNat = beNat b := by rw [BitVec.toNat_ofNat]; exact Nat.mod_eq_of_lt hlt
      simp only [List.mem_singleton, forall_eq, recvEff, n0, n1, false_or, e2]
      constructor
      · intro h _; exact ⟨b, h2, h1, h⟩
      · intro h
        obtain ⟨c, _, h4, h5⟩ := h rfl
        simp only at h4
        rw [h1] at h4; cases h4; exact h5
    · cases he
  | pre =>
    simp only [Stmt.effs] at he
    split at he
    · simp only [Option.map_eq_some_iff] at he
      obtain ⟨cs, _, rfl⟩ := he
      constructor
      · intro _ h; cases h
      · intro _ e he
        rw [List.mem_singleton.1 he]; trivial
    · cases he
  | limit q =>
    simp only [Stmt.effs] at he
    split at he
    · cases he
      constructor
      · intro _ h; cases h
      · intro _ e he
        rw [List.mem_singleton.1 he]; trivial
    · cases he

theorem stmt_count {r : Stmt} {es : List Eff} (he : r.effs = some es) (q : QScope) (n : BitVec 32) :
    (∀ e ∈ es, countEff q e n) ↔ CountOk q r n.toNat := by
  obtain ⟨k, op, val⟩ := r
  cases k with
  | field f =>
    simp only [Stmt.effs] at he
    split at he
    · cases he
      constructor
      · intro h
        refine ⟨nofun, ?_⟩
        intro hq hk ho
        cases hk
        have := h (.st .query .equal 0#32) (by simp only at ho; simp [ho])
        exact this hq.symm
      · intro h e he
        rcases List.mem_append.1 he with he | he
        · simp only [List.mem_cons, List.not_mem_nil, or_false] at he
          rcases he with rfl | rfl <;> trivial
        · split at he
          · rename_i hc
            rw [List.mem_singleton.1 he]
            intro hq
            exact h.2 hq.symm (by simp only; rw [hc.1]) hc.2
          · cases he
    · cases he
  | spacename =>
    simp only [Stmt.effs] at he
    split at he
    · simp only [Option.map_eq_some_iff] at he
      obtain ⟨cs, _, rfl⟩ := he
      constructor
      · intro _; exact ⟨nofun, nofun⟩
      · intro _ e he
        simp only [List.mem_cons, List.not_mem_nil, or_false] at he
        rcases he with rfl | rfl | rfl <;> trivial
    · cases he
  | todo p => cases he
  | recv =>
    simp only [Stmt.effs] at he
    split at he
    · cases he
      constructor
      · intro _; exact ⟨nofun, nofun⟩
      · intro _ e he
        rw [List.mem_singleton.1 he]; trivial
    · cases he
  | pre =>
    simp only [Stmt.effs] at he
    split at he
    · simp only [Option.map_eq_some_iff] at he
      obtain ⟨cs, _, rfl⟩ := he
      constructor
      · intro _; exact ⟨nofun, nofun⟩
      · intro _ e he
        rw [List.mem_singleton.1 he]; trivial
    · cases he
  | limit r =>
    simp only [Stmt.effs] at he
    split at he
    · rename_i b hb
      cases he
      obtain ⟨h1, h2⟩ := readExact_ok.1 hb
      have h1 : val = [(none, b)] := by
        rcases h1 with h1 | ⟨_, h1⟩
        · exact h1
        · rw [h1] at h2; simp at h2
      have hlt : beNat b < 2 ^ 32 := by have := beNat_lt b; rw [h2] at this; exact this
      have e2 : (BitVec.ofNat 32 (beNat b)).toNat = beNat b := by rw [BitVec.toNat_ofNat]; exact Nat.mod_eq_of_lt hlt
      simp only [List.mem_singleton, forall_eq, countEff, e2]
      constructor
      · intro h
        refine ⟨?_, nofun⟩
        intro hk; cases hk
        exact ⟨b, h2, h1, h rfl⟩
      · intro h hq
        subst hq
        obtain ⟨c, _, h4, h5⟩ := h.1 rfl
        simp only at h4
        rw [h1] at h4; cases h4; exact h5
    · cases he

/-- The receive stamps an accepted query allows. -/
theorem run_recv {rs : List Stmt} {s : Preds} (h : Preds.default.run true rs = .ok s) (hr : ∀ r ∈ rs, Plain r) (t : BitVec 64) :
    s.recv.Mem t ↔ ∀ r ∈ rs, RecvOk r t.toNat := by
  obtain ⟨es, a, he, ha, hl, rfl⟩ := run_default.1 h
  obtain ⟨m1, m2⟩ := effsOf_mem he
  show a.recv.Mem t ↔ _
  have hd : Abs.default.recv.Mem t := (default_mem 64 t).1
  rw [effs_recv ha, and_iff_right hd, m2]
  constructor
  · intro hh r hm
    obtain ⟨fs, hfs⟩ := m1 r hm
    exact (stmt_recv hfs (hr r hm) t).1 (hh r hm fs hfs)
  · intro hh r hm fs hfs
    exact (stmt_recv hfs (hr r hm) t).2 (hh r hm)

/-- The positions an accepted query allows. -/
theorem run_count {rs : List Stmt} {s : Preds} (h : Preds.default.run true rs = .ok s) (q : QScope) (n : BitVec 32) :
    (s.state q).Mem n ↔ ∀ r ∈ rs, CountOk q r n.toNat := by
  obtain ⟨es, a, he, ha, hl, rfl⟩ := run_default.1 h
  obtain ⟨m1, m2⟩ := effsOf_mem he
  show (a.state q).Mem n ↔ _
  have hd : (Abs.default.state q).Mem n := default_mem 32 n
  rw [effs_count ha, and_iff_right hd, m2]
  constructor
  · intro hh r hm
    obtain ⟨fs, hfs⟩ := m1 r hm
    exact (stmt_count hfs q n).1 (hh r hm fs hfs)
  · intro hh r hm fs hfs
    exact (stmt_count hfs q n).2 (hh r hm)

theorem run_inSet {rs : List Stmt} {s : Preds} (h : Preds.default.run true rs = .ok s) (q : QScope) (i : Nat) :
    InSet (s.state q) i ↔ ∀ r ∈ rs, CountOk q r (capPos i) := by
  unfold InSet
  rw [run_count h]
  have : (BitVec.ofNat 32 (capPos i)).toNat = capPos i := by
    rw [BitVec.toNat_ofNat]; exact Nat.mod_eq_of_lt (by unfold capPos; omega)
  rw [this]

/-- An accepted query has a member in every field, and its `i` set is not empty. -/
theorem run_live {rs : List Stmt} {s : Preds} (h : Preds.default.run true rs = .ok s) :
    ∃ a : Abs, a.Live ∧ a.Good ∧ s = a.preds := by
  obtain ⟨es, a, he, ha, hl, rfl⟩ := run_default.1 h
  exact ⟨a, hl, Abs.effs_good default_good (effsOf_ok he) ha, rfl⟩

end Verif.Query
