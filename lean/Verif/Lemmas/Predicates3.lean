import Verif.Lemmas.Predicates2
/-!
# What effects mean
-/
namespace Verif.Pred
open Verif Verif.Spec Verif.Pkt Verif.Abl Verif.Fit Verif.Abe Verif.Props

/-! ### values -/

theorem asExactBytes_some {val : ABList} {b : Bytes} :
    asExactBytes val = some b ↔ (val = [(none, b)] ∨ (val = [] ∧ b = [])) := by
  unfold asExactBytes
  split
  · simp [eq_comm]
  · simp
  · rename_i h1 h2
    simp only [reduceCtorEq, false_iff, not_or]
    exact ⟨fun h => h2 _ h, fun h => h1 h.1⟩

theorem exactOr_ok {val : ABList} {f : Bytes → Option Bytes} {x : Bytes} :
    exactOr val f = .ok x ↔ ∃ b, (val = [(none, b)] ∨ (val = [] ∧ b = [])) ∧ f b = some x := by
  unfold exactOr
  constructor
  · intro h
    split at h
    · rename_i y hy
      cases h
      obtain ⟨b, hb, hf⟩ := Option.bind_eq_some_iff.1 hy
      exact ⟨b, asExactBytes_some.1 hb, hf⟩
    · cases h
  · rintro ⟨b, hb, hf⟩
    rw [asExactBytes_some.2 hb]
    simp only [Option.bind_some, hf]

theorem fit_some {n : Nat} {b x : Bytes} : fit n b = some x ↔ b.length = n ∧ x = b := by
  unfold fit fitFront
  constructor
  · intro h
    split at h
    · cases h
    · rename_i hn
      rw [if_neg (by omega)] at h
      cases h
      have : b.length = n := by omega
      simp [this]
  · rintro ⟨h, rfl⟩
    rw [if_neg (by omega), if_neg (by omega)]
    simp [h]

theorem beNat_zeros (k : Nat) (b : Bytes) : beNat (List.replicate k 0 ++ b) = beNat b := by
  induction k with
  | zero => simp
  | succ k ih => rw [List.replicate_succ, List.cons_append, beNat_cons, ih]; simp

theorem readExact_ok {n : Nat} {val : ABList} {x : Bytes} :
    readExact n val = .ok x ↔ (val = [(none, x)] ∨ (val = [] ∧ x = [])) ∧ x.length = n := by
  unfold readExact
  rw [exactOr_ok]
  constructor
  · rintro ⟨b, hb, hf⟩
    obtain ⟨h, rfl⟩ := fit_some.1 hf
    exact ⟨hb, h⟩
  · rintro ⟨h1, h2⟩; exact ⟨x, h1, fit_some.2 ⟨h2, rfl⟩⟩

theorem readB64_ok {val : ABList} {x : Bytes} :
    readB64 val = .ok x ↔ ∃ b, (val = [(none, b)] ∨ (val = [] ∧ b = [])) ∧ x.length = 32 ∧ (b = x ∨ Base64 b64UrlSafe b x) := by
  have key : exactOr val (b64Fit 32) = .ok x ↔ ∃ b, (val = [(none, b)] ∨ (val = [] ∧ b = [])) ∧ x.length = 32 ∧ (b = x ∨ Base64 b64UrlSafe b x) := by
    rw [exactOr_ok]
    constructor
    · rintro ⟨b, hb, hf⟩
      obtain ⟨h1, h2⟩ := b64_fit_only _ _ _ hf
      refine ⟨b, hb, h1, ?_⟩
      rcases h2 with h | h
      · exact .inl h
      · exact .inr ((b64_encode_iff _ _).1 h.symm)
    · rintro ⟨b, hb, h1, h2⟩
      refine ⟨b, hb, ?_⟩
      have := b64_fit_both x
      rw [h1] at this
      rcases h2 with rfl | h
      · exact this.2
      · rw [← (b64_encode_iff _ _).2 h]; exact this.1
  unfold readB64
  split
  · simp
  · exact key

/-- The value that is read is the one the statement names. -/
theorem read_iff (f : VF) (val : ABList) (n : Nat) : (∃ x, f.read val = .ok x ∧ n = beNat x) ↔ ValueIs f val n := by
  have k1 : ∀ m, (∃ x, readExact m val = .ok x ∧ n = beNat x) ↔
      ∃ b, (val = [(none, b)] ∨ (val = [] ∧ b = [])) ∧ b.length = m ∧ n = beNat b := by
    intro m
    constructor
    · rintro ⟨x, hx, rfl⟩
      obtain ⟨h1, h2⟩ := readExact_ok.1 hx
      exact ⟨x, h1, h2, rfl⟩
    · rintro ⟨b, h1, h2, rfl⟩; exact ⟨b, readExact_ok.2 ⟨h1, h2⟩, rfl⟩
  have k2 : (∃ x, readB64 val = .ok x ∧ n = beNat x) ↔
      ∃ b, (val = [(none, b)] ∨ (val = [] ∧ b = [])) ∧ ∃ x : Bytes, x.length = 32 ∧ n = beNat x ∧ (b = x ∨ Base64 b64UrlSafe b x) := by
    constructor
    · rintro ⟨x, hx, rfl⟩
      obtain ⟨b, h1, h2, h3⟩ := readB64_ok.1 hx
      exact ⟨b, h1, x, h2, rfl, h3⟩
    · rintro ⟨b, h1, x, h2, rfl, h3⟩; exact ⟨x, readB64_ok.2 ⟨b, h1, h2, h3⟩, rfl⟩
  have k3 : (∃ x, readDomain val = .ok x ∧ n = beNat x) ↔
      ∃ b, (val = [(none, b)] ∨ (val = [] ∧ b = [])) ∧ b.length ≤ 16 ∧ n = beNat b := by
    unfold readDomain
    constructor
    · rintro ⟨x, hx, rfl⟩
      obtain ⟨b, h1, h2⟩ := exactOr_ok.1 hx
      unfold fitBack at h2
      split at h2
      · cases h2
      · cases h2
        exact ⟨b, h1, by omega, beNat_zeros _ _⟩
    · rintro ⟨b, h1, h2, rfl⟩
      refine ⟨List.replicate (16 - b.length) 0 ++ b, exactOr_ok.2 ⟨b, h1, ?_⟩, (beNat_zeros _ _).symm⟩
      unfold fitBack; rw [if_neg (by omega)]
  cases f <;> first | exact k1 _ | exact k2 | exact k3

theorem read_lt {f : VF} {val : ABList} {x : Bytes} (h : f.read val = .ok x) : beNat x < 2 ^ f.width := by
  have hl : x.length = f.bytes := by
    have k2 : readB64 val = .ok x → x.length = 32 := fun h => by
      obtain ⟨_, _, h, _⟩ := readB64_ok.1 h; exact h
    have k3 : readDomain val = .ok x → x.length = 16 := fun h => by
      obtain ⟨b, _, h2⟩ := exactOr_ok.1 h
      unfold fitBack at h2
      split at h2
      · cases h2
      · cases h2; simp; omega
    cases f <;> first | exact (readExact_ok.1 h).2 | exact k2 h | exact k3 h
  have := beNat_lt x
  rw [hl] at this
  calc beNat x < 256 ^ f.bytes := this
    _ = 2 ^ (8 * f.bytes) := by rw [show (256:Nat) = 2 ^ 8 from rfl, ← Nat.pow_mul]

/-! ### meaning -/

/-- What a packet shows is consistent. -/
structure Wf (x : Seen) : Prop where
  small : ∀ f, x.num f < 2 ^ f.width
  depth : ∀ xs, x.space = some xs → x.num .depth = xs.length
  link : HasType x 2 → ∃ xs, x.space = some xs

/-- The packet, the receive time and the counters lie in the state. -/
structure Abs.Holds (a : Abs) (x : Seen) (t : BitVec 64) (c : QScope → BitVec 32) : Prop where
  sets : ∀ f, (a.set f).Mem (BitVec.ofNat _ (x.num f))
  recv : a.recv.Mem t
  state : ∀ q, (a.state q).Mem (c q)
  space : a.pc = [] ∨ ∃ xs, x.space = some xs ∧ a.pc <+: xs

def Eff.Sat (x : Seen) (t : BitVec 64) (c : QScope → BitVec 32) : Eff → Prop
  | .add f op v => Allows op (x.num f) v.toNat
  | .st q op v => Allows op (c q).toNat v.toNat
  | .rcv op v => op = .mask0 ∨ op = .mask1 ∨ Allows op t.toNat v.toNat
  | .pre cs => cs = [] ∨ ∃ xs, x.space = some xs ∧ cs <+: xs

theorem recv_mem (b : Bound 64) (op : TestOp) (v t : BitVec 64) :
    (b.add op v).Mem t ↔ b.Mem t ∧ (op = .mask0 ∨ op = .mask1 ∨ Allows op t.toNat v.toNat) := by
  by_cases h0 : op = .mask0
  · subst h0; simp [Bound.add]
  · by_cases h1 : op = .mask1
    · subst h1; simp [Bound.add]
    · rw [bound_add_mem (by decide) b op v t h0 h1]; simp [h0, h1]

theorem ofNat_small (f : VF) {n : Nat} (h : n < 2 ^ f.width) : (BitVec.ofNat f.width n).toNat = n := by
  rw [BitVec.toNat_ofNat]; exact Nat.mod_eq_of_lt h

theorem sets_pre {a : Abs} {q : List Bytes} {x : Seen} (hx : Wf x) (h8 : q.length ≤ 8)
    (hs : q = [] ∨ ∃ xs, x.space = some xs ∧ q <+: xs) :
    (∀ f, ((Abs.addGt { a with pc := q }).set f).Mem (BitVec.ofNat _ (x.num f))) ↔
      ∀ f, (a.set f).Mem (BitVec.ofNat _ (x.num f)) := by
  constructor
  · intro h f; exact addGt_mem (a := { a with pc := q }) (h f)
  · intro h1 f
    by_cases hf : f = .depth
    · subst hf
      rw [addGt_depth]
      split
      · exact h1 _
      · rename_i h0
        rw [add_mem (width_pos _)]
        refine ⟨h1 _, ?_⟩
        show (BitVec.ofNat _ _).toNat > (BitVec.ofNat _ _).toNat
        have h0 : q.length ≠ 0 := h0
        show (BitVec.ofNat _ _).toNat > (BitVec.ofNat VF.depth.width (q.length - 1)).toNat
        rw [ofNat_small _ (hx.small _), toNat_small (by omega)]
        rcases hs with rfl | ⟨xs, he, hp⟩
        · exact absurd rfl h0
        · rw [hx.depth xs he]; have := hp.length_le; omega
    · rw [addGt_other _ _ hf]; exact h1 f

theorem holds_pre {a : Abs} {q : List Bytes} {x : Seen} (hx : Wf x) (h8 : q.length ≤ 8) {t c}
    (hs : q = [] ∨ ∃ xs, x.space = some xs ∧ q <+: xs) :
    (Abs.addGt { a with pc := q }).Holds x t c ↔
      (∀ f, (a.set f).Mem (BitVec.ofNat _ (x.num f))) ∧ a.recv.Mem t ∧ ∀ r, (a.state r).Mem (c r) := by
  rw [← sets_pre hx h8 hs]
  constructor
  · intro h
    refine ⟨h.sets, ?_, ?_⟩
    · have := h.recv; rwa [addGt_recv] at this
    · intro r; have := h.state r; rwa [addGt_state] at this
  · rintro ⟨h1, h2, h3⟩
    exact ⟨h1, by rw [addGt_recv]; exact h2, by intro r; rw [addGt_state]; exact h3 r, by rw [addGt_pc]; exact hs⟩

/-- The state after an effect holds for what it held for and satisfies the effect. -/
theorem eff_holds {a a' : Abs} {e : Eff} {x : Seen} (hx : Wf x) (hg : a.pc.length ≤ 8) (he : e.Ok) {t c}
    (ha : a.eff e = some a') : a'.Holds x t c ↔ a.Holds x t c ∧ e.Sat x t c := by
  cases e with
  | add f op v =>
    cases ha
    constructor
    · intro h
      have hf := h.sets f
      rw [Abs.addSet_same, add_mem (width_pos _), ofNat_small _ (hx.small _)] at hf
      refine ⟨⟨?_, h.recv, h.state, h.space⟩, hf.2⟩
      intro g
      exact Abs.eff_mem (e := .add f op v) rfl (h.sets g)
    · rintro ⟨h, hs⟩
      refine ⟨?_, h.recv, h.state, h.space⟩
      intro g
      by_cases hf : g = f
      · subst hf
        rw [Abs.addSet_same, add_mem (width_pos _), ofNat_small _ (hx.small _)]
        exact ⟨h.sets _, hs⟩
      · rw [Abs.addSet_other _ _ _ _ _ hf]; exact h.sets g
  | st q op v =>
    cases ha
    constructor
    · intro h
      refine ⟨⟨h.sets, h.recv, ?_, h.space⟩, ?_⟩
      · intro r
        have := h.state r
        by_cases hr : r = q
        · subst hr
          simp only [Abs.addState, if_true] at this
          exact ((add_mem (by decide) _ _ _ _).1 this).1
        · simpa [Abs.addState, hr] using this
      · have := h.state q
        simp only [Abs.addState, if_true] at this
        exact ((add_mem (by decide) _ _ _ _).1 this).2
    · rintro ⟨h, hs⟩
      refine ⟨h.sets, h.recv, ?_, h.space⟩
      intro r
      by_cases hr : r = q
      · subst hr
        simp only [Abs.addState, if_true]
        exact (add_mem (by decide) _ _ _ _).2 ⟨h.state r, hs⟩
      · simpa [Abs.addState, hr] using h.state r
  | rcv op v =>
    cases ha
    constructor
    · intro h
      have := (recv_mem _ _ _ _).1 h.recv
      exact ⟨⟨h.sets, this.1, h.state, h.space⟩, this.2⟩
    · rintro ⟨h, hs⟩
      exact ⟨h.sets, (recv_mem _ _ _ _).2 ⟨h.recv, hs⟩, h.state, h.space⟩
  | pre cs =>
    simp only [Abs.eff] at ha
    cases hq : joinPre a.pc cs with
    | none => rw [hq] at ha; cases ha
    | some q =>
      rw [hq] at ha
      simp only [Option.map_some, Option.some.injEq] at ha
      subst ha
      obtain ⟨hp1, hp2, hq'⟩ := joinPre_some hq
      have h8 : q.length ≤ 8 := by rcases hq' with rfl | rfl; exact hg; exact he.2
      constructor
      · intro h
        have hsp : q = [] ∨ ∃ xs, x.space = some xs ∧ q <+: xs := by have := h.space; rwa [addGt_pc] at this
        obtain ⟨h1, h2, h3⟩ := (holds_pre hx h8 hsp).1 h
        have down : ∀ p, p <+: q → (p = [] ∨ ∃ xs, x.space = some xs ∧ p <+: xs) := by
          intro p hp
          rcases hsp with rfl | ⟨xs, e, hx⟩
          · exact .inl (List.prefix_nil.1 hp)
          · exact .inr ⟨xs, e, hp.trans hx⟩
        exact ⟨⟨h1, h2, h3, down _ hp1⟩, down _ hp2⟩
      · rintro ⟨h, hs⟩
        refine (holds_pre hx h8 ?_).2 ⟨h.sets, h.recv, h.state⟩
        rcases hq' with rfl | rfl
        · exact h.space
        · exact hs

/-- An effect satisfied by something the state holds for can be applied. -/
theorem eff_some {a : Abs} {e : Eff} {x : Seen} {t c} (h : a.Holds x t c) (hs : e.Sat x t c) : ∃ a', a.eff e = some a' := by
  cases e with
  | add f op v => exact ⟨_, rfl⟩
  | st q op v => exact ⟨_, rfl⟩
  | rcv op v => exact ⟨_, rfl⟩
  | pre cs =>
    have : ∃ q, joinPre a.pc cs = some q := by
      rcases hs with rfl | ⟨xs, e, hp⟩
      · exact ⟨a.pc, by unfold joinPre; rw [if_pos List.nil_prefix]⟩
      · rcases h.space with h0 | ⟨ys, e', hp'⟩
        · rw [h0]
          obtain ⟨r, hr, _⟩ := joinPre_of (List.nil_prefix (l := xs)) hp
          exact ⟨r, hr⟩
        · rw [e] at e'; cases e'
          obtain ⟨r, hr, _⟩ := joinPre_of hp' hp
          exact ⟨r, hr⟩
    obtain ⟨q, hq⟩ := this
    exact ⟨Abs.addGt { a with pc := q }, by simp only [Abs.eff, hq, Option.map_some]⟩

theorem effs_holds {a a' : Abs} {es : List Eff} {x : Seen} (hx : Wf x) (hg : a.pc.length ≤ 8) (he : ∀ e ∈ es, e.Ok) {t c}
    (ha : a.effs es = some a') : a'.Holds x t c ↔ a.Holds x t c ∧ ∀ e ∈ es, e.Sat x t c := by
  induction es generalizing a with
  | nil => cases ha; simp
  | cons e es ih =>
    simp only [Abs.effs] at ha
    cases hb : a.eff e with
    | none => rw [hb] at ha; cases ha
    | some b =>
      rw [hb] at ha
      have ok1 := he e List.mem_cons_self
      rw [ih (Abs.eff_short hg ok1 hb) (fun e h => he e (List.mem_cons_of_mem _ h)) ha, eff_holds hx hg ok1 hb]
      simp only [List.mem_cons, forall_eq_or_imp]
      exact and_assoc

theorem effs_some {a : Abs} {es : List Eff} {x : Seen} (hx : Wf x) (hg : a.pc.length ≤ 8) (he : ∀ e ∈ es, e.Ok) {t c}
    (h : a.Holds x t c) (hs : ∀ e ∈ es, e.Sat x t c) : ∃ a', a.effs es = some a' ∧ a'.Holds x t c := by
  induction es generalizing a with
  | nil => exact ⟨a, rfl, h⟩
  | cons e es ih =>
    have ok1 := he e List.mem_cons_self
    obtain ⟨b, hb⟩ := eff_some h (hs e List.mem_cons_self)
    have hb' := (eff_holds hx hg ok1 hb).2 ⟨h, hs e List.mem_cons_self⟩
    obtain ⟨a', ha, hh⟩ := ih (Abs.eff_short hg ok1 hb) (fun e h => he e (List.mem_cons_of_mem _ h)) hb'
      (fun e h => hs e (List.mem_cons_of_mem _ h))
    exact ⟨a', by simp only [Abs.effs, hb]; exact ha, hh⟩

/-- The part about the packet. -/
structure Abs.Shown (a : Abs) (x : Seen) : Prop where
  sets : ∀ f, (a.set f).Mem (BitVec.ofNat _ (x.num f))
  space : a.pc = [] ∨ ∃ xs, x.space = some xs ∧ a.pc <+: xs

def Eff.Packet (x : Seen) : Eff → Prop
  | .add f op v => Allows op (x.num f) v.toNat
  | .pre cs => cs = [] ∨ ∃ xs, x.space = some xs ∧ cs <+: xs
  | _ => True

theorem eff_shown {a a' : Abs} {e : Eff} {x : Seen} (hx : Wf x) (hg : a.pc.length ≤ 8) (he : e.Ok)
    (ha : a.eff e = some a') : a'.Shown x ↔ a.Shown x ∧ e.Packet x := by
  cases e with
  | add f op v =>
    cases ha
    constructor
    · intro h
      have hf := h.sets f
      rw [Abs.addSet_same, add_mem (width_pos _), ofNat_small _ (hx.small _)] at hf
      exact ⟨⟨fun g => Abs.eff_mem (e := .add f op v) rfl (h.sets g), h.space⟩, hf.2⟩
    · rintro ⟨h, hs⟩
      refine ⟨?_, h.space⟩
      intro g
      by_cases hf : g = f
      · subst hf
        rw [Abs.addSet_same, add_mem (width_pos _), ofNat_small _ (hx.small _)]
        exact ⟨h.sets _, hs⟩
      · rw [Abs.addSet_other _ _ _ _ _ hf]; exact h.sets g
  | st q op v => cases ha; exact ⟨fun h => ⟨⟨h.sets, h.space⟩, trivial⟩, fun h => ⟨h.1.sets, h.1.space⟩⟩
  | rcv op v => cases ha; exact ⟨fun h => ⟨⟨h.sets, h.space⟩, trivial⟩, fun h => ⟨h.1.sets, h.1.space⟩⟩
  | pre cs =>
    simp only [Abs.eff] at ha
    cases hq : joinPre a.pc cs with
    | none => rw [hq] at ha; cases ha
    | some q =>
      rw [hq] at ha
      simp only [Option.map_some, Option.some.injEq] at ha
      subst ha
      obtain ⟨hp1, hp2, hq'⟩ := joinPre_some hq
      have h8 : q.length ≤ 8 := by rcases hq' with rfl | rfl; exact hg; exact he.2
      constructor
      · intro h
        have hsp : q = [] ∨ ∃ xs, x.space = some xs ∧ q <+: xs := by have := h.space; rwa [addGt_pc] at this
        have h1 := (sets_pre hx h8 hsp).1 h.sets
        have down : ∀ p, p <+: q → (p = [] ∨ ∃ xs, x.space = some xs ∧ p <+: xs) := by
          intro p hp
          rcases hsp with rfl | ⟨xs, e, hx⟩
          · exact .inl (List.prefix_nil.1 hp)
          · exact .inr ⟨xs, e, hp.trans hx⟩
        exact ⟨⟨h1, down _ hp1⟩, down _ hp2⟩
      · rintro ⟨h, hs⟩
        have hsp : q = [] ∨ ∃ xs, x.space = some xs ∧ q <+: xs := by
          rcases hq' with rfl | rfl
          · exact h.space
          · exact hs
        exact ⟨(sets_pre hx h8 hsp).2 h.sets, by rw [addGt_pc]; exact hsp⟩

theorem effs_shown {a a' : Abs} {es : List Eff} {x : Seen} (hx : Wf x) (hg : a.pc.length ≤ 8) (he : ∀ e ∈ es, e.Ok)
    (ha : a.effs es = some a') : a'.Shown x ↔ a.Shown x ∧ ∀ e ∈ es, e.Packet x := by
  induction es generalizing a with
  | nil => cases ha; simp
  | cons e es ih =>
    simp only [Abs.effs] at ha
    cases hb : a.eff e with
    | none => rw [hb] at ha; cases ha
    | some b =>
      rw [hb] at ha
      have ok1 := he e List.mem_cons_self
      rw [ih (Abs.eff_short hg ok1 hb) (fun e h => he e (List.mem_cons_of_mem _ h)) ha, eff_shown hx hg ok1 hb]
      simp only [List.mem_cons, forall_eq_or_imp]
      exact and_assoc

theorem holds_live {a : Abs} {x : Seen} {t c} (h : a.Holds x t c) : a.Live := by
  refine ⟨fun f => ⟨_, h.sets f⟩, ⟨_, h.recv⟩, ?_⟩
  rw [isValid_iff]
  exact ⟨⟨_, h.state .query⟩, .inl ⟨_, h.state .new⟩⟩

theorem default_holds (x : Seen) (t c) : Abs.default.Holds x t c :=
  ⟨fun _ => default_mem _ _, (default_mem 64 t).1, fun _ => default_mem _ _, .inl rfl⟩

/-! ### compiled tests -/

theorem mem_order (f : VF) : f ∈ VF.order := by
  cases f <;> first | decide | (rename_i i; revert i; decide)

theorem test_iff' (a : Abs) (hl : a.Live) (p : NetParts) :
    a.preds.test p = true ↔ (∀ f : VF, (a.set f).Mem (f.val p)) ∧ (a.pc = [] ∨ prefixTest (encodeSpace a.pc) p = true) := by
  have hf : ∀ f : VF, (∀ t ∈ a.preds.fieldTest f, t p = true) ↔ (a.set f).Mem (f.val p) := by
    intro f
    rw [← compileTest_iff _ (hl.sets f)]
    unfold Preds.fieldTest
    show (∀ t ∈ (match compileTest (a.set f) with
      | none => []
      | some t => [fun p => t (f.val p)] : List (NetParts → Bool)), t p = true) ↔ _
    cases compileTest (a.set f) with
    | none => simp
    | some t => simp
  have hr : a.preds.rspace = [] ↔ a.pc = [] := by
    simp only [Abs.preds]
    unfold rootedOf
    split
    · rename_i h; simp [h]
    · rename_i h
      have := Rooted.rootedWith_not_empty (UInt8.ofNat a.pc.length) a.pc
      constructor
      · intro h'; rw [h'] at this; cases this
      · intro h'; exact absurd h' h
  unfold Preds.test Preds.compile
  rw [List.all_append, Bool.and_eq_true, List.all_eq_true, List.all_eq_true]
  constructor
  · rintro ⟨h1, h2⟩
    refine ⟨fun f => (hf f).1 (fun t ht => h1 t (List.mem_flatMap.2 ⟨f, mem_order f, ht⟩)), ?_⟩
    by_cases h0 : a.pc = []
    · exact .inl h0
    · right
      rw [if_neg (fun h => h0 (hr.1 h))] at h2
      have := h2 _ (List.mem_singleton.2 rfl)
      rwa [spaceOf_pc] at this
  · rintro ⟨h1, h2⟩
    constructor
    · intro t ht
      obtain ⟨f, _, hft⟩ := List.mem_flatMap.1 ht
      exact (hf f).2 (h1 f) t hft
    · by_cases h0 : a.pc = []
      · rw [if_pos (hr.2 h0)]; simp
      · rw [if_neg (fun h => h0 (hr.1 h))]
        intro t ht
        rw [List.mem_singleton.1 ht, spaceOf_pc]
        exact h2.resolve_left h0

/-! ### what packets show -/

theorem beNat_zeros' (k : Nat) : beNat (zeros k) = 0 := by
  have := beNat_zeros k []
  rw [List.append_nil] at this
  exact this

theorem get_shown {p : NetParts} {x : Seen} (h : Shows p x) (f : VF) : f.get p = x.num f := by
  obtain ⟨c, cs, hp, rfl, hw⟩ := h
  have hsz : (c.size + 7) / 8 * 8 + 32 + 32 = 64 + c.size + padTo8 c.size := by unfold padTo8; omega
  cases f with
  | type => simp only [VF.get, hp.parts]; rfl
  | netflags => rfl
  | hop => rfl
  | stamp => rfl
  | ubits i => rfl
  | hash => rfl
  | size => simp only [VF.get, hp.parts]; exact hsz
  | depth =>
    simp only [VF.get, NetParts.getDepth, hp.parts]
    cases c with
    | data b => rfl
    | error b => rfl
    | link l => exact Tree.wellRooted_headD hw
    | key l pk sig => exact Tree.wellRooted_headD hw
  | group => simp only [VF.get, NetParts.getGroup, hp.parts]; cases c <;> first | rfl | exact beNat_zeros' _
  | pubkey => simp only [VF.get, NetParts.getPubkey, hp.parts]; cases c <;> first | rfl | exact beNat_zeros' _
  | domain => simp only [VF.get, NetParts.getDomain, hp.parts]; cases c <;> first | rfl | exact beNat_zeros' _
  | create => simp only [VF.get, NetParts.getCreate, hp.parts]; cases c <;> rfl
  | dataSize => simp only [VF.get, NetParts.data, hp.parts]; cases c <;> rfl
  | linksLen => simp only [VF.get, NetParts.getLinks, hp.parts]; cases c <;> rfl

theorem prefix_shown {p : NetParts} {x : Seen} (h : Shows p x) {ps : List Bytes} (hps : IsSpace (encodeSpace ps) ps) :
    prefixTest (encodeSpace ps) p = true ↔ ∃ xs, x.space = some xs ∧ ps <+: xs := by
  obtain ⟨c, cs, hp, rfl, hw⟩ := h
  have key : ∀ r, WellRooted r cs → (Space.startsWith (spaceOf r) (encodeSpace ps) = true ↔ ps <+: cs) := by
    intro r hr
    rw [Tree.wellRooted_space hr]; exact space_starts_with hr.space hps
  cases c with
  | data b => simp [prefixTest, NetParts.space?, hp.parts, Content.parts, Content.fields, Fields.tail?, seenOf]
  | error b => simp [prefixTest, NetParts.space?, hp.parts, Content.parts, Content.fields, Fields.tail?, seenOf]
  | link l => simp [prefixTest, NetParts.space?, hp.parts, Content.parts, Content.fields, Fields.tail?, seenOf, key _ hw]
  | key l pk sig => simp [prefixTest, NetParts.space?, hp.parts, Content.parts, Content.fields, Fields.tail?, seenOf, key _ hw]

theorem wf_shown {p : NetParts} {x : Seen} (h : Shows p x) : Wf x := by
  obtain ⟨c, cs, hp, rfl, hw⟩ := h
  have b256 : ∀ (b : Bytes) (n : Nat), b.length ≤ n → beNat b < 2 ^ (8 * n) := by
    intro b n hb
    calc beNat b < 256 ^ b.length := beNat_lt b
      _ ≤ 256 ^ n := Nat.pow_le_pow_right (by decide) hb
      _ = 2 ^ (8 * n) := by rw [show (256:Nat) = 2 ^ 8 from rfl, ← Nat.pow_mul]
  have u8 : ∀ b : UInt8, b.toNat < 2 ^ 8 := fun b => UInt8.toNat_lt b
  have tk : ∀ (l : Bytes) (i n : Nat), ((l.drop i).take n).length ≤ n := fun l i n => by simp; omega
  have hv := hp.valid
  refine ⟨?_, ?_, ?_⟩
  · intro f
    have hsize := hv.1
    cases f with
    | type => exact u8 _
    | netflags => exact u8 _
    | hop => exact b256 _ 4 (tk _ _ _)
    | stamp => exact b256 _ 8 (tk _ _ _)
    | ubits i => exact b256 _ 4 (tk _ _ _)
    | hash => exact b256 _ 32 (by rw [hp.hash]; exact Nat.le_refl _)
    | size => show 64 + c.size + padTo8 c.size < 65536; unfold padTo8; omega
    | group =>
      cases c with
      | data b => exact Nat.pow_pos (by decide)
      | error b => exact Nat.pow_pos (by decide)
      | link l => exact b256 _ 32 (Nat.le_of_eq hv.2.group)
      | key l pk s => exact b256 _ 32 (Nat.le_of_eq hv.2.1.group)
    | domain =>
      cases c with
      | data b => exact Nat.pow_pos (by decide)
      | error b => exact Nat.pow_pos (by decide)
      | link l => exact b256 _ 16 (Nat.le_of_eq hv.2.domain)
      | key l pk s => exact b256 _ 16 (Nat.le_of_eq hv.2.1.domain)
    | pubkey =>
      cases c with
      | data b => exact Nat.pow_pos (by decide)
      | error b => exact Nat.pow_pos (by decide)
      | link l => exact Nat.pow_pos (by decide)
      | key l pk s => exact b256 _ 32 (Nat.le_of_eq hv.2.2.1)
    | create =>
      cases c with
      | data b => exact Nat.pow_pos (by decide)
      | error b => exact Nat.pow_pos (by decide)
      | link l => exact hv.2.stamp
      | key l pk s => exact hv.2.1.stamp
    | dataSize =>
      cases c with
      | data b => show b.length < 65536; simp only [Content.size] at hsize; omega
      | error b => show b.length < 65536; simp only [Content.size] at hsize; omega
      | link l => show l.data.length < 65536; simp only [Content.size, LinkContent.len] at hsize; omega
      | key l pk s => show l.data.length < 65536; simp only [Content.size, LinkContent.len] at hsize; omega
    | linksLen =>
      cases c with
      | data b => exact Nat.pow_pos (by decide)
      | error b => exact Nat.pow_pos (by decide)
      | link l => show l.links.length < 65536; simp only [Content.size, LinkContent.len] at hsize; omega
      | key l pk s => show l.links.length < 65536; simp only [Content.size, LinkContent.len] at hsize; omega
    | depth =>
      cases c with
      | data b => exact Nat.pow_pos (by decide)
      | error b => exact Nat.pow_pos (by decide)
      | link l => show cs.length < 256; have := hw.depth; omega
      | key l pk s => show cs.length < 256; have := hw.depth; omega
  · intro xs hxs
    cases c with
    | data b => cases hxs
    | error b => cases hxs
    | link l => cases hxs; rfl
    | key l pk s => cases hxs; rfl
  · intro ht
    cases c with
    | data b => exact absurd (ht 1 (by decide)) (by show ¬ (1 : Nat).testBit 1 = true; decide)
    | error b => exact absurd (ht 1 (by decide)) (by show ¬ (128 : Nat).testBit 1 = true; decide)
    | link l => exact ⟨cs, rfl⟩
    | key l pk s => exact ⟨cs, rfl⟩

/-- On a packet the compiled tests decide whether the state holds. -/
theorem test_shown {a : Abs} (hl : a.Live) (hg : a.Good) {p : NetParts} {x : Seen} (h : Shows p x) :
    a.preds.test p = true ↔ a.Shown x := by
  rw [test_iff' a hl p, prefix_shown h hg.space]
  have : ∀ f : VF, f.val p = BitVec.ofNat _ (x.num f) := fun f => by unfold VF.val; rw [get_shown h f]
  simp only [this]
  exact ⟨fun h => ⟨h.1, h.2⟩, fun h => ⟨h.sets, h.space⟩⟩

end Verif.Pred
