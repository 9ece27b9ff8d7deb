import Verif.Spec.Predicates
import Verif.Props.TestSet
import Verif.Props.Space
import Verif.Props.Base64
import Verif.Lemmas.TreeKey
/-!
# Lemmas about the predicates of a query

A statement is a list of effects on a state; the effects commute, and in the shipped profile the code accepts a list
of statements exactly when the state after all effects is live: every set has a member.
-/
namespace Verif.Pred
open Verif Verif.Spec Verif.Pkt Verif.Abl Verif.Fit Verif.Abe Verif.Props

theorem width_gt (f : VF) : 1 < f.width := by cases f <;> decide +revert
theorem width_lt (f : VF) : f.width < 2 ^ 32 := by cases f <;> decide +revert
theorem width_pos (f : VF) : 0 < f.width := by have := width_gt f; omega

/-! ### sets with debug assertions -/

theorem hasAny_true_iff {w} (h0 : 1 < w) (h32 : w < 2 ^ 32) (t : TestSet w) : t.hasAny true = .ok true ↔ ∃ x, t.Mem x := by
  by_cases ha : t.mask.hasAny = true
  · rcases hasAny_iff h0 h32 true t ha with ⟨e, h⟩ | ⟨e, h⟩
    · simp [e, h]
    · rw [e]; constructor
      · intro h'; cases h'
      · rintro ⟨x, hx⟩; exact absurd hx (h x)
  · have e : t.hasAny true = .error .panic := by simp [TestSet.hasAny, TestSet.minValue, Mask.inSetD, ha]
    rw [e]; constructor
    · intro h; cases h
    · rintro ⟨x, hx⟩; exact absurd hx (not_mem_of_mask (by simpa using ha) x)

theorem hasAny_false_iff {w} (h0 : 1 < w) (h32 : w < 2 ^ 32) (t : TestSet w) :
    t.hasAny true = .ok false ↔ t.mask.hasAny = true ∧ ∀ x, ¬ t.Mem x := by
  by_cases ha : t.mask.hasAny = true
  · rcases hasAny_iff h0 h32 true t ha with ⟨e, x, h⟩ | ⟨e, h⟩
    · rw [e]; constructor
      · intro h; cases h
      · rintro ⟨_, h'⟩; exact absurd h (h' x)
    · simp [e, h, ha]
  · have e : t.hasAny true = .error .panic := by simp [TestSet.hasAny, TestSet.minValue, Mask.inSetD, ha]
    rw [e]; simp [ha]

theorem tryAdd_true_iff {w} (h0 : 1 < w) (h32 : w < 2 ^ 32) (t t' : TestSet w) (op : TestOp) (v : BitVec w) :
    t.tryAdd true op v = .ok t' ↔ t' = t.add op v ∧ ∃ x, (t.add op v).Mem x := by
  rw [← hasAny_true_iff h0 h32]
  constructor
  · exact tryAdd_ok
  · rintro ⟨rfl, h⟩; simp [TestSet.tryAdd, h]

/-! ### states -/

/-- A state with the prefix as a list of components. -/
structure Abs where
  set : (f : VF) → TestSet f.width
  recv : Bound 64
  state : QScope → TestSet 32
  pc : List Bytes

def Abs.preds (a : Abs) : Preds := ⟨a.set, a.recv, a.state, rootedOf a.pc⟩

def Abs.default : Abs := ⟨fun f => .default f.width, .default 64, fun _ => .default 32, []⟩

theorem Abs.default_preds : Abs.default.preds = Preds.default := by simp [Abs.default, Abs.preds, Preds.default, rootedOf]

def Abs.addSet (a : Abs) (f : VF) (op : TestOp) (v : BitVec f.width) : Abs :=
  { a with set := fun g => if h : g = f then h ▸ (a.set f).add op v else a.set g }
def Abs.addState (a : Abs) (q : QScope) (op : TestOp) (v : BitVec 32) : Abs :=
  { a with state := fun r => if r = q then (a.state q).add op v else a.state r }

theorem Abs.addSet_same (a : Abs) (f : VF) (op : TestOp) (v : BitVec f.width) :
    (a.addSet f op v).set f = (a.set f).add op v := by simp [Abs.addSet]
theorem Abs.addSet_other (a : Abs) (f g : VF) (op : TestOp) (v : BitVec f.width) (h : g ≠ f) :
    (a.addSet f op v).set g = a.set g := by simp [Abs.addSet, h]

theorem Abs.addTo_iff (a : Abs) (f : VF) (op : TestOp) (v : BitVec f.width) (s' : Preds) :
    a.preds.addTo true f op v = .ok s' ↔ s' = (a.addSet f op v).preds ∧ ∃ x, ((a.addSet f op v).set f).Mem x := by
  rw [Abs.addSet_same]
  unfold Preds.addTo
  constructor
  · intro h
    split at h
    · rename_i t ht
      obtain ⟨rfl, hx⟩ := (tryAdd_true_iff (width_gt f) (width_lt f) _ _ _ _).1 ht
      cases h
      exact ⟨rfl, hx⟩
    · cases h
  · rintro ⟨rfl, hx⟩
    have := (tryAdd_true_iff (width_gt f) (width_lt f) (a.preds.set f) _ op v).2 ⟨rfl, hx⟩
    rw [this]; rfl

/-- The effects of statements. -/
inductive Eff
  | add (f : VF) (op : TestOp) (v : BitVec f.width)
  | st (q : QScope) (op : TestOp) (v : BitVec 32)
  | rcv (op : TestOp) (v : BitVec 64)
  | pre (cs : List Bytes)

/-- The more specific of two comparable spaces. -/
def joinPre (p a : List Bytes) : Option (List Bytes) := if a <+: p then some p else if p <+: a then some a else none

def Abs.addGt (a : Abs) : Abs := if a.pc.length = 0 then a else a.addSet .depth .greater (BitVec.ofNat _ (a.pc.length - 1))

def Abs.eff (a : Abs) : Eff → Option Abs
  | .add f op v => some (a.addSet f op v)
  | .st q op v => some (a.addState q op v)
  | .rcv op v => some { a with recv := a.recv.add op v }
  | .pre cs => (joinPre a.pc cs).map fun q => Abs.addGt { a with pc := q }

def Abs.effs (a : Abs) : List Eff → Option Abs
  | [] => some a
  | e :: es => (a.eff e).bind (fun a => Abs.effs a es)

theorem Abs.effs_append (a : Abs) (es fs : List Eff) : a.effs (es ++ fs) = (a.effs es).bind (fun a => a.effs fs) := by
  induction es generalizing a with
  | nil => rfl
  | cons e es ih =>
    simp only [List.cons_append, Abs.effs]
    cases a.eff e with
    | none => rfl
    | some b => exact ih b

/-- The space a statement names, as the code uses it: the first eight components. -/
def spaceArg (val : ABList) : Option (List Bytes) :=
  match readSpace val with
  | .ok bs => match Space.iter bs with
    | .ok cs => some (cs.take 8)
    | .error _ => none
  | .error _ => none

/-- The effects of a statement. -/
def Stmt.effs (r : Stmt) : Option (List Eff) :=
  match r.kind with
  | .field f =>
    match f.read r.val with
    | .ok b => some ([.add .type .mask1 f.pkts, .add f r.op (BitVec.ofNat _ (beNat b))]
        ++ (if f = .hash ∧ r.op = .equal then [.st .query .equal 0#32] else []))
    | .error _ => none
  | .spacename =>
    if r.op = .equal then
      (spaceArg r.val).map fun cs => [.add .type .mask1 2#8, .add .depth .equal (BitVec.ofNat _ cs.length), .pre cs]
    else none
  | .todo _ => none
  | .recv =>
    match readExact 8 r.val with
    | .ok b => some [.rcv r.op (BitVec.ofNat 64 (beNat b))]
    | .error _ => none
  | .pre => if r.op = .equal then (spaceArg r.val).map fun cs => [.pre cs] else none
  | .limit q =>
    match readExact 4 r.val with
    | .ok b => some [.st q r.op (BitVec.ofNat 32 (beNat b))]
    | .error _ => none

/-- Effects on spaces name spaces of at most eight components. -/
def Eff.Ok : Eff → Prop
  | .pre cs => IsSpace (encodeSpace cs) cs ∧ cs.length ≤ 8
  | _ => True

theorem readSpace_isSpace {val : ABList} {bs : Bytes} (h : readSpace val = .ok bs) : ∃ cs, IsSpace bs cs := by
  unfold readSpace at h
  split at h
  · rename_i b hb
    cases h
    unfold Eval.spaceOfAblist at hb
    split at hb
    · cases hb; exact ⟨[], Space.isSpace_nil⟩
    · simp only at hb
      split at hb
      · split at hb
        · rename_i n hn
          cases hb
          obtain ⟨cs, hcs, _⟩ := (space_check_iff _ _).1 hn
          exact ⟨cs, hcs⟩
        · cases hb
      · split at hb
        · cases hb
        · rename_i cs _
          unfold Eval.ofSpace at hb
          split at hb
          · rename_i b' hb'
            cases hb
            exact ⟨cs, ((space_build_iff _ _).1 hb').1⟩
          · cases hb
          · cases hb
  · cases h
  · cases h

theorem isSpace_take {bs : Bytes} {cs : List Bytes} (h : IsSpace bs cs) (n : Nat) : IsSpace (encodeSpace (cs.take n)) (cs.take n) := by
  refine ⟨h.comps.take n, rfl, ?_⟩
  have h1 := h.size
  have h2 := endOffset_le' cs n
  rw [h.enc] at h1
  omega
where
  endOffset_le' (cs : List Bytes) (n : Nat) : (encodeSpace (cs.take n)).length ≤ (encodeSpace cs).length := by
    have : encodeSpace cs = encodeSpace (cs.take n) ++ encodeSpace (cs.drop n) := by
      rw [← Space.encodeSpace_append, List.take_append_drop]
    rw [this, List.length_append]; omega

theorem spaceArg_eq {val : ABList} {bs : Bytes} {cs : List Bytes} (h : readSpace val = .ok bs) (hs : IsSpace bs cs) :
    spaceArg val = some (cs.take 8) := by
  unfold spaceArg; rw [h]; simp only [space_iter bs cs hs]

theorem spaceArg_ok {val : ABList} {cs : List Bytes} (h : spaceArg val = some cs) :
    ∃ bs full, readSpace val = .ok bs ∧ IsSpace bs full ∧ cs = full.take 8 := by
  unfold spaceArg at h
  split at h
  · rename_i bs hb
    obtain ⟨full, hf⟩ := readSpace_isSpace hb
    rw [space_iter bs full hf] at h
    cases h
    exact ⟨bs, full, hb, hf, rfl⟩
  · cases h

theorem Stmt.effs_ok {r : Stmt} {es : List Eff} (h : r.effs = some es) : ∀ e ∈ es, e.Ok := by
  have hs : ∀ cs, spaceArg r.val = some cs → IsSpace (encodeSpace cs) cs ∧ cs.length ≤ 8 := by
    intro cs hcs
    obtain ⟨bs, full, _, hf, rfl⟩ := spaceArg_ok hcs
    exact ⟨isSpace_take hf 8, by simp; omega⟩
  unfold Stmt.effs at h
  intro e he
  split at h
  · split at h
    · cases h
      simp only [List.mem_append, List.mem_cons, List.not_mem_nil, or_false] at he
      rcases he with (rfl | rfl) | he
      · trivial
      · trivial
      · split at he
        · simp at he; subst he; trivial
        · cases he
    · cases h
  · split at h
    · cases hc : spaceArg r.val with
      | none => rw [hc] at h; cases h
      | some cs =>
        rw [hc] at h; cases h
        simp only [List.mem_cons, List.not_mem_nil, or_false] at he
        rcases he with rfl | rfl | rfl
        · trivial
        · trivial
        · exact hs cs hc
    · cases h
  · cases h
  · split at h
    · cases h; simp at he; subst he; trivial
    · cases h
  · split at h
    · cases hc : spaceArg r.val with
      | none => rw [hc] at h; cases h
      | some cs =>
        rw [hc] at h; cases h
        simp only [List.mem_cons, List.not_mem_nil, or_false] at he
        subst he
        exact hs cs hc
    · cases h
  · split at h
    · cases h; simp at he; subst he; trivial
    · cases h

/-! ### invariants -/

/-- Kept by every effect. -/
structure Abs.Good (a : Abs) : Prop where
  space : IsSpace (encodeSpace a.pc) a.pc
  depth : a.pc.length ≤ 8
  low : a.pc.length ≤ (a.set .depth).bound.low.toNat

/-- What the checks of the code ask of a state. -/
structure Abs.Live (a : Abs) : Prop where
  sets : ∀ f, ∃ x, (a.set f).Mem x
  recv : ∃ x, a.recv.Mem x
  valid : a.preds.isValid true = .ok ()

theorem low_mono {w} (t : TestSet w) (op : TestOp) (v : BitVec w) : t.bound.low.toNat ≤ (t.add op v).bound.low.toNat := by
  simp only [TestSet.add]
  cases op <;> simp only [Bound.add, Nat.le_refl]
  · rw [bmax_toNat]; omega
  · cases h : decr v with
    | none => simp only [Bound.empty, maxV_toNat]; have := t.bound.low.isLt; omega
    | some x => exact Nat.le_refl _
  · cases h : inc v with
    | none => simp only [Bound.empty, maxV_toNat]; have := t.bound.low.isLt; omega
    | some x => simp only [bmax_toNat]; omega

theorem joinPre_some {p a q : List Bytes} (h : joinPre p a = some q) :
    p <+: q ∧ a <+: q ∧ (q = p ∨ q = a) := by
  unfold joinPre at h
  split at h
  · cases h; rename_i h; exact ⟨List.prefix_refl _, h, .inl rfl⟩
  · split at h
    · cases h; rename_i h; exact ⟨h, List.prefix_refl _, .inr rfl⟩
    · cases h

theorem joinPre_of {p a q : List Bytes} (h1 : p <+: q) (h2 : a <+: q) : ∃ r, joinPre p a = some r ∧ r <+: q := by
  unfold joinPre
  rcases List.prefix_or_prefix_of_prefix h1 h2 with h | h
  · by_cases h' : a <+: p
    · rw [if_pos h']; exact ⟨p, rfl, h1⟩
    · rw [if_neg h', if_pos h]; exact ⟨a, rfl, h2⟩
  · rw [if_pos h]; exact ⟨p, rfl, h1⟩

theorem joinPre_comm (p a b : List Bytes) :
    (joinPre p a).bind (fun q => joinPre q b) = (joinPre p b).bind (fun q => joinPre q a) := by
  have key : ∀ (a b x : List Bytes), (joinPre p a).bind (fun q => joinPre q b) = some x →
      (joinPre p b).bind (fun q => joinPre q a) = some x := by
    intro a b x h
    cases hq : joinPre p a with
    | none => rw [hq] at h; cases h
    | some q =>
      rw [hq] at h
      have h : joinPre q b = some x := h
      obtain ⟨hpq, haq, hq'⟩ := joinPre_some hq
      obtain ⟨hqx, hbx, hx'⟩ := joinPre_some h
      obtain ⟨r, hr, hrx⟩ := joinPre_of (hpq.trans hqx) hbx
      obtain ⟨y, hy, hyx⟩ := joinPre_of hrx (haq.trans hqx)
      rw [hr]
      show joinPre r a = some x
      rw [hy]
      congr 1
      obtain ⟨hry, hay, _⟩ := joinPre_some hy
      obtain ⟨hpr, hbr, _⟩ := joinPre_some hr
      apply List.IsPrefix.eq_of_length hyx
      apply Nat.le_antisymm hyx.length_le
      rcases hx' with rfl | rfl
      · rcases hq' with rfl | rfl
        · exact (hpr.trans hry).length_le
        · exact hay.length_le
      · exact (hbr.trans hry).length_le
  apply Option.ext
  intro x
  exact ⟨key a b x, key b a x⟩

theorem toNat_small {n : Nat} (h : n < 256) : (BitVec.ofNat VF.depth.width n).toNat = n := by
  rw [BitVec.toNat_ofNat]; exact Nat.mod_eq_of_lt h

theorem greater_add {w} (t : TestSet w) (v : BitVec w) (h : v.toNat + 1 < 2 ^ w) :
    ∃ x : BitVec w, x.toNat = v.toNat + 1 ∧ t.add .greater v = ⟨⟨bmax t.bound.low x, t.bound.high⟩, t.mask⟩ := by
  cases hi : inc v with
  | none => have := inc_none hi; omega
  | some x => exact ⟨x, inc_some hi, by simp only [TestSet.add, Bound.add, Mask.add, hi]⟩

/-- Adding a lower bound that already holds changes nothing. -/
theorem greater_id {w} (t : TestSet w) (v : BitVec w) (h : v.toNat + 1 ≤ t.bound.low.toNat) : t.add .greater v = t := by
  obtain ⟨x, hx, e⟩ := greater_add t v (by have := t.bound.low.isLt; omega)
  rw [e]
  have : bmax t.bound.low x = t.bound.low := BitVec.eq_of_toNat_eq (by rw [bmax_toNat]; omega)
  rw [this]

theorem greater_absorb {w} (t : TestSet w) (u v : BitVec w) (h : v.toNat + 1 < 2 ^ w) (huv : u.toNat ≤ v.toNat) :
    (t.add .greater u).add .greater v = t.add .greater v := by
  obtain ⟨x, hx, e⟩ := greater_add t u (by omega)
  obtain ⟨y, hy, e2⟩ := greater_add t v h
  obtain ⟨z, hz, e3⟩ := greater_add (t.add .greater u) v h
  rw [e3, e, e2]
  have : z = y := BitVec.eq_of_toNat_eq (by omega)
  subst this
  have : bmax (bmax t.bound.low x) z = bmax t.bound.low z := BitVec.eq_of_toNat_eq (by simp only [bmax_toNat]; omega)
  simp only [this]

theorem Abs.ext' {a b : Abs} (h1 : ∀ f, a.set f = b.set f) (h2 : a.recv = b.recv) (h3 : ∀ q, a.state q = b.state q)
    (h4 : a.pc = b.pc) : a = b := by
  cases a; cases b
  congr
  · exact funext h1
  · exact funext h3

theorem addGt_pc (a : Abs) : a.addGt.pc = a.pc := by unfold Abs.addGt; split <;> rfl
theorem addGt_recv (a : Abs) : a.addGt.recv = a.recv := by unfold Abs.addGt; split <;> rfl
theorem addGt_state (a : Abs) : a.addGt.state = a.state := by unfold Abs.addGt; split <;> rfl
theorem addGt_other (a : Abs) (f : VF) (h : f ≠ .depth) : a.addGt.set f = a.set f := by
  unfold Abs.addGt; split
  · rfl
  · exact Abs.addSet_other _ _ _ _ _ h
theorem addGt_depth (a : Abs) : a.addGt.set .depth =
    if a.pc.length = 0 then a.set .depth else (a.set .depth).add .greater (BitVec.ofNat _ (a.pc.length - 1)) := by
  unfold Abs.addGt; split
  · rfl
  · exact Abs.addSet_same _ _ _ _

theorem addGt_low (a : Abs) (h8 : a.pc.length ≤ 8) : a.pc.length ≤ (a.addGt.set .depth).bound.low.toNat := by
  rw [addGt_depth]
  split
  · omega
  · have hn : (BitVec.ofNat VF.depth.width (a.pc.length - 1)).toNat = a.pc.length - 1 := toNat_small (by omega)
    obtain ⟨x, hx, e⟩ := greater_add (a.set .depth) (BitVec.ofNat VF.depth.width (a.pc.length - 1))
      (by rw [hn]; show _ < 256; omega)
    rw [e]
    simp only [bmax_toNat]
    omega

theorem addGt_id {a : Abs} (h : a.Good) : a.addGt = a := by
  unfold Abs.addGt
  split
  · rfl
  · refine Abs.ext' ?_ (by rfl) (by intro _; rfl) (by rfl)
    intro f
    by_cases hf : f = .depth
    · subst hf
      rw [Abs.addSet_same]
      apply greater_id
      have h1 := h.low
      have h2 := h.depth
      rw [toNat_small (by omega)]
      omega
    · exact Abs.addSet_other _ _ _ _ _ hf

theorem Abs.eff_good {a a' : Abs} {e : Eff} (h : a.Good) (he : e.Ok) (ha : a.eff e = some a') : a'.Good := by
  cases e with
  | add f op v =>
    cases ha
    refine ⟨h.space, h.depth, ?_⟩
    by_cases hf : VF.depth = f
    · subst hf
      rw [Abs.addSet_same]
      exact Nat.le_trans h.low (low_mono _ _ _)
    · rw [Abs.addSet_other _ _ _ _ _ hf]; exact h.low
  | st q op v => cases ha; exact ⟨h.space, h.depth, h.low⟩
  | rcv op v => cases ha; exact ⟨h.space, h.depth, h.low⟩
  | pre cs =>
    simp only [Abs.eff] at ha
    cases hq : joinPre a.pc cs with
    | none => rw [hq] at ha; cases ha
    | some q =>
      rw [hq] at ha
      simp only [Option.map_some, Option.some.injEq] at ha
      subst ha
      obtain ⟨_, _, hq'⟩ := joinPre_some hq
      have hs : IsSpace (encodeSpace q) q ∧ q.length ≤ 8 := by
        rcases hq' with rfl | rfl
        · exact ⟨h.space, h.depth⟩
        · exact he
      refine ⟨by rw [addGt_pc]; exact hs.1, by rw [addGt_pc]; exact hs.2, ?_⟩
      rw [addGt_pc]
      exact addGt_low { a with pc := q } hs.2

/-! ### validity of the counters -/

theorem mask_mono {w} (m : Mask w) (op : TestOp) (v : BitVec w) (h : (m.add op v).hasAny = true) : m.hasAny = true := by
  rw [mask_hasAny_iff] at h ⊢
  intro i hi
  have h1 := h i
  cases op <;> simp only [Mask.add, BitVec.getLsbD_and, BitVec.getLsbD_or, Bool.or_eq_true, Bool.and_eq_true] at h1
  · exact h1 hi
  · exact h1 hi
  · exact h1 hi
  · exact h1 hi
  · exact (h1 hi).1
  · exact h1 (.inl hi)

theorem isValid_iff (s : Preds) : s.isValid true = .ok () ↔ (∃ x, (s.state .query).Mem x) ∧
    ((∃ x, (s.state .new).Mem x) ∨ ((s.state .new).mask.hasAny = true ∧ (∃ x, (s.state .index).Mem x) ∧ ∃ x, (s.state .branch).Mem x)) := by
  have h0 : 1 < 32 := by decide
  have h32 : 32 < 2 ^ 32 := by decide
  rw [← hasAny_true_iff h0 h32, ← hasAny_true_iff h0 h32, ← hasAny_true_iff h0 h32, ← hasAny_true_iff h0 h32]
  have key : ∀ t : TestSet 32, t.hasAny true = .ok false → t.mask.hasAny = true := fun t h => ((hasAny_false_iff h0 h32 t).1 h).1
  have key2 : ∀ (t : TestSet 32) (e : Fault Unit), t.hasAny true = .error e → t.mask.hasAny = false := by
    intro t e h
    by_cases ha : t.mask.hasAny = true
    · rcases hasAny_iff h0 h32 true t ha with ⟨e', _⟩ | ⟨e', _⟩ <;> rw [e'] at h <;> cases h
    · simpa using ha
  unfold Preds.isValid
  cases h1 : (s.state .query).hasAny true with
  | error e => simp
  | ok b1 =>
    cases b1 with
    | false => simp
    | true =>
      cases h2 : (s.state .new).hasAny true with
      | error e => simp [key2 _ _ h2]
      | ok b2 =>
        cases b2 with
        | true => simp
        | false =>
          simp only [key _ h2]
          cases h3 : (s.state .index).hasAny true with
          | error e => simp
          | ok b3 =>
            cases b3 with
            | false => simp
            | true =>
              cases h4 : (s.state .branch).hasAny true with
              | error e => simp
              | ok b4 => cases b4 <;> simp

/-- Narrower counters are valid only if wider ones are. -/
theorem isValid_mono {s t : Preds} (hm : ∀ q x, (t.state q).Mem x → (s.state q).Mem x)
    (hk : ∀ q, (t.state q).mask.hasAny = true → (s.state q).mask.hasAny = true) (h : t.isValid true = .ok ()) :
    s.isValid true = .ok () := by
  rw [isValid_iff] at h ⊢
  obtain ⟨⟨x, hx⟩, h⟩ := h
  refine ⟨⟨x, hm _ _ hx⟩, ?_⟩
  rcases h with ⟨y, hy⟩ | ⟨hmask, ⟨y, hy⟩, ⟨z, hz⟩⟩
  · exact .inl ⟨y, hm _ _ hy⟩
  · exact .inr ⟨hk _ hmask, ⟨y, hm _ _ hy⟩, ⟨z, hm _ _ hz⟩⟩

theorem recv_add_mem {b : Bound 64} {op : TestOp} {v x : BitVec 64} (h : (b.add op v).Mem x) : b.Mem x := by
  by_cases h0 : op = .mask0
  · subst h0; exact h
  · by_cases h1 : op = .mask1
    · subst h1; exact h
    · exact ((bound_add_mem (by decide) b op v x h0 h1).1 h).1

theorem addGt_mem {a : Abs} {f : VF} {x : BitVec f.width} (h : (a.addGt.set f).Mem x) : (a.set f).Mem x := by
  by_cases hf : f = .depth
  · subst hf
    rw [addGt_depth] at h
    split at h
    · exact h
    · exact ((add_mem (width_pos _) _ _ _ _).1 h).1
  · rwa [addGt_other _ _ hf] at h

theorem Abs.eff_mem {a a' : Abs} {e : Eff} (ha : a.eff e = some a') {f : VF} {x : BitVec f.width} (h : (a'.set f).Mem x) :
    (a.set f).Mem x := by
  cases e with
  | add g op v =>
    cases ha
    by_cases hf : f = g
    · subst hf
      rw [Abs.addSet_same] at h
      exact ((add_mem (width_pos _) _ _ _ _).1 h).1
    · rwa [Abs.addSet_other _ _ _ _ _ hf] at h
  | st q op v => cases ha; exact h
  | rcv op v => cases ha; exact h
  | pre cs =>
    simp only [Abs.eff] at ha
    cases hq : joinPre a.pc cs with
    | none => rw [hq] at ha; cases ha
    | some q =>
      rw [hq] at ha
      simp only [Option.map_some, Option.some.injEq] at ha
      subst ha
      exact addGt_mem (a := { a with pc := q }) h

theorem Abs.eff_live {a a' : Abs} {e : Eff} (ha : a.eff e = some a') (h : a'.Live) : a.Live := by
  have h1 : ∀ f, ∃ x, (a.set f).Mem x := fun f => by
    obtain ⟨x, hx⟩ := h.sets f
    exact ⟨x, Abs.eff_mem ha hx⟩
  cases e with
  | add g op v => cases ha; exact ⟨h1, h.recv, h.valid⟩
  | st q op v =>
    cases ha
    refine ⟨h1, h.recv, ?_⟩
    apply isValid_mono _ _ h.valid
    · intro r x hx
      by_cases hr : r = q
      · subst hr
        simp only [Abs.preds, Abs.addState, if_true] at hx
        exact ((add_mem (by decide) _ _ _ _).1 hx).1
      · simpa [Abs.preds, Abs.addState, hr] using hx
    · intro r hx
      by_cases hr : r = q
      · subst hr
        simp only [Abs.preds, Abs.addState, if_true] at hx
        exact mask_mono _ _ _ hx
      · simpa [Abs.preds, Abs.addState, hr] using hx
  | rcv op v =>
    cases ha
    obtain ⟨x, hx⟩ := h.recv
    exact ⟨h1, ⟨x, recv_add_mem hx⟩, h.valid⟩
  | pre cs =>
    simp only [Abs.eff] at ha
    cases hq : joinPre a.pc cs with
    | none => rw [hq] at ha; cases ha
    | some q =>
      rw [hq] at ha
      simp only [Option.map_some, Option.some.injEq] at ha
      subst ha
      refine ⟨h1, ?_, ?_⟩
      · have := h.recv; rwa [addGt_recv] at this
      · have := h.valid
        rw [isValid_iff] at this ⊢
        simpa [Abs.preds, addGt_state] using this

theorem Abs.effs_live {a a' : Abs} {es : List Eff} (ha : a.effs es = some a') (h : a'.Live) : a.Live := by
  induction es generalizing a with
  | nil => cases ha; exact h
  | cons e es ih =>
    simp only [Abs.effs] at ha
    cases hb : a.eff e with
    | none => rw [hb] at ha; cases ha
    | some b => rw [hb] at ha; exact Abs.eff_live hb (ih ha)

theorem Abs.effs_good {a a' : Abs} {es : List Eff} (h : a.Good) (he : ∀ e ∈ es, e.Ok) (ha : a.effs es = some a') : a'.Good := by
  induction es generalizing a with
  | nil => cases ha; exact h
  | cons e es ih =>
    simp only [Abs.effs] at ha
    cases hb : a.eff e with
    | none => rw [hb] at ha; cases ha
    | some b =>
      rw [hb] at ha
      exact ih (Abs.eff_good h (he e List.mem_cons_self) hb) (fun e h => he e (List.mem_cons_of_mem _ h)) ha

/-! ### effects commute -/

theorem addSet_comm (a : Abs) (f g : VF) (o p : TestOp) (u : BitVec f.width) (v : BitVec g.width) :
    (a.addSet f o u).addSet g p v = (a.addSet g p v).addSet f o u := by
  refine Abs.ext' ?_ (by rfl) (by intro _; rfl) (by rfl)
  intro h
  by_cases hfg : f = g
  · subst hfg
    by_cases hh : h = f
    · subst hh
      simp only [Abs.addSet_same]
      exact add_comm _ (o, u) (p, v)
    · simp only [Abs.addSet_other _ _ _ _ _ hh]
  · by_cases h1 : h = f
    · subst h1
      rw [Abs.addSet_other _ _ _ _ _ hfg, Abs.addSet_same, Abs.addSet_same, Abs.addSet_other _ _ _ _ _ hfg]
    · by_cases h2 : h = g
      · subst h2
        rw [Abs.addSet_other _ _ _ _ _ h1, Abs.addSet_same, Abs.addSet_same, Abs.addSet_other _ _ _ _ _ h1]
      · simp only [Abs.addSet_other _ _ _ _ _ h1, Abs.addSet_other _ _ _ _ _ h2]

theorem addState_comm (a : Abs) (f g : QScope) (o p : TestOp) (u v : BitVec 32) :
    (a.addState f o u).addState g p v = (a.addState g p v).addState f o u := by
  refine Abs.ext' (by intro _; rfl) (by rfl) ?_ (by rfl)
  intro h
  simp only [Abs.addState]
  by_cases hfg : f = g
  · subst hfg
    by_cases hh : h = f
    · simp only [hh, if_true]; exact add_comm _ (o, u) (p, v)
    · simp [hh]
  · by_cases h1 : h = f
    · subst h1; simp [hfg, Ne.symm hfg]
    · by_cases h2 : h = g
      · subst h2; simp [hfg, h1]
      · simp [h1, h2]

theorem recv_comm (b : Bound 64) (o p : TestOp) (u v : BitVec 64) : (b.add o u).add p v = (b.add p v).add o u := by
  have := add_comm (⟨b, .default 64⟩ : TestSet 64) (o, u) (p, v)
  exact congrArg TestSet.bound this

theorem addGt_addSet (a : Abs) (f : VF) (o : TestOp) (u : BitVec f.width) : (a.addSet f o u).addGt = a.addGt.addSet f o u := by
  have hp : (a.addSet f o u).pc = a.pc := rfl
  unfold Abs.addGt
  rw [hp]
  split
  · rfl
  · exact addSet_comm _ _ _ _ _ _ _

theorem addGt_absorb (a : Abs) (p q : List Bytes) (h : p.length ≤ q.length) (h8 : q.length ≤ 8) :
    Abs.addGt { (Abs.addGt { a with pc := p }) with pc := q } = Abs.addGt { a with pc := q } := by
  obtain ⟨b, hb⟩ : ∃ b : Abs, b = Abs.addGt { a with pc := p } := ⟨_, rfl⟩
  have hb1 : ∀ f, f ≠ .depth → b.set f = a.set f := fun f hf => by rw [hb, addGt_other _ _ hf]
  have hb2 : b.recv = a.recv := by rw [hb, addGt_recv]
  have hb3 : b.state = a.state := by rw [hb, addGt_state]
  have hb4 : b.set .depth = if p.length = 0 then a.set .depth else (a.set .depth).add .greater (BitVec.ofNat _ (p.length - 1)) := by
    rw [hb, addGt_depth]
  rw [← hb]
  refine Abs.ext' ?_ ?_ ?_ ?_
  · intro f
    by_cases hf : f = .depth
    · subst hf
      rw [addGt_depth, addGt_depth]
      show (if q.length = 0 then b.set .depth else (b.set .depth).add .greater (BitVec.ofNat _ (q.length - 1))) =
        if q.length = 0 then a.set .depth else (a.set .depth).add .greater (BitVec.ofNat _ (q.length - 1))
      rw [hb4]
      by_cases hp : p.length = 0
      · simp [hp]
      · have hq : q.length ≠ 0 := by omega
        rw [if_neg hq, if_neg hp, if_neg hq]
        apply greater_absorb
        · rw [toNat_small (by omega)]; show _ < 256; omega
        · rw [toNat_small (by omega), toNat_small (by omega)]; omega
    · rw [addGt_other _ _ hf, addGt_other _ _ hf]
      exact hb1 f hf
  · rw [addGt_recv, addGt_recv]; exact hb2
  · intro q'
    rw [addGt_state, addGt_state]; exact congrFun hb3 q'
  · rw [addGt_pc, addGt_pc]

theorem eff_pre_comm (a : Abs) (cs ds : List Bytes) (h : a.pc.length ≤ 8) (h1 : cs.length ≤ 8) (h2 : ds.length ≤ 8) :
    (a.eff (.pre cs)).bind (fun b => b.eff (.pre ds))
      = ((joinPre a.pc cs).bind (fun q => joinPre q ds)).map (fun q => Abs.addGt { a with pc := q }) := by
  simp only [Abs.eff]
  cases hq : joinPre a.pc cs with
  | none => rfl
  | some q =>
    simp only [Option.map_some, Option.bind_some, addGt_pc]
    cases hr : joinPre q ds with
    | none => rfl
    | some r =>
      simp only [Option.map_some, Option.some.injEq]
      obtain ⟨h3, _, h4⟩ := joinPre_some hr
      obtain ⟨_, _, h5⟩ := joinPre_some hq
      apply addGt_absorb
      · exact h3.length_le
      · rcases h4 with rfl | rfl
        · rcases h5 with rfl | rfl <;> assumption
        · exact h2

theorem eff_comm (a : Abs) (e f : Eff) (hg : a.pc.length ≤ 8) (he : e.Ok) (hf : f.Ok) :
    (a.eff e).bind (fun b => b.eff f) = (a.eff f).bind (fun b => b.eff e) := by
  cases e with
  | add x o u =>
    cases f with
    | add y p v => simp only [Abs.eff, Option.bind_some]; rw [addSet_comm]
    | st q p v => rfl
    | rcv p v => rfl
    | pre cs =>
      simp only [Abs.eff, Option.bind_some]
      show (joinPre a.pc cs).map _ = _
      cases joinPre a.pc cs with
      | none => rfl
      | some q =>
        simp only [Option.map_some, Option.bind_some]
        exact congrArg some (addGt_addSet { a with pc := q } x o u)
  | st q p v =>
    cases f with
    | add y p v => rfl
    | st r p v => simp only [Abs.eff, Option.bind_some]; rw [addState_comm]
    | rcv p v => rfl
    | pre cs =>
      simp only [Abs.eff, Option.bind_some]
      show (joinPre a.pc cs).map _ = _
      cases joinPre a.pc cs with
      | none => rfl
      | some r =>
        simp only [Option.map_some, Option.bind_some]
        congr 1
        unfold Abs.addGt
        show (if r.length = 0 then _ else _) = Abs.addState (if r.length = 0 then _ else _) _ _ _
        split <;> rfl
  | rcv o u =>
    cases f with
    | add y p v => rfl
    | st r p v => rfl
    | rcv p v => simp only [Abs.eff, Option.bind_some]; rw [recv_comm]
    | pre cs =>
      simp only [Abs.eff, Option.bind_some]
      show (joinPre a.pc cs).map _ = _
      cases joinPre a.pc cs with
      | none => rfl
      | some r =>
        simp only [Option.map_some, Option.bind_some]
        congr 1
        unfold Abs.addGt
        show (if r.length = 0 then _ else _) = (⟨_, _, _, _⟩ : Abs)
        simp only
        split <;> rfl
  | pre cs =>
    cases f with
    | add y p v =>
      simp only [Abs.eff, Option.bind_some]
      show _ = (joinPre a.pc cs).map _
      cases joinPre a.pc cs with
      | none => rfl
      | some q =>
        simp only [Option.map_some, Option.bind_some]
        exact congrArg some (addGt_addSet { a with pc := q } y p v).symm
    | st r p v =>
      simp only [Abs.eff, Option.bind_some]
      show _ = (joinPre a.pc cs).map _
      cases joinPre a.pc cs with
      | none => rfl
      | some r =>
        simp only [Option.map_some, Option.bind_some]
        congr 1
        unfold Abs.addGt
        show Abs.addState (if r.length = 0 then _ else _) _ _ _ = (if r.length = 0 then _ else _)
        split <;> rfl
    | rcv p v =>
      simp only [Abs.eff, Option.bind_some]
      show _ = (joinPre a.pc cs).map _
      cases joinPre a.pc cs with
      | none => rfl
      | some r =>
        simp only [Option.map_some, Option.bind_some]
        congr 1
        unfold Abs.addGt
        show (⟨_, _, _, _⟩ : Abs) = (if r.length = 0 then _ else _)
        simp only
        split <;> rfl
    | pre ds =>
      rw [eff_pre_comm a cs ds hg he.2 hf.2, eff_pre_comm a ds cs hg hf.2 he.2, joinPre_comm]

theorem Abs.eff_short {a a' : Abs} {e : Eff} (h : a.pc.length ≤ 8) (he : e.Ok) (ha : a.eff e = some a') : a'.pc.length ≤ 8 := by
  cases e with
  | add f op v => cases ha; exact h
  | st q op v => cases ha; exact h
  | rcv op v => cases ha; exact h
  | pre cs =>
    simp only [Abs.eff] at ha
    cases hq : joinPre a.pc cs with
    | none => rw [hq] at ha; cases ha
    | some q =>
      rw [hq] at ha
      simp only [Option.map_some, Option.some.injEq] at ha
      subst ha
      rw [addGt_pc]
      obtain ⟨_, _, rfl | rfl⟩ := joinPre_some hq
      · exact h
      · exact he.2

theorem effs_perm {es fs : List Eff} (h : es.Perm fs) (a : Abs) (hg : a.pc.length ≤ 8) (he : ∀ e ∈ es, e.Ok) :
    a.effs es = a.effs fs := by
  induction h generalizing a with
  | nil => rfl
  | cons x _ ih =>
    simp only [Abs.effs]
    cases hx : a.eff x with
    | none => rfl
    | some b =>
      simp only [Option.bind_some]
      exact ih b (Abs.eff_short hg (he x List.mem_cons_self) hx) (fun e h => he e (List.mem_cons_of_mem _ h))
  | swap x y l =>
    have hc := eff_comm a x y hg (he x (by simp)) (he y (by simp))
    show (a.eff y).bind (fun b => (b.eff x).bind (fun b => Abs.effs b l)) = (a.eff x).bind (fun b => (b.eff y).bind (fun b => Abs.effs b l))
    rw [← Option.bind_assoc, ← Option.bind_assoc, hc]
  | trans h1 _ ih1 ih2 => rw [ih1 a hg he, ih2 a hg (fun e h => he e (h1.mem_iff.2 h))]

end Verif.Pred
