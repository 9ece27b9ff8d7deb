import Verif.Lemmas.Predicates
/-!
# Accepting statements
-/
namespace Verif.Pred
open Verif Verif.Spec Verif.Pkt Verif.Abl Verif.Fit Verif.Abe Verif.Props

theorem live_addSet (a : Abs) (f : VF) (op : TestOp) (v : BitVec f.width) :
    (a.addSet f op v).Live ↔ a.Live ∧ ∃ x, ((a.addSet f op v).set f).Mem x := by
  constructor
  · intro h
    exact ⟨Abs.eff_live (e := .add f op v) rfl h, h.sets f⟩
  · rintro ⟨h, hx⟩
    refine ⟨?_, h.recv, h.valid⟩
    intro g
    by_cases hg : g = f
    · subst hg; exact hx
    · rw [Abs.addSet_other _ _ _ _ _ hg]; exact h.sets g

theorem live_addGt (a : Abs) (hne : a.Live) : a.addGt.Live ↔ ∃ x, (a.addGt.set .depth).Mem x := by
  constructor
  · intro h; exact h.sets .depth
  · intro h
    unfold Abs.addGt at h ⊢
    split
    · exact hne
    · rename_i h0
      rw [if_neg h0] at h
      exact (live_addSet _ _ _ _).2 ⟨hne, h⟩

theorem live_pc (a : Abs) (q : List Bytes) : Abs.Live { a with pc := q } ↔ a.Live := by
  constructor <;> intro h <;> exact ⟨h.sets, h.recv, by have := h.valid; rw [isValid_iff] at this ⊢; exact this⟩

theorem live_addState (a : Abs) (q : QScope) (op : TestOp) (v : BitVec 32) :
    (a.addState q op v).Live ↔ a.Live ∧ (a.addState q op v).preds.isValid true = .ok () := by
  constructor
  · intro h
    exact ⟨Abs.eff_live (e := .st q op v) rfl h, h.valid⟩
  · rintro ⟨h, hx⟩
    exact ⟨h.sets, h.recv, hx⟩

theorem bound_hasAny_iff {w} (b : Bound w) : b.hasAny = true ↔ ∃ x, b.Mem x := by
  simp only [Bound.hasAny, decide_eq_true_eq, Bound.Mem]
  constructor
  · intro h; exact ⟨b.low, Nat.le_refl _, by simpa [BitVec.le_def] using h⟩
  · rintro ⟨x, h1, h2⟩; simp only [BitVec.le_def, ge_iff_le]; omega

theorem preDepth_nil {a : Abs} (h : a.pc = []) : a.preds.preDepth = 0 := by
  simp [Preds.preDepth, Abs.preds, h, rootedOf]
theorem preDepth_toNat (a : Abs) (h : a.pc.length ≤ 8) : a.preds.preDepth.toNat = a.pc.length := by
  by_cases h0 : a.pc = []
  · rw [preDepth_nil h0, h0]; rfl
  · have : a.preds.preDepth = UInt8.ofNat a.pc.length := by
      simp only [Preds.preDepth, Abs.preds, rootedOf, if_neg h0]
      rw [Rooted.rootedWith_head]
    rw [this]; simp; omega
theorem preDepth_zero (a : Abs) (h : a.pc.length ≤ 8) : a.preds.preDepth = 0 ↔ a.pc.length = 0 := by
  have := preDepth_toNat a h
  rw [← this]
  constructor
  · intro h; rw [h]; rfl
  · intro h; exact UInt8.toNat_inj.1 h

theorem spaceOf_pc (a : Abs) : spaceOf a.preds.rspace = encodeSpace a.pc := by
  simp only [Abs.preds, spaceOf]
  unfold rootedOf
  split
  · rename_i h; rw [h]; rfl
  · exact Rooted.rootedWith_drop8 _ _

theorem root_eq {sp : Bytes} {cs : List Bytes} (h : IsSpace sp cs) : root true sp = .ok (rootedOf (cs.take 8)) := by
  unfold root; rw [Rooted.tryIntoRooted_enc true h]

/-- `check_space` on a state whose depth set is not empty. -/
theorem checkSpace_iff (a : Abs) (h : a.pc.length ≤ 8) (hne : ∃ x, (a.set .depth).Mem x) (s' : Preds) :
    a.preds.checkSpace true = .ok s' ↔ s' = a.addGt.preds ∧ ∃ x, (a.addGt.set .depth).Mem x := by
  have info : ∀ b : Abs, b.pc = a.pc → (∃ x, (b.set .depth).Mem x) → b.pc.length ≤ (b.set .depth).bound.low.toNat →
      ∃ i, (b.preds.set .depth).info true (BitVec.ofNat _ b.preds.preDepth.toNat) = .ok i ∧ i.val.isSome = true := by
    intro b hb ⟨x, hx⟩ hlow
    obtain ⟨i, hi, hn, _⟩ := info_eq (width_gt .depth) (width_lt .depth) true (b.set .depth) ⟨x, hx⟩
      (BitVec.ofNat _ b.preds.preDepth.toNat)
    refine ⟨i, hi, ?_⟩
    cases hv : i.val with
    | some y => rfl
    | none =>
      rw [hv] at hn
      exfalso
      apply hn x hx
      rw [preDepth_toNat b (by rw [hb]; exact h), toNat_small (by rw [hb]; omega)]
      exact Nat.le_trans hlow hx.1.1
  unfold Preds.checkSpace
  by_cases h0 : a.pc.length = 0
  · rw [if_pos ((preDepth_zero a h).2 h0)]
    have hg : a.addGt = a := by unfold Abs.addGt; rw [if_pos h0]
    rw [hg]
    obtain ⟨i, hi, hs⟩ := info a rfl hne (by omega)
    simp only [hi, hs, if_true]
    constructor
    · intro h; cases h; exact ⟨rfl, hne⟩
    · rintro ⟨rfl, _⟩; rfl
  · rw [if_neg (fun h' => h0 ((preDepth_zero a h).1 h')), preDepth_toNat a h]
    have hg : a.addGt = a.addSet .depth .greater (BitVec.ofNat _ (a.pc.length - 1)) := by unfold Abs.addGt; rw [if_neg h0]
    constructor
    · intro hh
      cases hc : a.preds.addTo true .depth .greater (BitVec.ofNat _ (a.pc.length - 1)) with
      | error e => rw [hc] at hh; cases hh
      | ok s =>
        rw [hc] at hh
        obtain ⟨hs, hx⟩ := (Abs.addTo_iff _ _ _ _ _).1 hc
        rw [← hg] at hs hx
        subst hs
        obtain ⟨i, hi, hs⟩ := info a.addGt (addGt_pc a) hx (by rw [addGt_pc]; exact addGt_low a h)
        simp only [hi, hs, if_true] at hh
        cases hh
        exact ⟨rfl, hx⟩
    · rintro ⟨rfl, hx⟩
      rw [hg] at hx
      rw [(Abs.addTo_iff _ _ _ _ _).2 ⟨rfl, hx⟩, ← hg]
      rw [← hg] at hx
      obtain ⟨i, hi, hs⟩ := info a.addGt (addGt_pc a) hx (by rw [addGt_pc]; exact addGt_low a h)
      simp only [hi, hs, if_true]

theorem prefix_take {p cs : List Bytes} (h : p.length ≤ 8) : p <+: cs ↔ p <+: cs.take 8 := by
  constructor
  · intro hp
    rw [List.prefix_iff_eq_take] at hp ⊢
    rw [List.take_take, Nat.min_eq_left h]; exact hp
  · intro hp; exact hp.trans (List.take_prefix 8 cs)

/-- What `prefix` does, in effects. -/
theorem addPrefix_iff (a : Abs) (hg : a.Good) (hl : a.Live) {sp : Bytes} {cs : List Bytes} (hs : IsSpace sp cs) (s' : Preds) :
    a.preds.addPrefix true sp = .ok s' ↔ ∃ a', a.eff (.pre (cs.take 8)) = some a' ∧ a'.Live ∧ s' = a'.preds := by
  have e1 : Space.startsWith (spaceOf a.preds.rspace) sp = true ↔ cs <+: a.pc := by
    rw [spaceOf_pc]; exact space_starts_with hg.space hs
  have e2 : Space.startsWith sp (spaceOf a.preds.rspace) = true ↔ a.pc <+: cs := by
    rw [spaceOf_pc]; exact space_starts_with hs hg.space
  unfold Preds.addPrefix
  simp only [Abs.eff]
  by_cases h1 : cs <+: a.pc
  · rw [if_pos (e1.2 h1)]
    have h8 : cs.take 8 = cs := List.take_of_length_le (Nat.le_trans h1.length_le hg.depth)
    have hj : joinPre a.pc (cs.take 8) = some a.pc := by rw [h8]; unfold joinPre; rw [if_pos h1]
    rw [hj]
    have : Abs.addGt { a with pc := a.pc } = a := addGt_id hg
    simp only [Option.map_some, this, Option.some.injEq]
    constructor
    · intro h; cases h; exact ⟨a, rfl, hl, rfl⟩
    · rintro ⟨_, rfl, _, rfl⟩; rfl
  · rw [if_neg (fun h => h1 (e1.1 h))]
    by_cases h2 : a.pc <+: cs
    · rw [if_pos (e2.2 h2), root_eq hs]
      have h2' := (prefix_take hg.depth).1 h2
      have hj : joinPre a.pc (cs.take 8) = some (cs.take 8) := by
        unfold joinPre
        by_cases h3 : cs.take 8 <+: a.pc
        · rw [if_pos h3]
          have := h3.eq_of_length (Nat.le_antisymm h3.length_le h2'.length_le)
          rw [this]
        · rw [if_neg h3, if_pos h2']
      rw [hj]
      simp only [Option.map_some, Option.some.injEq]
      have hlq : Abs.Live { a with pc := cs.take 8 } := (live_pc a _).2 hl
      have := checkSpace_iff { a with pc := cs.take 8 } (by simp; omega) (hl.sets .depth) s'
      show Preds.checkSpace true { a.preds with rspace := rootedOf (cs.take 8) } = .ok s' ↔ _
      have e : ({ a.preds with rspace := rootedOf (cs.take 8) } : Preds) = ({ a with pc := cs.take 8 } : Abs).preds := rfl
      rw [e, this]
      constructor
      · rintro ⟨rfl, hx⟩; exact ⟨_, rfl, (live_addGt _ hlq).2 hx, rfl⟩
      · rintro ⟨_, rfl, hx, rfl⟩; exact ⟨rfl, (live_addGt _ hlq).1 hx⟩
    · rw [if_neg (fun h => h2 (e2.1 h))]
      have hj : joinPre a.pc (cs.take 8) = none := by
        unfold joinPre
        rw [if_neg, if_neg (fun h => h2 ((prefix_take hg.depth).2 h))]
        intro h3
        by_cases hc : cs.length ≤ 8
        · rw [List.take_of_length_le hc] at h3; exact h1 h3
        · have : (cs.take 8).length = 8 := by simp; omega
          have := h3.eq_of_length (by have := h3.length_le; have := hg.depth; omega)
          exact h2 (this ▸ List.take_prefix 8 cs)
      rw [hj]
      constructor
      · intro h; cases h
      · rintro ⟨_, h, _⟩; cases h

theorem good_addSet {a : Abs} (h : a.Good) (f : VF) (op : TestOp) (v : BitVec f.width) : (a.addSet f op v).Good :=
  Abs.eff_good (e := .add f op v) h trivial rfl

theorem effs_one (a : Abs) (e : Eff) : a.effs [e] = a.eff e := by
  show (a.eff e).bind (fun a => some a) = _
  cases a.eff e <;> rfl

/-- The arm of a field. -/
theorem andField_iff (a : Abs) (hg : a.Good) (hl : a.Live) (f : VF) (op : TestOp) (val : ABList) (s' : Preds) :
    a.preds.andField true f op val = .ok s' ↔
      ∃ es a', Stmt.effs ⟨.field f, op, val⟩ = some es ∧ a.effs es = some a' ∧ a'.Live ∧ s' = a'.preds := by
  unfold Preds.andField
  simp only [Stmt.effs]
  cases hr : f.read val with
  | error e =>
    simp only [reduceCtorEq, false_and, exists_false, iff_false]
    split <;> simp
  | ok b =>
    simp only [Option.some.injEq]
    obtain ⟨v, hv⟩ : ∃ v : BitVec f.width, v = BitVec.ofNat _ (beNat b) := ⟨_, rfl⟩
    rw [← hv]
    clear hv
    let a1 := a.addSet .type .mask1 f.pkts
    let a2 := a1.addSet f op v
    have hg2 : a2.Good := good_addSet (good_addSet hg _ _ _) _ _ _
    have key : ∀ (tl : List Eff) (R : Preds → PRes Preds),
        (a2.Live → ∀ s', R a2.preds = .ok s' ↔ ∃ a', a2.effs tl = some a' ∧ a'.Live ∧ s' = a'.preds) →
        ((match a.preds.addTo true .type .mask1 f.pkts with
          | .error e => .error e
          | .ok s => match s.addTo true f op v with
            | .error e => .error e
            | .ok s => R s : PRes Preds) = .ok s' ↔
          ∃ es a', [Eff.add .type .mask1 f.pkts, .add f op v] ++ tl = es ∧ a.effs es = some a' ∧ a'.Live ∧ s' = a'.preds) := by
      intro tl R hR
      have he : a.effs ([Eff.add .type .mask1 f.pkts, .add f op v] ++ tl) = a2.effs tl := rfl
      constructor
      · intro h
        split at h
        · cases h
        · rename_i s1 h1
          obtain ⟨rfl, hx1⟩ := (Abs.addTo_iff _ _ _ _ _).1 h1
          split at h
          · cases h
          · rename_i s2 h2
            obtain ⟨rfl, hx2⟩ := (Abs.addTo_iff a1 _ _ _ _).1 h2
            have hl2 : a2.Live := (live_addSet _ _ _ _).2 ⟨(live_addSet _ _ _ _).2 ⟨hl, hx1⟩, hx2⟩
            obtain ⟨a', h1, h2, h3⟩ := (hR hl2 s').1 h
            exact ⟨_, a', rfl, by rw [he]; exact h1, h2, h3⟩
      · rintro ⟨_, a', rfl, h1, h2, h3⟩
        rw [he] at h1
        have hl2 : a2.Live := Abs.effs_live h1 h2
        have hl1 : a1.Live := Abs.eff_live (e := .add f op v) rfl hl2
        rw [(Abs.addTo_iff a _ _ _ _).2 ⟨rfl, hl1.sets _⟩]
        simp only
        rw [(Abs.addTo_iff a1 _ _ _ _).2 ⟨rfl, hl2.sets _⟩]
        exact (hR hl2 s').2 ⟨a', h1, h2, h3⟩
    by_cases hh : f = .hash
    · by_cases ho : op = .equal
      · rw [if_pos ⟨hh, ho⟩]
        apply key [.st .query .equal 0#32] (fun s => s.after true f op)
        intro hl2 s'
        subst hh ho
        rw [effs_one]
        show (match (a2.state .query).tryAdd true .equal 0#32 with
          | .ok t => .ok (a2.preds.putState .query t)
          | .error e => .error e) = Except.ok s' ↔ ∃ a', some (a2.addState .query .equal 0#32) = some a' ∧ _
        have hval : (∃ x, ((a2.state .query).add .equal 0#32).Mem x) ↔ (a2.addState .query .equal 0#32).preds.isValid true = .ok () := by
          have h1 := hl2.valid
          rw [isValid_iff] at h1 ⊢
          simp only [Abs.preds, Abs.addState, if_true] at h1 ⊢
          have n1 : QScope.new ≠ .query := by decide
          have n2 : QScope.index ≠ .query := by decide
          have n3 : QScope.branch ≠ .query := by decide
          rw [if_neg n1, if_neg n2, if_neg n3]
          constructor
          · intro h; exact ⟨h, h1.2⟩
          · intro h; exact h.1
        constructor
        · intro h
          split at h
          · rename_i t ht
            obtain ⟨rfl, hx⟩ := (tryAdd_true_iff (by decide) (by decide) _ _ _ _).1 ht
            cases h
            exact ⟨_, rfl, (live_addState _ _ _ _).2 ⟨hl2, hval.1 hx⟩, rfl⟩
          · cases h
        · rintro ⟨_, h, hl', rfl⟩
          cases h
          have := hval.2 ((live_addState _ _ _ _).1 hl').2
          rw [(tryAdd_true_iff (by decide) (by decide) (a2.state .query) _ .equal 0#32).2 ⟨rfl, this⟩]
          rfl
      · rw [if_neg (fun h => ho h.2)]
        apply key [] (fun s => s.after true f op)
        intro hl2 s'
        subst hh
        simp only [Preds.after, if_neg ho, Abs.effs, Option.some.injEq]
        constructor
        · intro h; cases h; exact ⟨a2, rfl, hl2, rfl⟩
        · rintro ⟨_, rfl, _, rfl⟩; rfl
    · rw [if_neg (fun h => hh h.1)]
      apply key [] (fun s => s.after true f op)
      intro hl2 s'
      simp only [Abs.effs, Option.some.injEq]
      have hid : s' = a2.preds ↔ ∃ a', a2 = a' ∧ a'.Live ∧ s' = a'.preds := by
        constructor
        · rintro rfl; exact ⟨a2, rfl, hl2, rfl⟩
        · rintro ⟨_, rfl, _, rfl⟩; rfl
      by_cases hd : f = .depth
      · subst hd
        show a2.preds.checkSpace true = .ok s' ↔ _
        rw [checkSpace_iff a2 hg2.depth (hl2.sets .depth), addGt_id hg2, ← hid]
        exact ⟨fun h => h.1, fun h => ⟨h, hl2.sets .depth⟩⟩
      · rw [← hid]
        have : a2.preds.after true f op = .ok a2.preds := by
          cases f <;> first | rfl | exact absurd rfl hh | exact absurd rfl hd
        rw [this]
        exact ⟨fun h => by cases h; rfl, fun h => by rw [h]⟩

theorem andSpacename_iff (a : Abs) (hg : a.Good) (hl : a.Live) (op : TestOp) (val : ABList) (s' : Preds) :
    a.preds.andSpacename true op val = .ok s' ↔
      ∃ es a', Stmt.effs ⟨.spacename, op, val⟩ = some es ∧ a.effs es = some a' ∧ a'.Live ∧ s' = a'.preds := by
  unfold Preds.andSpacename
  simp only [Stmt.effs]
  by_cases ho : op = .equal
  · simp only [ho, ne_eq, not_true_eq_false, if_false, if_true]
    cases hr : readSpace val with
    | error e =>
      have : spaceArg val = none := by unfold spaceArg; rw [hr]
      simp only [this, Option.map_none, reduceCtorEq, false_and, exists_false, iff_false]
      split <;> simp
    | ok sp =>
      obtain ⟨full, hf⟩ := readSpace_isSpace hr
      rw [spaceArg_eq hr hf]
      simp only [root_eq hf, Option.map_some, Option.some.injEq]
      obtain ⟨cs, hcs⟩ : ∃ cs, cs = full.take 8 := ⟨_, rfl⟩
      rw [← hcs]
      have hs : IsSpace (encodeSpace cs) cs := hcs ▸ isSpace_take hf 8
      have h8 : cs.length ≤ 8 := by rw [hcs]; simp; omega
      clear hcs hf hr
      have hd : ((rootedOf cs).headD 0).toNat = cs.length := preDepth_toNat ⟨a.set, a.recv, a.state, cs⟩ h8
      have hsp : spaceOf (rootedOf cs) = encodeSpace cs := spaceOf_pc ⟨a.set, a.recv, a.state, cs⟩
      rw [hd, hsp]
      let a1 := a.addSet .type .mask1 2#8
      let a2 := a1.addSet .depth .equal (BitVec.ofNat _ cs.length)
      have hg2 : a2.Good := good_addSet (good_addSet hg _ _ _) _ _ _
      have he : a.effs [.add .type .mask1 2#8, .add .depth .equal (BitVec.ofNat _ cs.length), .pre cs] = a2.eff (.pre cs) :=
        effs_one a2 (.pre cs)
      have key : a2.Live → ((if Space.startsWith (encodeSpace cs) (spaceOf a2.preds.rspace) = true then
          Preds.checkSpace true { a2.preds with rspace := rootedOf cs } else .error (.err ())) = Except.ok s' ↔
          ∃ a', a2.eff (.pre cs) = some a' ∧ a'.Live ∧ s' = a'.preds) := by
        intro hl2
        obtain ⟨x, hx⟩ := hl2.sets .depth
        have hx2 := ((Abs.addSet_same a1 .depth .equal (BitVec.ofNat _ cs.length)) ▸ hx : ((a1.set .depth).add .equal _).Mem x)
        have hxe := ((add_mem (width_pos _) _ _ _ _).1 hx2).2
        have hxe : x.toNat = cs.length := by
          have : x.toNat = (BitVec.ofNat VF.depth.width cs.length).toNat := hxe
          rw [this, toNat_small (by omega)]
        have hle : a2.pc.length ≤ cs.length := by
          rw [← hxe]; exact Nat.le_trans hg2.low hx.1.1
        have e2 : Space.startsWith (encodeSpace cs) (spaceOf a2.preds.rspace) = true ↔ a2.pc <+: cs := by
          rw [spaceOf_pc]; exact space_starts_with hs hg2.space
        by_cases h2 : a2.pc <+: cs
        · rw [if_pos (e2.2 h2)]
          have hj : joinPre a2.pc cs = some cs := by
            unfold joinPre
            by_cases h3 : cs <+: a2.pc
            · rw [if_pos h3, h2.eq_of_length (Nat.le_antisymm h2.length_le h3.length_le)]
            · rw [if_neg h3, if_pos h2]
          simp only [Abs.eff, hj, Option.map_some, Option.some.injEq]
          have hlq : Abs.Live { a2 with pc := cs } := (live_pc a2 _).2 hl2
          have := checkSpace_iff { a2 with pc := cs } h8 (hl2.sets .depth) s'
          have e : ({ a2.preds with rspace := rootedOf cs } : Preds) = ({ a2 with pc := cs } : Abs).preds := rfl
          rw [e, this]
          constructor
          · rintro ⟨rfl, hx⟩; exact ⟨_, rfl, (live_addGt _ hlq).2 hx, rfl⟩
          · rintro ⟨_, rfl, hx, rfl⟩; exact ⟨rfl, (live_addGt _ hlq).1 hx⟩
        · rw [if_neg (fun h => h2 (e2.1 h))]
          have hj : joinPre a2.pc cs = none := by
            unfold joinPre
            rw [if_neg, if_neg h2]
            intro h3
            exact h2 ((h3.eq_of_length (Nat.le_antisymm h3.length_le hle)) ▸ List.prefix_refl _)
          simp only [Abs.eff, hj]
          constructor
          · intro h; cases h
          · rintro ⟨_, h, _⟩; cases h
      constructor
      · intro h
        split at h
        · cases h
        · rename_i s1 h1
          obtain ⟨rfl, hx1⟩ := (Abs.addTo_iff _ _ _ _ _).1 h1
          split at h
          · cases h
          · rename_i s2 h2
            obtain ⟨rfl, hx2⟩ := (Abs.addTo_iff a1 _ _ _ _).1 h2
            have hl2 : a2.Live := (live_addSet _ _ _ _).2 ⟨(live_addSet _ _ _ _).2 ⟨hl, hx1⟩, hx2⟩
            obtain ⟨a', h1, h2, h3⟩ := (key hl2).1 h
            exact ⟨_, a', rfl, by rw [he]; exact h1, h2, h3⟩
      · rintro ⟨_, a', rfl, h1, h2, h3⟩
        rw [he] at h1
        have hl2 : a2.Live := Abs.eff_live h1 h2
        have hl1 : a1.Live := Abs.eff_live (e := .add .depth .equal (BitVec.ofNat _ cs.length)) rfl hl2
        rw [(Abs.addTo_iff a _ _ _ _).2 ⟨rfl, hl1.sets _⟩]
        simp only
        rw [(Abs.addTo_iff a1 _ _ _ _).2 ⟨rfl, hl2.sets _⟩]
        exact (key hl2).2 ⟨a', h1, h2, h3⟩
  · simp only [ho, ne_eq, not_false_eq_true, if_true, if_false, reduceCtorEq, false_and, exists_false, iff_false]
    split <;> simp

/-- One statement. -/
theorem and_iff (a : Abs) (hg : a.Good) (hl : a.Live) (r : Stmt) (s' : Preds) :
    a.preds.and true r = .ok s' ↔ ∃ es a', r.effs = some es ∧ a.effs es = some a' ∧ a'.Live ∧ s' = a'.preds := by
  obtain ⟨k, op, val⟩ := r
  cases k with
  | field f => exact andField_iff a hg hl f op val s'
  | spacename => exact andSpacename_iff a hg hl op val s'
  | todo pkts =>
    simp only [Preds.and, Stmt.effs, reduceCtorEq, false_and, exists_false, iff_false]
    split <;> simp
  | recv =>
    simp only [Preds.and, Stmt.effs]
    cases readExact 8 val with
    | error e => simp
    | ok b =>
      simp only [Option.some.injEq]
      constructor
      · intro h
        split at h
        · rename_i t ht
          cases h
          unfold Bound.tryAdd at ht
          simp only at ht
          split at ht
          · cases ht
            rename_i hh
            exact ⟨_, _, rfl, rfl, ⟨hl.sets, (bound_hasAny_iff _).1 hh, hl.valid⟩, rfl⟩
          · cases ht
        · cases h
      · rintro ⟨_, a', rfl, h1, h2, rfl⟩
        have h1 : some ({ a with recv := a.recv.add op (BitVec.ofNat 64 (beNat b)) } : Abs) = some a' := h1
        cases h1
        have := (bound_hasAny_iff _).2 h2.recv
        have e : a.preds.recv.tryAdd op (BitVec.ofNat 64 (beNat b)) = some (a.recv.add op (BitVec.ofNat 64 (beNat b))) := by
          unfold Bound.tryAdd
          exact if_pos this
        rw [e]; rfl
  | pre =>
    simp only [Preds.and, Stmt.effs]
    by_cases ho : op = .equal
    · simp only [ho, ne_eq, not_true_eq_false, if_false, if_true]
      cases hr : readSpace val with
      | error e =>
        have : spaceArg val = none := by unfold spaceArg; rw [hr]
        simp [this]
      | ok sp =>
        obtain ⟨full, hf⟩ := readSpace_isSpace hr
        rw [spaceArg_eq hr hf]
        simp only [Option.map_some, Option.some.injEq]
        rw [addPrefix_iff a hg hl hf]
        constructor
        · rintro ⟨a', h1, h2⟩; exact ⟨_, a', rfl, by rw [effs_one]; exact h1, h2⟩
        · rintro ⟨_, a', rfl, h1, h2⟩; rw [effs_one] at h1; exact ⟨a', h1, h2⟩
    · simp [ho]
  | limit q =>
    simp only [Preds.and, Stmt.effs]
    cases readExact 4 val with
    | error e => simp
    | ok b =>
      simp only [Option.some.injEq]
      have e : (a.preds.putState q ((a.preds.state q).add op (BitVec.ofNat 32 (beNat b)))) = (a.addState q op (BitVec.ofNat 32 (beNat b))).preds := rfl
      rw [e]
      constructor
      · intro h
        split at h
        · cases h
        · rename_i u hu
          cases h
          exact ⟨_, _, rfl, rfl, (live_addState _ _ _ _).2 ⟨hl, hu⟩, rfl⟩
      · rintro ⟨_, a', rfl, h1, h2, rfl⟩
        have h1 : some (a.addState q op (BitVec.ofNat 32 (beNat b))) = some a' := h1
        cases h1
        rw [h2.valid]

/-- The effects of a list of statements. -/
def effsOf : List Stmt → Option (List Eff)
  | [] => some []
  | r :: rs =>
    match r.effs, effsOf rs with
    | some a, some b => some (a ++ b)
    | _, _ => none

theorem effsOf_ok {rs : List Stmt} {es : List Eff} (h : effsOf rs = some es) : ∀ e ∈ es, e.Ok := by
  induction rs generalizing es with
  | nil => cases h; simp
  | cons r rs ih =>
    unfold effsOf at h
    split at h
    · rename_i a b ha hb
      cases h
      intro e he
      rcases List.mem_append.1 he with he | he
      · exact Stmt.effs_ok ha e he
      · exact ih hb e he
    · cases h

theorem effsOf_perm {rs qs : List Stmt} (h : rs.Perm qs) {es : List Eff} (he : effsOf rs = some es) :
    ∃ fs, effsOf qs = some fs ∧ es.Perm fs := by
  induction h generalizing es with
  | nil => exact ⟨_, he, .refl _⟩
  | cons x _ ih =>
    unfold effsOf at he
    split at he
    · rename_i a b ha hb
      cases he
      obtain ⟨fs, h1, h2⟩ := ih hb
      exact ⟨a ++ fs, by unfold effsOf; rw [ha, h1], h2.append_left a⟩
    · cases he
  | swap x y l =>
    unfold effsOf at he
    split at he
    · rename_i a b ha hb
      cases he
      unfold effsOf at hb
      split at hb
      · rename_i c d hc hd
        cases hb
        refine ⟨c ++ (a ++ d), ?_, ?_⟩
        · unfold effsOf; rw [hc]; unfold effsOf; rw [ha, hd]
        · rw [← List.append_assoc, ← List.append_assoc]; exact List.perm_append_comm.append_right d
      · cases hb
    · cases he
  | trans _ _ ih1 ih2 =>
    obtain ⟨fs, h1, h2⟩ := ih1 he
    obtain ⟨gs, h3, h4⟩ := ih2 h1
    exact ⟨gs, h3, h2.trans h4⟩

/-- Many statements. -/
theorem run_iff (a : Abs) (hg : a.Good) (hl : a.Live) (rs : List Stmt) (s' : Preds) :
    a.preds.run true rs = .ok s' ↔ ∃ es a', effsOf rs = some es ∧ a.effs es = some a' ∧ a'.Live ∧ s' = a'.preds := by
  induction rs generalizing a with
  | nil =>
    simp only [Preds.run, effsOf, Option.some.injEq]
    constructor
    · intro h; cases h; exact ⟨_, a, rfl, rfl, hl, rfl⟩
    · rintro ⟨_, _, rfl, h, _, rfl⟩; cases h; rfl
  | cons r rs ih =>
    constructor
    · intro h
      unfold Preds.run at h
      split at h
      · cases h
      · rename_i s1 h1
        obtain ⟨es, a1, he, ha, hl1, rfl⟩ := (and_iff a hg hl r _).1 h1
        obtain ⟨fs, a2, he2, ha2, hl2, h3⟩ := (ih a1 (Abs.effs_good hg (Stmt.effs_ok he) ha) hl1).1 h
        refine ⟨es ++ fs, a2, by unfold effsOf; rw [he, he2], ?_, hl2, h3⟩
        rw [Abs.effs_append, ha]; exact ha2
    · rintro ⟨es, a2, he, ha, hl2, h3⟩
      unfold effsOf at he
      split at he
      · rename_i c d hc hd
        cases he
        rw [Abs.effs_append] at ha
        cases hb : a.effs c with
        | none => rw [hb] at ha; cases ha
        | some b =>
          rw [hb] at ha
          have ha : b.effs d = some a2 := ha
          have hlb : b.Live := Abs.effs_live ha hl2
          unfold Preds.run
          rw [(and_iff a hg hl r b.preds).2 ⟨c, b, hc, hb, hlb, rfl⟩]
          exact (ih b (Abs.effs_good hg (Stmt.effs_ok hc) hb) hlb).2 ⟨d, a2, hd, ha, hl2, h3⟩
      · cases he

theorem default_good : Abs.default.Good := ⟨Space.isSpace_nil, by simp [Abs.default], by simp [Abs.default]⟩
theorem default_live : Abs.default.Live := by
  refine ⟨fun f => ⟨0, default_mem _ _⟩, ⟨0, ?_⟩, ?_⟩
  · exact (default_mem 64 0).1
  · rw [isValid_iff]; exact ⟨⟨0, default_mem _ _⟩, .inl ⟨0, default_mem _ _⟩⟩

end Verif.Pred
