import Verif.Lemmas.Place
import Verif.Model.Local
/-!
# The first point at one place, made before some time
-/
namespace Verif.Query
open Verif Verif.Pkt Verif.Tree Verif.Pred Verif.Env Verif.Spec Verif.Props

/-! ### the first of the entries -/

theorem branch_first {s : Preds} {r : StampRange} {n : BitVec 32} {v : Bytes} {more vs : List Bytes} {ex : Exit}
    (h : branch s r n v more = .ok (vs, ex)) : ∃ ex', branchFirst s r n v more = .ok (vs.head?, ex') ∧ (vs = [] → ex' = ex) := by
  induction more generalizing n v vs ex with
  | nil =>
    unfold branch at h
    unfold branchFirst
    split at h
    · cases h
    · rename_i h1; rw [h1]; cases h; exact ⟨_, rfl, fun _ => rfl⟩
    · rename_i h1
      rw [h1]
      simp only
      split at h
      · cases h
      · rename_i h2; rw [h2]; cases h; exact ⟨_, rfl, fun _ => rfl⟩
      · rename_i h2; rw [h2]; cases h; exact ⟨_, rfl, fun _ => rfl⟩
      · rename_i n' h2
        rw [h2]
        split at h
        · cases h
        · cases h; exact ⟨_, rfl, nofun⟩
  | cons v' m ih =>
    unfold branch at h
    unfold branchFirst
    split at h
    · cases h
    · rename_i h1
      rw [h1]
      simp only at h ⊢
      split at h
      · rename_i h2; rw [if_pos h2]; exact ih h
      · rename_i h2; rw [if_neg h2]; cases h; exact ⟨_, rfl, fun _ => rfl⟩
    · rename_i h1
      rw [h1]
      simp only
      split at h
      · cases h
      · rename_i h2; rw [h2]; cases h; exact ⟨_, rfl, fun _ => rfl⟩
      · rename_i n' h2
        rw [h2]
        simp only at h ⊢
        split at h
        · rename_i h3; rw [if_pos h3]; exact ih h
        · rename_i h3; rw [if_neg h3]; cases h; exact ⟨_, rfl, fun _ => rfl⟩
      · rename_i n' h2
        rw [h2]
        split at h
        · cases h
        · rename_i b hb
          have key : ∀ x : QRes (List Bytes × Exit), consOut v x = .ok (vs, ex) → ∃ l, vs = v :: l := by
            intro x hx
            cases x with
            | error e => cases hx
            | ok y => obtain ⟨l, z⟩ := y; cases hx; exact ⟨l, rfl⟩
          obtain ⟨l, rfl⟩ := key _ h
          exact ⟨_, rfl, nofun⟩

theorem scan_first (asc : Bool) (s : Preds) (q : TreeKeys) (lb : Bytes) (n : Nat) :
    (∀ c es, scan asc s q lb n c = .ok es → scanFirst asc s q lb n c = .ok es.head?) ∧
    (∀ c es, scan.scanScope asc s q lb n c = .ok es → scanFirst.scanScope asc s q lb n c = .ok es.head?) := by
  induction n with
  | zero =>
    constructor
    · intro c es h; cases h
    · intro c es h; cases h
  | succ n ih =>
    constructor
    · intro c es h
      unfold scan at h
      unfold scanFirst
      split at h
      · cases h
      · rename_i vs ex hb
        obtain ⟨ex', h1, h2⟩ := branch_first hb
        rw [h1]
        simp only at h
        cases vs with
        | cons v vs =>
          simp only [List.head?_cons]
          split at h
          · cases h
          · cases h; rfl
        | nil =>
          rw [h2 rfl]
          simp only [List.map_nil, List.nil_append, List.head?_nil] at h ⊢
          split at h
          · cases h
          · rename_i l hl
            cases h
            split at hl
            · cases hl
            · rename_i c' hn; rw [hn]; exact ih.1 _ _ hl
            · rename_i left hn
              rw [hn]
              simp only
              split at hl
              · cases hl; rfl
              · split at hl
                · cases hl
                · rename_i c'
                  split at hl
                  · rename_i hm; simp only [hm]; exact ih.2 _ _ hl
                  · rename_i v m hm
                    simp only [hm]
                    split at hl
                    · rename_i h3; rw [if_pos h3]; exact ih.1 _ _ hl
                    · rename_i h3; rw [if_neg h3]; exact ih.2 _ _ hl
    · intro c es h
      unfold scan.scanScope at h
      unfold scanFirst.scanScope
      split at h
      · cases h
      · rename_i c' hn; rw [hn]; exact ih.1 _ _ h
      · rename_i hn; rw [hn]; cases h; rfl

/-- The first call of the iterator gives the first of all entries. -/
theorem tree_first {t : Table} {asc : Bool} {s : Preds} {es : List TreeEntry} (h : treeEntries t asc s = .ok es) :
    treeFirst t asc s = .ok es.head? := by
  unfold treeEntries at h
  unfold treeFirst
  split at h
  · cases h
  · cases h
  · rename_i h1
    rw [h1]
    simp only
    split at h
    · cases h
    · rename_i q h2
      rw [h2]
      simp only
      split at h
      · cases h
      · rename_i lb h3
        rw [h3]
        simp only
        split at h
        · rename_i h4; rw [h4]; cases h; rfl
        · rename_i c h4
          rw [h4]
          simp only
          split at h
          · cases h
          · rename_i h5; rw [h5]; cases h; rfl
          · rename_i h5; rw [h5]; exact (scan_first asc s q lb _).1 _ _ h

/-- The set of branch positions has the first. -/
def HasFirst (s : Preds) : Prop := spentAt (s.state .branch) 0#32 = .ok false ∧ ∃ n, (s.state .branch).memberNext true 0#32 = .ok (some (true, n))

theorem branchFirst_state {s : Preds} {t : TestSet 32} (h1 : HasFirst s) (h2 : HasFirst (s.putState .branch t)) (r : StampRange) (v : Bytes)
    (more : List Bytes) : branchFirst (s.putState .branch t) r 0#32 v more = branchFirst s r 0#32 v more := by
  have he : ∀ v, entryOk (s.putState .branch t) v = entryOk s v := fun _ => rfl
  obtain ⟨-, n1, h1⟩ := h1
  obtain ⟨-, n2, h2⟩ := h2
  induction more generalizing v with
  | nil => unfold branchFirst; rw [he, h1, h2]
  | cons v' m ih => unfold branchFirst; rw [he, h1, h2]; simp only [ih]

theorem scanFirst_state {s : Preds} {t : TestSet 32} (h1 : HasFirst s) (h2 : HasFirst (s.putState .branch t)) (asc : Bool) (q : TreeKeys) (lb : Bytes)
    (n : Nat) : (∀ c, scanFirst asc (s.putState .branch t) q lb n c = scanFirst asc s q lb n c) ∧
      (∀ c, scanFirst.scanScope asc (s.putState .branch t) q lb n c = scanFirst.scanScope asc s q lb n c) := by
  induction n with
  | zero => exact ⟨fun _ => rfl, fun _ => rfl⟩
  | succ n ih =>
    have e1 : scanFirst asc (s.putState .branch t) q lb n = scanFirst asc s q lb n := funext ih.1
    have e2 : scanFirst.scanScope asc (s.putState .branch t) q lb n = scanFirst.scanScope asc s q lb n := funext ih.2
    constructor
    · intro c; unfold scanFirst; rw [branchFirst_state h1 h2, e1, e2]
    · intro c; unfold scanFirst.scanScope; rw [e1]

/-- Which further positions are in the set does not matter for the first entry. -/
theorem treeFirst_state {s : Preds} {t : TestSet 32} (h1 : HasFirst s) (h2 : HasFirst (s.putState .branch t)) (T : Table) (asc : Bool) :
    treeFirst T asc (s.putState .branch t) = treeFirst T asc s := by
  have hk : treeKeys (s.putState .branch t) asc = treeKeys s asc := rfl
  have e1 : ∀ q lb n, scanFirst asc (s.putState .branch t) q lb n = scanFirst asc s q lb n := fun q lb n => funext (scanFirst_state h1 h2 asc q lb n).1
  unfold treeFirst
  rw [h1.1, h2.1, hk]
  simp only [e1]

theorem default_hasFirst {s : Preds} (h : s.state .branch = TestSet.default 32) : HasFirst s := by
  unfold HasFirst; rw [h]; exact ⟨by decide, 1#32, by decide⟩
theorem zero_hasFirst (s : Preds) : HasFirst (s.putState .branch ((TestSet.default 32).add .equal 0#32)) := by
  unfold HasFirst
  have : (s.putState .branch ((TestSet.default 32).add .equal 0#32)).state .branch = (TestSet.default 32).add .equal 0#32 := rfl
  rw [this]
  exact ⟨by decide, 1#32, by decide⟩

/-! ### the predicates -/

/-- One group, one domain, one space, made before a time, and maybe one key. -/
def spotAbs (g d : Bytes) (pc : List Bytes) (k : Option Bytes) (now : Nat) : Abs :=
  let a := (Abs.addGt { (Abs.default.addSet .group .equal (num _ g)).addSet .domain .equal (num _ d) with pc := pc }).addSet
    .depth .equal (BitVec.ofNat _ pc.length)
  let a := a.addSet .create .less (BitVec.ofNat _ now)
  match k with
  | none => a
  | some k => a.addSet .pubkey .equal (num _ k)

section
variable {g d : Bytes} {pc : List Bytes} {k : Option Bytes} {now : Nat}

theorem spot_pc : (spotAbs g d pc k now).pc = pc := by
  unfold spotAbs Abs.addGt
  cases k <;> simp only [Abs.addSet] <;> split <;> rfl
theorem spot_state (q : QScope) : (spotAbs g d pc k now).state q = TestSet.default 32 := by
  unfold spotAbs Abs.addGt
  cases k <;> simp only [Abs.addSet] <;> split <;> rfl
theorem spot_recv : (spotAbs g d pc k now).recv = Bound.default 64 := by
  unfold spotAbs Abs.addGt
  cases k <;> simp only [Abs.addSet] <;> split <;> rfl

theorem addGt_other (a : Abs) {f : VF} (h : f ≠ .depth) : a.addGt.set f = a.set f := by
  unfold Abs.addGt
  split
  · rfl
  · exact Abs.addSet_other _ _ _ _ _ h

theorem spot_pubkey (v : BitVec 256) : ((spotAbs g d pc k now).set .pubkey).Mem v ↔ ∀ x, k = some x → v = num 256 x := by
  unfold spotAbs
  cases k with
  | none =>
    simp only
    rw [Abs.addSet_other _ _ _ _ _ (by decide), Abs.addSet_other _ _ _ _ _ (by decide), addGt_other _ (by decide)]
    exact iff_of_true (default_mem _ _) nofun
  | some x =>
    simp only
    rw [Abs.addSet_same, Abs.addSet_other _ _ _ _ _ (by decide), Abs.addSet_other _ _ _ _ _ (by decide), addGt_other _ (by decide)]
    refine (eq_mem (w := 256) (by decide) _ v).trans ⟨fun h y hy => by cases hy; exact h, fun h => h x rfl⟩
theorem spot_base {f : VF} (hp : f ≠ .pubkey) : (spotAbs g d pc k now).set f = (spotAbs g d pc none now).set f := by
  cases k with
  | none => rfl
  | some x => exact Abs.addSet_other _ _ _ _ _ hp
theorem spot_group (v : BitVec 256) : ((spotAbs g d pc k now).set .group).Mem v ↔ v = num 256 g := by
  rw [spot_base (by decide)]
  unfold spotAbs
  simp only
  rw [Abs.addSet_other _ _ _ _ _ (by decide), Abs.addSet_other _ _ _ _ _ (by decide), addGt_other _ (by decide)]
  exact eq_mem (w := 256) (by decide) _ v
theorem spot_domain (v : BitVec 128) : ((spotAbs g d pc k now).set .domain).Mem v ↔ v = num 128 d := by
  rw [spot_base (by decide)]
  unfold spotAbs
  simp only
  rw [Abs.addSet_other _ _ _ _ _ (by decide), Abs.addSet_other _ _ _ _ _ (by decide), addGt_other _ (by decide)]
  exact eq_mem (w := 128) (by decide) _ v
theorem spot_depth (h8 : pc.length ≤ 8) (v : BitVec 8) : ((spotAbs g d pc k now).set .depth).Mem v ↔ v = BitVec.ofNat 8 pc.length := by
  rw [spot_base (by decide)]
  unfold spotAbs
  simp only
  rw [Abs.addSet_other _ _ _ _ _ (by decide), Abs.addSet_same]
  refine (add_mem (w := 8) (by decide) _ _ _ v).trans ?_
  unfold Abs.addGt
  split
  · exact ⟨fun h => BitVec.eq_of_toNat_eq h.2, fun h => ⟨default_mem _ _, by rw [h]; rfl⟩⟩
  · rename_i h0
    rw [Abs.addSet_same]
    refine (and_congr_left' (add_mem (w := 8) (by decide) _ _ _ v)).trans ?_
    refine ⟨fun h => BitVec.eq_of_toNat_eq h.2, fun h => ⟨⟨default_mem _ _, ?_⟩, by rw [h]; rfl⟩⟩
    show (BitVec.ofNat 8 (pc.length - 1)).toNat < v.toNat
    rw [h, BitVec.toNat_ofNat, BitVec.toNat_ofNat]
    have h0 : pc.length ≠ 0 := h0
    omega
theorem spot_create (h : now < 2 ^ 64) (v : BitVec 64) : ((spotAbs g d pc k now).set .create).Mem v ↔ v.toNat < now := by
  rw [spot_base (by decide)]
  unfold spotAbs
  simp only
  rw [Abs.addSet_same, Abs.addSet_other _ _ _ _ _ (by decide), addGt_other _ (by decide)]
  refine (add_mem (w := 64) (by decide) _ _ _ v).trans ?_
  show _ ∧ v.toNat < (BitVec.ofNat 64 now).toNat ↔ _
  rw [BitVec.toNat_ofNat, Nat.mod_eq_of_lt h]
  exact and_iff_right (default_mem _ _)
theorem spot_other {f : VF} (h1 : f ≠ .pubkey) (h2 : f ≠ .group) (h3 : f ≠ .domain) (h4 : f ≠ .depth) (h5 : f ≠ .create) :
    (spotAbs g d pc k now).set f = TestSet.default f.width := by
  rw [spot_base h1]
  unfold spotAbs
  simp only
  rw [Abs.addSet_other _ _ _ _ _ h5, Abs.addSet_other _ _ _ _ _ h4, addGt_other _ h4]
  show ((Abs.default.addSet .group .equal (num _ g)).addSet .domain .equal (num _ d)).set f = _
  rw [Abs.addSet_other _ _ _ _ _ h3, Abs.addSet_other _ _ _ _ _ h2]
  rfl

theorem spot_walks (h1 : 1 < now) (h : now < 2 ^ 64) : Walks false (stampRange ((spotAbs g d pc k now).set .create).bound false) := by
  rw [spot_base (by decide)]
  unfold spotAbs
  simp only
  rw [Abs.addSet_same, Abs.addSet_other _ _ _ _ _ (by decide), addGt_other _ (by decide)]
  show (((TestSet.default 64).add .less (BitVec.ofNat 64 now)).bound.low).toNat < (((TestSet.default 64).add .less (BitVec.ofNat 64 now)).bound.high).toNat
  have hv : (BitVec.ofNat 64 now).toNat = now := by rw [BitVec.toNat_ofNat, Nat.mod_eq_of_lt h]
  cases hd : decr (BitVec.ofNat 64 now) with
  | none => have := decr_none hd; omega
  | some x =>
    have := decr_some hd
    simp only [TestSet.add, Bound.add, hd]
    rw [bmin_toNat]
    show (minV 64).toNat < min (maxV 64).toNat x.toNat
    have h1 : (maxV 64).toNat = 2 ^ 64 - 1 := by decide
    have h2 : (minV 64).toNat = 0 := by decide
    omega

theorem spot_live (h8 : pc.length ≤ 8) (h0 : 0 < now) (hn : now < 2 ^ 64) : (spotAbs g d pc k now).Live := by
  refine ⟨fun f => ?_, ⟨0, ?_⟩, ?_⟩
  · by_cases h1 : f = .pubkey
    · subst h1
      cases k with
      | none => exact ⟨0, (spot_pubkey _).2 nofun⟩
      | some x => exact ⟨_, (spot_pubkey _).2 fun y hy => by cases hy; rfl⟩
    by_cases h2 : f = .group
    · subst h2; exact ⟨_, (spot_group _).2 rfl⟩
    by_cases h3 : f = .domain
    · subst h3; exact ⟨_, (spot_domain _).2 rfl⟩
    by_cases h4 : f = .depth
    · subst h4; exact ⟨_, (spot_depth h8 _).2 rfl⟩
    by_cases h5 : f = .create
    · subst h5; exact ⟨0#64, (spot_create hn _).2 (by simpa using h0)⟩
    rw [spot_other h1 h2 h3 h4 h5]
    exact ⟨0, default_mem _ _⟩
  · rw [spot_recv]; exact (default_mem 64 0).1
  · rw [isValid_iff]
    have : ∀ q, (spotAbs g d pc k now).preds.state q = TestSet.default 32 := spot_state
    rw [this, this, this, this]
    exact ⟨⟨0, default_mem _ _⟩, .inl ⟨0, default_mem _ _⟩⟩

theorem spot_inSet (s : QScope) (i : Nat) : InSet ((spotAbs g d pc k now).state s) i := by
  rw [spot_state]; exact default_mem 32 _

/-- Nothing is left to test in the packet. -/
theorem spot_rest : restTests (spotAbs g d pc k now).preds treeChecked = [] := by
  have hd : ∀ f, f ≠ .pubkey → f ≠ .group → f ≠ .domain → f ≠ .depth → f ≠ .create → (spotAbs g d pc k now).preds.fieldTest f = [] := by
    intro f h1 h2 h3 h4 h5
    unfold Preds.fieldTest
    have : (spotAbs g d pc k now).preds.set f = TestSet.default f.width := spot_other h1 h2 h3 h4 h5
    rw [this]
    have : compileTest (TestSet.default f.width) = none := by
      unfold compileTest
      rw [if_pos rfl]
    rw [this]
  unfold restTests
  have : VF.order.filter (fun f => !treeChecked f) = [.type, .netflags, .hop, .stamp, .ubits 0, .ubits 1, .ubits 2, .ubits 3, .size] := by decide
  rw [this]
  simp only [List.flatMap_cons, List.flatMap_nil]
  simp only [hd _ (by decide : VF.type ≠ _) (by decide) (by decide) (by decide) (by decide), hd _ (by decide : VF.netflags ≠ _) (by decide) (by decide) (by decide) (by decide),
    hd _ (by decide : VF.hop ≠ _) (by decide) (by decide) (by decide) (by decide), hd _ (by decide : VF.stamp ≠ _) (by decide) (by decide) (by decide) (by decide),
    hd _ (by decide : VF.ubits 0 ≠ _) (by decide) (by decide) (by decide) (by decide), hd _ (by decide : VF.ubits 1 ≠ _) (by decide) (by decide) (by decide) (by decide),
    hd _ (by decide : VF.ubits 2 ≠ _) (by decide) (by decide) (by decide) (by decide), hd _ (by decide : VF.ubits 3 ≠ _) (by decide) (by decide) (by decide) (by decide),
    hd _ (by decide : VF.size ≠ _) (by decide) (by decide) (by decide) (by decide), List.append_nil]

/-- A point at this place made before the time. -/
def AtSpot (g d : Bytes) (cs : List Bytes) (k : Option Bytes) (now : Nat) (p : NetParts) : Prop :=
  ∃ t, HasTuple p t ∧ t.group = g ∧ t.domain = d ∧ t.space = cs ∧ (∀ x, k = some x → t.pubkey = x) ∧ t.create < now

theorem spot_test (hg : g.length = 32) (hd : d.length = 16) (hk : ∀ x, k = some x → x.length = 32) (hsp : IsSpace (encodeSpace pc) pc) (h8 : pc.length ≤ 8)
    (h0 : 0 < now) (hn : now < 2 ^ 64) {p : NetParts} {t : TreeTuple} (ht : HasTuple p t) :
    (spotAbs g d pc k now).preds.test p = true ↔ AtSpot g d pc k now p := by
  obtain ⟨x, hx, x1, x2, x3, x4, x5, x6, x7⟩ := tuple_shows ht
  obtain ⟨l1, l2, l3, l4⟩ := tuple_lengths ht
  have l5 : t.create < 2 ^ 64 := by
    obtain ⟨c, hw, a1, a2, a3, a4, hkk⟩ := ht
    rw [a3]
    rcases hkk with ⟨hp, -⟩ | ⟨sig, hp⟩
    · exact hp.valid.2.stamp
    · exact hp.valid.2.1.stamp
  rw [test_iff' _ (spot_live h8 h0 hn)]
  have vg : VF.val .group p = num 256 t.group := by
    show BitVec.ofNat _ (VF.get .group p) = _
    rw [get_shown hx, x1]; rfl
  have vd : VF.val .domain p = num 128 t.domain := by
    show BitVec.ofNat _ (VF.get .domain p) = _
    rw [get_shown hx, x2]; rfl
  have vk : VF.val .pubkey p = num 256 t.pubkey := by
    show BitVec.ofNat _ (VF.get .pubkey p) = _
    rw [get_shown hx, x3]; rfl
  have vn : VF.val .depth p = BitVec.ofNat 8 t.space.length := by
    show BitVec.ofNat _ (VF.get .depth p) = _
    rw [get_shown hx, x4]; rfl
  have vc : VF.val .create p = BitVec.ofNat 64 t.create := by
    show BitVec.ofNat _ (VF.get .create p) = _
    rw [get_shown hx, x5]; rfl
  have hpre : ((spotAbs g d pc k now).pc = [] ∨ prefixTest (encodeSpace (spotAbs g d pc k now).pc) p = true) ↔ pc <+: t.space := by
    rw [spot_pc, prefix_shown hx hsp, x7]
    constructor
    · rintro (h | ⟨xs, h, h'⟩)
      · rw [h]; exact List.nil_prefix
      · cases h; exact h'
    · exact fun h => .inr ⟨_, rfl, h⟩
  rw [hpre]
  constructor
  · rintro ⟨h1, h2⟩
    have e1 := (spot_group _).1 (h1 .group)
    have e2 := (spot_domain _).1 (h1 .domain)
    have e3 := (spot_pubkey _).1 (h1 .pubkey)
    have e4 := (spot_depth h8 _).1 (h1 .depth)
    have e5 := (spot_create hn _).1 (h1 .create)
    rw [vg] at e1; rw [vd] at e2; rw [vk] at e3; rw [vn] at e4; rw [vc, BitVec.toNat_ofNat, Nat.mod_eq_of_lt l5] at e5
    have e4 := congrArg BitVec.toNat e4
    rw [BitVec.toNat_ofNat, BitVec.toNat_ofNat] at e4
    refine ⟨t, ht, num_inj (by omega) (by omega) e1, num_inj (by omega) (by omega) e2, prefix_same h2 (by omega), fun y hy => ?_, e5⟩
    have := hk y hy
    exact num_inj (by omega) (by omega) (e3 y hy)
  · rintro ⟨u, hu, rfl, rfl, rfl, hku, hcu⟩
    obtain ⟨y, hy, y1, y2, y3, y4, y5, y6, y7⟩ := tuple_shows hu
    have key : ∀ f, x.num f = y.num f := fun f => by rw [← get_shown hx, get_shown hy]
    have hs : t.space = u.space := by
      have := prefix_shown hx hsp
      rw [prefix_shown hy hsp, x7, y7] at this
      obtain ⟨xs, h, h'⟩ := this.1 ⟨_, rfl, List.prefix_refl _⟩
      cases h
      refine prefix_same h' ?_
      rw [← x4, ← y4, key]; omega
    have hcr : t.create = u.create := by rw [← x5, ← y5, key]
    refine ⟨fun f => ?_, by rw [hs]; exact List.prefix_refl _⟩
    by_cases h1 : f = .pubkey
    · subst h1; refine (spot_pubkey _).2 fun z hz => ?_
      rw [← hku z hz]
      show BitVec.ofNat _ (VF.get .pubkey p) = _
      rw [get_shown hx, key, y3]; rfl
    by_cases h2 : f = .group
    · subst h2; refine (spot_group _).2 ?_
      show BitVec.ofNat _ (VF.get .group p) = _
      rw [get_shown hx, key, y1]; rfl
    by_cases h3 : f = .domain
    · subst h3; refine (spot_domain _).2 ?_
      show BitVec.ofNat _ (VF.get .domain p) = _
      rw [get_shown hx, key, y2]; rfl
    by_cases h4 : f = .depth
    · subst h4; refine (spot_depth h8 _).2 ?_
      show BitVec.ofNat _ (VF.get .depth p) = _
      rw [get_shown hx, key, y4]; rfl
    by_cases h5 : f = .create
    · subst h5; refine (spot_create hn _).2 ?_
      rw [vc, BitVec.toNat_ofNat, Nat.mod_eq_of_lt l5, hcr]; exact hcu
    rw [spot_other h1 h2 h3 h4 h5]
    exact default_mem _ _

/-- The first point at this place, made before the time. -/
theorem spot_first (hg : g.length = 32) (hd : d.length = 16) (hk : ∀ x, k = some x → x.length = 32) (hsp : IsSpace (encodeSpace pc) pc) (h8 : pc.length ≤ 8)
    (h1n : 1 < now) (hnow : now < 2 ^ 64) {db : Db} (hc : Consistent db) (hw : AllProper db)
    (hff : (∀ x, k = some x → x = List.replicate 32 255) ∨ ∀ i p t, (i, p) ∈ db.log → HasTuple p t → t.pubkey ≠ List.replicate 32 255) :
    ∃ r, queryFirst db false (spotAbs g d pc k now).preds = .ok r ∧
      FirstOf db (fun e => AtSpot g d pc k now e.2) (fun e f => TreeBefore false e.2 f.2) r := by
  have hlive : (spotAbs g d pc k now).Live := spot_live h8 (by omega) hnow
  obtain ⟨q, hq, hql, e1, e2, e3, e4, e5, e6⟩ := treeKeys_spec (spotAbs g d pc k now) hlive false
  have mn : ∀ i, BitSet.has q.depth i = true ↔ i = pc.length := by
    intro i
    rw [e6, spot_depth h8]
    constructor
    · rintro ⟨h1, h2⟩
      have := congrArg BitVec.toNat h2
      rw [BitVec.toNat_ofNat, BitVec.toNat_ofNat] at this
      omega
    · rintro rfl; exact ⟨h8, rfl⟩
  obtain ⟨g0, d0, n0, k0, hle, hlb⟩ := lowerBound_spec hql ⟨pc.length, (mn _).2 rfl⟩
  have hT := tbl_of hc hw false
  rw [spot_pc] at e4
  have hmv : Moves q (be g0 ++ be d0 ++ [UInt8.ofNat n0] ++ (spaceOf q.rspace ++ be k0))
      (From db.tree (be g0 ++ be d0 ++ [UInt8.ofNat n0] ++ (spaceOf q.rspace ++ be k0))) := by
    refine moves_of hql hsp e4 (by rintro x ⟨⟨vs, hv⟩, -⟩; exact hT.keys _ hv) (hff.imp (fun h1 => ?_) (fun h1 => ?_))
    · rw [e3]; exact (spot_pubkey _).2 fun x hx => by rw [h1 x hx]
    · rintro x t ⟨⟨vs, hv⟩, -⟩ hxt
      obtain ⟨h2, -⟩ := hc.dupSorted x vs hv
      obtain ⟨v, hv'⟩ := List.exists_mem_of_ne_nil _ h2
      obtain ⟨i, p, hp, hpe⟩ := (hc.treeLog x v).1 ⟨vs, hv, hv'⟩
      obtain ⟨u, hu⟩ := proper_entry (hw i p hp) hpe
      have hk' : KeyOf x u := keyOf_pkt hu hpe
      have := h1 i p u hp hu
      rwa [← hk'.keyPubkey, hxt.keyPubkey] at this
  obtain ⟨es, hes⟩ := treeEntries_total (spotAbs g d pc k now) hlive (spot_inSet _ _) hT hq hlb hmv
  have og : ∀ v, q.group.Mem v → v = g0 := by
    intro v hv
    have h0 := hle.group.1
    rw [e2] at h0 hv
    exact ((spot_group v).1 hv).trans ((spot_group g0).1 h0).symm
  have od : ∀ v, q.domain.Mem v → v = d0 := by
    intro v hv
    have h0 := hle.domain.1
    rw [e1] at h0 hv
    exact ((spot_domain v).1 hv).trans ((spot_domain d0).1 h0).symm
  have n0e : n0 = pc.length := (mn n0).1 hle.depth.1
  have on : ∀ i, BitSet.has q.depth i = true → i = n0 := fun i hi => by rw [n0e]; exact (mn i).1 hi
  have hK : ∀ x, From db.tree (be g0 ++ be d0 ++ [UInt8.ofNat n0] ++ (spaceOf q.rspace ++ be k0)) x → ∃ t, KeyOf x t := by
    rintro x ⟨⟨vs, hv⟩, -⟩; exact hT.keys _ hv
  have hok : pc.length = n0 ∨ k0.toNat < 2 ^ 248 := .inl (by omega)
  have hgood : (spotAbs g d pc k now).Good := by
    refine ⟨by rw [spot_pc]; exact hsp, by rw [spot_pc]; exact h8, ?_⟩
    rw [spot_pc, spot_base (by decide)]
    unfold spotAbs
    simp only
    rw [Abs.addSet_other _ _ _ _ _ (by decide), Abs.addSet_same]
    generalize Abs.set _ VF.depth = T
    refine (?_ : pc.length ≤ (bmax (w := 8) T.bound.low (BitVec.ofNat 8 pc.length)).toNat)
    refine Nat.le_trans ?_ (Nat.le_of_eq (bmax_toNat (w := 8) T.bound.low (BitVec.ofNat 8 pc.length)).symm)
    rw [BitVec.toNat_ofNat]
    omega
  obtain ⟨q', hq', hf⟩ := treeEntries_spec (spotAbs g d pc k now) hlive (spot_inSet _ _) hT hes (strict := True) (by
    intro q' lb' hq' hlb' _
    rw [hq] at hq'; cases hq'
    rw [hlb] at hlb'
    have : be g0 ++ be d0 ++ [UInt8.ofNat n0] ++ (spaceOf q.rspace ++ be k0) = lb' := by injection hlb'
    rw [← this]
    refine ⟨fun e he hlt => ?_, safe_of hql hsp e4 hle hok hK ?_ ?_, ?_⟩
    · obtain ⟨t, ht⟩ := hT.keys e he
      exact lb_below hsp e4 hle hok ht hlt
    · intro x t kk hkt x1 x2 hno i hyes
      obtain ⟨y1, -⟩ := from_low hle og od hkt x1 x2 kk.2
      have := on i hyes
      rcases Nat.lt_or_ge n0 t.space.length with h1 | h1
      · omega
      · have : t.space.length = i := by omega
        rw [← this, hno] at hyes; cases hyes
    · intro x x' t t' kk kk' hkt hkt' x1 x2 hlt sg sd x4 hp
      exact one_depth hsp e4 hle og od on hkt hkt' x1 x2 kk.2 hlt sg sd x4 hp
    · rw [e5]; exact spot_walks h1n hnow)
  obtain ⟨ps, h1, h2, h3, h4⟩ := found_packets_of hlive hgood hc hw (M := fun e => AtSpot g d pc k now e.2) (by
    rintro e he ⟨t, ht⟩
    rw [spot_test hg hd hk hsp h8 (by omega) hnow ht]
    refine and_iff_left ?_
    rw [spot_recv]; exact (default_mem 64 _).1) hq' hf
  have hid : ps.filter (fun e => (restTests (spotAbs g d pc k now).preds treeChecked).all (fun t => t e.2)) = ps := by
    rw [spot_rest]; simp
  rw [hid] at h2 h3 h4
  have hfirst := tree_first hes
  have hq1 : queryFirst db false (spotAbs g d pc k now).preds = .ok ps.head? := by
    unfold queryFirst
    rw [hfirst]
    cases es with
    | nil => cases h1; rfl
    | cons e es =>
      simp only [List.head?_cons]
      simp only [List.map_cons, readAll] at h1
      split at h1
      · cases h1
      · cases h1
      · rename_i p l hp hl
        cases h1
        rw [hp]; rfl
  refine ⟨_, hq1, ?_⟩
  cases ps with
  | nil =>
    rintro e he ⟨t, ht⟩
    exact absurd (h4 trivial (spot_inSet _) e he ⟨t, ht⟩ ⟨t, ht.1⟩) (by simp)
  | cons x xs =>
    obtain ⟨p1, p2, -⟩ := h3 x List.mem_cons_self
    refine ⟨p1, p2, ?_⟩
    rintro f hf ⟨t, ht⟩
    rcases List.mem_cons.1 (h4 trivial (spot_inSet _) f hf ⟨t, ht⟩ ⟨t, ht.1⟩) with h | h
    · exact .inl h
    · exact .inr ((List.pairwise_cons.1 h2).1 f h)

end
end Verif.Query
