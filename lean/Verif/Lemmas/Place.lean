import Verif.Lemmas.Tree9
import Verif.Props.Api
/-!
# The newest point of one key at one place
-/
namespace Verif.Query
open Verif Verif.Pkt Verif.Tree Verif.Pred Verif.Env Verif.Spec Verif.Props

/-- One group, one domain, one depth, one key, and a prefix. -/
def placeAbs (g d : Bytes) (pc : List Bytes) (n : Nat) (k : Bytes) : Abs :=
  { (((Abs.default.addSet .domain .equal (num _ d)).addSet .group .equal (num _ g)).addSet .depth .equal (BitVec.ofNat _ n)).addSet
      .pubkey .equal (num _ k) with pc := pc }

section
variable {g d : Bytes} {pc : List Bytes} {n : Nat} {k : Bytes}

theorem eq_mem {w : Nat} (h0 : 0 < w) (r v : BitVec w) : ((TestSet.default w).add .equal r).Mem v ↔ v = r := by
  rw [add_mem h0]
  exact ⟨fun h => BitVec.eq_of_toNat_eq h.2, fun h => ⟨default_mem _ _, by rw [h]; rfl⟩⟩
theorem place_pubkey (v : BitVec 256) : ((placeAbs g d pc n k).set .pubkey).Mem v ↔ v = num 256 k := eq_mem (w := 256) (by decide) _ v
theorem place_group (v : BitVec 256) : ((placeAbs g d pc n k).set .group).Mem v ↔ v = num 256 g := eq_mem (w := 256) (by decide) _ v
theorem place_domain (v : BitVec 128) : ((placeAbs g d pc n k).set .domain).Mem v ↔ v = num 128 d := eq_mem (w := 128) (by decide) _ v
theorem place_depth (v : BitVec 8) : ((placeAbs g d pc n k).set .depth).Mem v ↔ v = BitVec.ofNat 8 n := eq_mem (w := 8) (by decide) _ v
theorem place_other {f : VF} (h1 : f ≠ .pubkey) (h2 : f ≠ .group) (h3 : f ≠ .domain) (h4 : f ≠ .depth) :
    (placeAbs g d pc n k).set f = TestSet.default f.width := by
  simp [placeAbs, Abs.addSet, h1, h2, h3, h4, Abs.default]

theorem place_live : (placeAbs g d pc n k).Live := by
  refine ⟨fun f => ?_, ⟨0, (default_mem 64 0).1⟩, ?_⟩
  · by_cases h1 : f = .pubkey
    · subst h1; exact ⟨_, (place_pubkey _).2 rfl⟩
    by_cases h2 : f = .group
    · subst h2; exact ⟨_, (place_group _).2 rfl⟩
    by_cases h3 : f = .domain
    · subst h3; exact ⟨_, (place_domain _).2 rfl⟩
    by_cases h4 : f = .depth
    · subst h4; exact ⟨_, (place_depth _).2 rfl⟩
    rw [place_other h1 h2 h3 h4]
    exact ⟨0, default_mem _ _⟩
  · rw [isValid_iff]; exact ⟨⟨0, default_mem _ _⟩, .inl ⟨0, default_mem _ _⟩⟩

theorem place_inSet (s : QScope) (i : Nat) : InSet ((placeAbs g d pc n k).state s) i := default_mem 32 _

/-- A point at this place. -/
def AtPlace (g d : Bytes) (cs : List Bytes) (k : Bytes) (p : NetParts) : Prop :=
  ∃ t, HasTuple p t ∧ t.group = g ∧ t.domain = d ∧ t.space = cs ∧ t.pubkey = k

theorem tuple_lengths {p : NetParts} {t : TreeTuple} (h : HasTuple p t) :
    t.group.length = 32 ∧ t.domain.length = 16 ∧ t.pubkey.length = 32 ∧ t.space.length ≤ 8 := by
  obtain ⟨e, he, -⟩ := tree_entry_fields h 0 (by decide)
  have := keyOf_pkt h he
  exact ⟨this.group, this.domain, this.pubkey, this.depth⟩

theorem num_inj {w : Nat} {a b : Bytes} (hl : a.length = b.length) (hw : 8 * a.length ≤ w) (h : num w a = num w b) : a = b := by
  refine beNat_inj hl ?_
  rw [← num_toNat hw, ← num_toNat (by rw [← hl]; exact hw), h]

theorem prefix_same {a b : List Bytes} (h : a <+: b) (hl : b.length ≤ a.length) : b = a := (h.eq_of_length_le hl).symm

/-- What the query asks of a point. -/
theorem place_test (hg : g.length = 32) (hd : d.length = 16) (hk : k.length = 32) (hsp : IsSpace (encodeSpace pc) pc) (h8 : pc.length ≤ 8)
    (hn : n = pc.length) {p : NetParts} {t : TreeTuple} (ht : HasTuple p t) :
    (placeAbs g d pc n k).preds.test p = true ↔ AtPlace g d pc k p := by
  obtain ⟨x, hx, x1, x2, x3, x4, x5, x6, x7⟩ := tuple_shows ht
  obtain ⟨l1, l2, l3, l4⟩ := tuple_lengths ht
  rw [test_iff' _ place_live]
  have vg : VF.val .group p = num 256 t.group := by
    show BitVec.ofNat _ (VF.get .group p) = _
    rw [get_shown hx, x1]; rfl
  have vd : VF.val .domain p = num 128 t.domain := by
    show BitVec.ofNat _ (VF.get .domain p) = _
    rw [get_shown hx, x2]; rfl
  have vk : VF.val .pubkey p = num 256 t.pubkey := by
    show BitVec.ofNat _ (VF.get .pubkey p) = _
    rw [get_shown hx, x3]; rfl
  have vn : VF.val .depth p = BitVec.ofNat 8 t.space.length := by
    show BitVec.ofNat _ (VF.get .depth p) = _
    rw [get_shown hx, x4]; rfl
  have hpre : ((placeAbs g d pc n k).pc = [] ∨ prefixTest (encodeSpace (placeAbs g d pc n k).pc) p = true) ↔ pc <+: t.space := by
    show (pc = [] ∨ prefixTest (encodeSpace pc) p = true) ↔ _
    rw [prefix_shown hx hsp, x7]
    constructor
    · rintro (h | ⟨xs, h, h'⟩)
      · rw [h]; exact List.nil_prefix
      · cases h; exact h'
    · exact fun h => .inr ⟨_, rfl, h⟩
  rw [hpre]
  constructor
  · rintro ⟨h1, h2⟩
    have e1 := (place_group _).1 (h1 .group)
    have e2 := (place_domain _).1 (h1 .domain)
    have e3 := (place_pubkey _).1 (h1 .pubkey)
    have e4 := (place_depth _).1 (h1 .depth)
    rw [vg] at e1; rw [vd] at e2; rw [vk] at e3; rw [vn] at e4
    have e4 := congrArg BitVec.toNat e4
    rw [BitVec.toNat_ofNat, BitVec.toNat_ofNat] at e4
    refine ⟨t, ht, num_inj (by omega) (by omega) e1, num_inj (by omega) (by omega) e2, ?_, num_inj (by omega) (by omega) e3⟩
    exact prefix_same h2 (by omega)
  · rintro ⟨u, hu, rfl, rfl, rfl, rfl⟩
    obtain ⟨y, hy, y1, y2, y3, y4, y5, y6, y7⟩ := tuple_shows hu
    have key : ∀ f, x.num f = y.num f := fun f => by rw [← get_shown hx, get_shown hy]
    have hs : t.space = u.space := by
      have := prefix_shown hx hsp
      rw [prefix_shown hy hsp, x7, y7] at this
      obtain ⟨xs, h, h'⟩ := this.1 ⟨_, rfl, List.prefix_refl _⟩
      cases h
      refine prefix_same h' ?_
      rw [← x4, ← y4, key]; omega
    refine ⟨fun f => ?_, by rw [hs]; exact List.prefix_refl _⟩
    by_cases h1 : f = .pubkey
    · subst h1; refine (place_pubkey _).2 ?_
      show BitVec.ofNat _ (VF.get .pubkey p) = _
      rw [get_shown hx, key, y3]; rfl
    by_cases h2 : f = .group
    · subst h2; refine (place_group _).2 ?_
      show BitVec.ofNat _ (VF.get .group p) = _
      rw [get_shown hx, key, y1]; rfl
    by_cases h3 : f = .domain
    · subst h3; refine (place_domain _).2 ?_
      show BitVec.ofNat _ (VF.get .domain p) = _
      rw [get_shown hx, key, y2]; rfl
    by_cases h4 : f = .depth
    · subst h4; refine (place_depth _).2 ?_
      show BitVec.ofNat _ (VF.get .depth p) = _
      rw [get_shown hx, key, y4, hn]; rfl
    rw [place_other h1 h2 h3 h4]
    exact default_mem _ _

/-- The search through the tree ends. -/
theorem place_total (hn : n ≤ 8) (hk : k.length = 32) (hsp : IsSpace (encodeSpace pc) pc) {db : Db} (hc : Consistent db) (hw : AllProper db)
    (hff : k = List.replicate 32 255 ∨ ∀ i p t, (i, p) ∈ db.log → HasTuple p t → t.pubkey ≠ List.replicate 32 255) (asc : Bool) :
    ∃ q g0 d0 n0 k0 es, treeKeys (placeAbs g d pc n k).preds asc = .ok q ∧ q.Live ∧ q.domain = (placeAbs g d pc n k).set .domain ∧
      q.group = (placeAbs g d pc n k).set .group ∧ q.pubkey = (placeAbs g d pc n k).set .pubkey ∧ spaceOf q.rspace = encodeSpace pc ∧
      q.cstamp = stampRange ((placeAbs g d pc n k).set .create).bound asc ∧ (∀ i, BitSet.has q.depth i = true ↔ i = n) ∧ Least q g0 d0 n0 k0 ∧
      q.lowerBound = .ok (be g0 ++ be d0 ++ [UInt8.ofNat n0] ++ (spaceOf q.rspace ++ be k0)) ∧
      treeEntries db.tree asc (placeAbs g d pc n k).preds = .ok es := by
  obtain ⟨q, hq, hql, e1, e2, e3, e4, e5, e6⟩ := treeKeys_spec (placeAbs g d pc n k) place_live asc
  have mn : ∀ i, BitSet.has q.depth i = true ↔ i = n := by
    intro i
    rw [e6, place_depth]
    constructor
    · rintro ⟨h1, h2⟩
      have := congrArg BitVec.toNat h2
      rw [BitVec.toNat_ofNat, BitVec.toNat_ofNat] at this
      omega
    · rintro rfl; exact ⟨hn, rfl⟩
  obtain ⟨g0, d0, n0, k0, hle, hlb⟩ := lowerBound_spec hql ⟨n, (mn n).2 rfl⟩
  have hT := tbl_of hc hw asc
  have hmv : Moves q (be g0 ++ be d0 ++ [UInt8.ofNat n0] ++ (spaceOf q.rspace ++ be k0))
      (From db.tree (be g0 ++ be d0 ++ [UInt8.ofNat n0] ++ (spaceOf q.rspace ++ be k0))) := by
    refine moves_of hql hsp e4 (by rintro x ⟨⟨vs, hv⟩, -⟩; exact hT.keys _ hv) (hff.imp (fun h1 => ?_) (fun h1 => ?_))
    · rw [e3]; exact (place_pubkey _).2 (by rw [h1])
    · rintro x t ⟨⟨vs, hv⟩, -⟩ hxt
      obtain ⟨h2, -⟩ := hc.dupSorted x vs hv
      obtain ⟨v, hv'⟩ := List.exists_mem_of_ne_nil _ h2
      obtain ⟨i, p, hp, hpe⟩ := (hc.treeLog x v).1 ⟨vs, hv, hv'⟩
      obtain ⟨u, hu⟩ := proper_entry (hw i p hp) hpe
      have hk' : KeyOf x u := keyOf_pkt hu hpe
      have := h1 i p u hp hu
      rwa [← hk'.keyPubkey, hxt.keyPubkey] at this
  obtain ⟨es, hes⟩ := treeEntries_total (placeAbs g d pc n k) place_live (place_inSet _ _) hT hq hlb hmv
  exact ⟨q, g0, d0, n0, k0, es, hq, hql, e1, e2, e3, e4, e5, mn, hle, hlb, hes⟩

theorem place_select {sel : List (Nat × NetParts)} (s : QScope) : ∃ m, select ((placeAbs g d pc n k).preds.state s) 0#32 sel = .ok (sel, m) := by
  obtain ⟨out, m, h1, h2⟩ := select_picks ((placeAbs g d pc n k).state s) (mask_hasAny_of_test (default_mem 32 0).2) 0#32 sel
  have := picks_all (fun i => place_inSet (g := g) (d := d) (pc := pc) (n := n) (k := k) s i) h2
  subst this
  exact ⟨m, h1⟩

theorem place_query {es : List TreeEntry} {ps sel : List (Nat × NetParts)} {db : Db} {asc : Bool}
    (hes : treeEntries db.tree asc (placeAbs g d pc n k).preds = .ok es)
    (h1 : readAll db (es.map (fun e => (TreeValue.ofBytes e.val).logptr)) = .ok ps)
    (h2 : sel = ps.filter (fun e => (restTests (placeAbs g d pc n k).preds treeChecked).all (fun t => t e.2))) :
    getFirst db ⟨.tree, asc⟩ (placeAbs g d pc n k).preds = .ok sel.head? := by
  obtain ⟨m1, e1⟩ := place_select (g := g) (d := d) (pc := pc) (n := n) (k := k) (sel := sel) .index
  obtain ⟨m2, e2⟩ := place_select (g := g) (d := d) (pc := pc) (n := n) (k := k) (sel := sel) .query
  have hq : query db ⟨.tree, asc⟩ (placeAbs g d pc n k).preds 0#32 = .ok (sel, m2) := by
    unfold query candidates queryTree
    simp only
    rw [hes]
    simp only
    rw [h1]
    simp only
    rw [← h2, e1]
    exact e2
  unfold getFirst getAll
  rw [hq]

/-- The newest point at this place, if the depth asked for is that of the space. -/
theorem place_first (hg : g.length = 32) (hd : d.length = 16) (hk : k.length = 32) (hsp : IsSpace (encodeSpace pc) pc) (h8 : pc.length ≤ 8)
    (hn : n = pc.length) {db : Db} (hc : Consistent db) (hw : AllProper db)
    (hff : k = List.replicate 32 255 ∨ ∀ i p t, (i, p) ∈ db.log → HasTuple p t → t.pubkey ≠ List.replicate 32 255) (asc : Bool) :
    ∃ r, getFirst db ⟨.tree, asc⟩ (placeAbs g d pc n k).preds = .ok r ∧
      FirstOf db (fun e => AtPlace g d pc k e.2) (fun e f => TreeBefore asc e.2 f.2) r := by
  obtain ⟨q, g0, d0, n0, k0, es, hq, hql, e1, e2, e3, e4, e5, mn, hle, hlb, hes⟩ :=
    place_total (g := g) (d := d) (n := n) (by omega) hk hsp hc hw hff asc
  have og : ∀ v, q.group.Mem v → v = g0 := by
    intro v hv
    have h0 := hle.group.1
    rw [e2] at h0 hv
    exact ((place_group v).1 hv).trans ((place_group g0).1 h0).symm
  have od : ∀ v, q.domain.Mem v → v = d0 := by
    intro v hv
    have h0 := hle.domain.1
    rw [e1] at h0 hv
    exact ((place_domain v).1 hv).trans ((place_domain d0).1 h0).symm
  have n0e : n0 = n := (mn n0).1 hle.depth.1
  have on : ∀ i, BitSet.has q.depth i = true → i = n0 := fun i hi => by rw [n0e]; exact (mn i).1 hi
  have hT := tbl_of hc hw asc
  have hK : ∀ x, From db.tree (be g0 ++ be d0 ++ [UInt8.ofNat n0] ++ (spaceOf q.rspace ++ be k0)) x → ∃ t, KeyOf x t := by
    rintro x ⟨⟨vs, hv⟩, -⟩; exact hT.keys _ hv
  have hok : pc.length = n0 ∨ k0.toNat < 2 ^ 248 := .inl (by omega)
  have hgood : (placeAbs g d pc n k).Good := by
    refine ⟨hsp, h8, ?_⟩
    show pc.length ≤ (bmax (w := 8) (Bound.default 8).low (BitVec.ofNat 8 n)).toNat
    rw [bmax_toNat, BitVec.toNat_ofNat]
    omega
  obtain ⟨q', hq', hf⟩ := treeEntries_spec (placeAbs g d pc n k) place_live (place_inSet _ _) hT hes (strict := True) (by
    intro q' lb' hq' hlb' _
    rw [hq] at hq'; cases hq'
    rw [hlb] at hlb'
    have : be g0 ++ be d0 ++ [UInt8.ofNat n0] ++ (spaceOf q.rspace ++ be k0) = lb' := by injection hlb'
    rw [← this]
    refine ⟨fun e he hlt => ?_, safe_of hql hsp e4 hle hok hK ?_ ?_, ?_⟩
    · obtain ⟨t, ht⟩ := hT.keys e he
      exact lb_below hsp e4 hle hok ht hlt
    · intro x t kk hkt x1 x2 hno i hyes
      obtain ⟨y1, -⟩ := from_low hle og od hkt x1 x2 kk.2
      have := on i hyes
      rcases Nat.lt_or_ge n0 t.space.length with h1 | h1
      · omega
      · have : t.space.length = i := by omega
        rw [← this, hno] at hyes; cases hyes
    · intro x x' t t' kk kk' hkt hkt' x1 x2 hlt sg sd x4 hp
      exact one_depth hsp e4 hle og od on hkt hkt' x1 x2 kk.2 hlt sg sd x4 hp
    · rw [e5, place_other (by decide) (by decide) (by decide) (by decide)]
      cases asc
      · show (minV 64).toNat < (maxV 64).toNat
        decide
      · show (minV 64).toNat ≤ (maxV 64).toNat
        decide)
  obtain ⟨ps, h1, h2, h3, h4⟩ := found_packets_of place_live hgood hc hw (M := fun e => AtPlace g d pc k e.2) (by
    rintro e he ⟨t, ht⟩
    rw [place_test hg hd hk hsp h8 hn ht]
    exact and_iff_left (default_mem 64 _).1) hq' hf
  obtain ⟨sel, hsel⟩ : ∃ sel, sel = ps.filter (fun e => (restTests (placeAbs g d pc n k).preds treeChecked).all (fun t => t e.2)) := ⟨_, rfl⟩
  rw [← hsel] at h2 h3 h4
  refine ⟨_, place_query hes h1 hsel, ?_⟩
  cases sel with
  | nil =>
    rintro e he ⟨t, ht⟩
    exact absurd (h4 trivial (place_inSet _) e he ⟨t, ht⟩ ⟨t, ht.1⟩) (by simp)
  | cons x xs =>
    obtain ⟨p1, p2, -⟩ := h3 x List.mem_cons_self
    refine ⟨p1, p2, ?_⟩
    rintro f hf ⟨t, ht⟩
    rcases List.mem_cons.1 (h4 trivial (place_inSet _) f hf ⟨t, ht⟩ ⟨t, ht.1⟩) with h | h
    · exact .inl h
    · exact .inr ((List.pairwise_cons.1 h2).1 f h)

/-- Nothing, if the space is deeper than the depth asked for. -/
theorem place_deep (hk : k.length = 32) (hsp : IsSpace (encodeSpace pc) pc) (hn : n < pc.length) (h8 : n ≤ 8) {db : Db} (hc : Consistent db) (hw : AllProper db)
    {asc : Bool} {r : Option (Nat × NetParts)} (h : getFirst db ⟨.tree, asc⟩ (placeAbs g d pc n k).preds = .ok r) : r = none := by
  have hes : ∃ es, treeEntries db.tree asc (placeAbs g d pc n k).preds = .ok es := by
    cases hes : treeEntries db.tree asc (placeAbs g d pc n k).preds with
    | ok es => exact ⟨es, rfl⟩
    | error e =>
      unfold getFirst getAll query candidates queryTree at h
      simp only [hes] at h
      cases h
  obtain ⟨es, hes⟩ := hes
  obtain ⟨q, hq, hf⟩ := treeEntries_spec (placeAbs g d pc n k) place_live (place_inSet _ _) (tbl_of hc hw asc) hes (strict := False)
    (fun _ _ _ _ hf => hf.elim)
  obtain ⟨q', hq', hql, e1, e2, e3, e4, e5, e6⟩ := treeKeys_spec (placeAbs g d pc n k) place_live asc
  rw [hq] at hq'; cases hq'
  have hnil : es = [] := by
    cases es with
    | nil => rfl
    | cons e es =>
      exfalso
      obtain ⟨m1, -, vs, m2, -⟩ := hf.mem (e := e) (List.mem_cons_self ..)
      obtain ⟨t, ht⟩ := (tbl_of hc hw asc).keys _ m2
      obtain ⟨-, -, -, x4, x5⟩ := (hit_iff hsp e4 ht).1 m1
      have x4 := ((e6 _).1 x4).2
      rw [place_depth] at x4
      have := congrArg BitVec.toNat x4
      rw [BitVec.toNat_ofNat, BitVec.toNat_ofNat] at this
      have := x5.length_le
      have := ht.depth
      omega
  subst hnil
  rw [place_query hes (ps := []) rfl (sel := []) rfl] at h
  cases h; rfl

end

end Verif.Query
