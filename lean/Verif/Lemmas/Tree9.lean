import Verif.Lemmas.Tree8
/-!
# Statements whose tree queries leave nothing out
-/
namespace Verif.Query
open Verif Verif.Pkt Verif.Tree Verif.Pred Verif.Env Verif.Spec Verif.Props

theorem sandwich {p x y z : Bytes} (h1 : bytesLt z (p ++ x) = false) (h2 : bytesLt z (p ++ y) = true) : p <+: z := by
  induction p generalizing z with
  | nil => exact List.nil_prefix
  | cons a p ih =>
    cases z with
    | nil => simp [bytesLt] at h1
    | cons b z =>
      simp only [List.cons_append, bytesLt] at h1 h2
      split at h1
      · cases h1
      · rename_i hlt
        rw [if_neg hlt] at h2
        split at h1
        · rename_i hgt
          rw [if_pos hgt] at h2; cases h2
        · rename_i hgt
          rw [if_neg hgt] at h2
          have : a = b := UInt8.toNat_inj.1 (by simp [UInt8.lt_iff_toNat_lt] at hlt hgt; omega)
          subst this
          obtain ⟨r, hr⟩ := ih h1 h2
          exact ⟨r, by simp [hr]⟩

theorem prefix_long {a p : List Bytes} {r : Bytes} (ha : ValidComps a) (hp : ValidComps p) (hl : p.length ≤ a.length)
    (h : encodeSpace p <+: encodeSpace a ++ r) : p <+: a := by
  induction p generalizing a with
  | nil => exact List.nil_prefix
  | cons c p ih =>
    cases a with
    | nil => simp at hl
    | cons d a =>
      rw [ValidComps.cons_iff] at ha hp
      obtain ⟨t, ht⟩ := h
      rw [Space.encodeSpace_cons, Space.encodeSpace_cons] at ht
      simp only [List.cons_append, List.append_assoc, List.cons.injEq] at ht
      obtain ⟨h1, h2⟩ := ht
      have h1 := congrArg UInt8.toNat h1
      have hlen : c.length = d.length := by
        have := ha.1; have := hp.1
        simp at h1; omega
      obtain ⟨h3, h4⟩ := List.append_inj h2 hlen
      subst h3
      obtain ⟨r', hr'⟩ := ih ha.2 hp.2 (by simpa using hl) ⟨t, h4⟩
      exact ⟨r', by simp [hr']⟩

/-- Everything but the choice of statements. -/
theorem tree_complete {rs : List Stmt} {a : Abs} (h : Preds.default.run true rs = .ok a.preds) (hl : a.Live) (hg : a.Good)
    (hr : ∀ r ∈ rs, Plain r) {db : Db} (hc : Consistent db) (hw : AllProper db) {asc : Bool} (nth : BitVec 32)
    (hbr : ∀ n, n < 2 ^ 32 → ∀ r ∈ rs, CountOk .branch r n) (hix : SomePosition .index rs)
    (hwalk : asc = true ∨ ∃ m n, m < n ∧ n < 2 ^ 64 ∧ Allowed rs .create m ∧ Allowed rs .create n)
    (hdep : ∃ d, d ≤ 8 ∧ Allowed rs .depth d)
    (hff : Allowed rs .pubkey (2 ^ 256 - 1) ∨ ∀ i p t, (i, p) ∈ db.log → HasTuple p t → t.pubkey ≠ List.replicate 32 255)
    (hreg : ∀ q g0 d0 n0 k0, q.Live → (∀ v : BitVec 256, q.group.Mem v ↔ Allowed rs .group v.toNat) →
      (∀ v : BitVec 128, q.domain.Mem v ↔ Allowed rs .domain v.toNat) → (∀ v : BitVec 256, q.pubkey.Mem v ↔ Allowed rs .pubkey v.toNat) →
      (∀ d, BitSet.has q.depth d = true ↔ d ≤ 8 ∧ Allowed rs .depth d) → spaceOf q.rspace = encodeSpace a.pc → Least q g0 d0 n0 k0 →
      ∀ K : Bytes → Prop, (∀ k, K k → bytesLt k (be g0 ++ be d0 ++ [UInt8.ofNat n0] ++ (spaceOf q.rspace ++ be k0)) = false) →
      (a.pc.length = n0 ∨ k0.toNat < 2 ^ 248) ∧
      (∀ k t, K k → KeyOf k t → q.group.Mem (num 256 t.group) → q.domain.Mem (num 128 t.domain) → BitSet.has q.depth t.space.length = false →
        ∀ d, BitSet.has q.depth d = true → d < t.space.length) ∧
      (∀ k k' t t', K k → K k' → KeyOf k t → KeyOf k' t' → q.group.Mem (num 256 t.group) → q.domain.Mem (num 128 t.domain) →
        bytesLt k k' = true → t.group = t'.group → t.domain = t'.domain → BitSet.has q.depth t.space.length = true → ¬ a.pc <+: t.space →
        ¬ Hit q k')) :
    ∃ sel out n, query db ⟨.tree, asc⟩ a.preds nth = .ok (out, n) ∧ Counted rs nth.toNat sel out ∧
      sel.Pairwise (fun e f => TreeBefore asc e.2 f.2) ∧ ∀ e, e ∈ sel ↔ e ∈ db.log ∧ Meets rs e.1 e.2 ∧ ∃ t, HasTuple e.2 t := by
  have hin : ∀ i, InSet (a.state .branch) i := fun i => (run_inSet h .branch i).2 (hbr _ (by unfold capPos; omega))
  obtain ⟨q, hq, hql, e1, e2, e3, e4, e5, e6⟩ := treeKeys_spec a hl asc
  have mg : ∀ v : BitVec 256, q.group.Mem v ↔ Allowed rs .group v.toNat := fun v => by rw [e2]; exact run_field h hr (f := .group) (by decide) v
  have md : ∀ v : BitVec 128, q.domain.Mem v ↔ Allowed rs .domain v.toNat := fun v => by rw [e1]; exact run_field h hr (f := .domain) (by decide) v
  have mk : ∀ v : BitVec 256, q.pubkey.Mem v ↔ Allowed rs .pubkey v.toNat := fun v => by rw [e3]; exact run_field h hr (f := .pubkey) (by decide) v
  have mn : ∀ d, BitSet.has q.depth d = true ↔ d ≤ 8 ∧ Allowed rs .depth d := by
    intro d
    rw [e6]
    refine and_congr_right fun h8 => ?_
    have e : (BitVec.ofNat 8 d).toNat = d := by rw [BitVec.toNat_ofNat]; omega
    have := run_field h hr (f := .depth) (by decide) (BitVec.ofNat 8 d)
    rw [this]
    show Allowed rs .depth (BitVec.ofNat 8 d).toNat ↔ _
    rw [e]
  have hpc : IsSpace (encodeSpace a.pc) a.pc := hg.space
  obtain ⟨g0, d0, n0, k0, hle, hlb⟩ := lowerBound_spec hql (by obtain ⟨d, h1, h2⟩ := hdep; exact ⟨d, (mn d).2 ⟨h1, h2⟩⟩)
  obtain ⟨r1, r2, r3⟩ := hreg q g0 d0 n0 k0 hql mg md mk mn e4 hle
    (From db.tree (be g0 ++ be d0 ++ [UInt8.ofNat n0] ++ (spaceOf q.rspace ++ be k0))) (fun k hk => hk.2)
  have hT := tbl_of hc hw asc
  have hK : ∀ k, From db.tree (be g0 ++ be d0 ++ [UInt8.ofNat n0] ++ (spaceOf q.rspace ++ be k0)) k → ∃ t, KeyOf k t := by
    rintro k ⟨⟨vs, hv⟩, -⟩; exact hT.keys _ hv
  have hmv : Moves q (be g0 ++ be d0 ++ [UInt8.ofNat n0] ++ (spaceOf q.rspace ++ be k0))
      (From db.tree (be g0 ++ be d0 ++ [UInt8.ofNat n0] ++ (spaceOf q.rspace ++ be k0))) := by
    refine moves_of hql hpc e4 hK (hff.imp (fun h1 => ?_) (fun h1 => ?_))
    · rw [mk]
      have e : (num 256 (List.replicate 32 255)).toNat = 2 ^ 256 - 1 := by
        rw [num_toNat (by simp)]; decide
      rw [e]; exact h1
    · rintro k t ⟨⟨vs, hv⟩, -⟩ hk
      obtain ⟨h2, -⟩ := hc.dupSorted k vs hv
      obtain ⟨v, hv'⟩ := List.exists_mem_of_ne_nil _ h2
      obtain ⟨i, p, hp, hpe⟩ := (hc.treeLog k v).1 ⟨vs, hv, hv'⟩
      obtain ⟨u, hu⟩ := proper_entry (hw i p hp) hpe
      have hk' : KeyOf k u := keyOf_pkt hu hpe
      have := h1 i p u hp hu
      rwa [← hk'.keyPubkey, hk.keyPubkey] at this
  obtain ⟨es, hes⟩ := treeEntries_total a hl (hin _) hT hq hlb hmv
  obtain ⟨sel, out, n, o1, o2, o3, o4, o5⟩ := tree_results h hl hg hr hc hw (hin _) hix hes nth (strict := True) (by
    intro q' lb' hq' hlb' _
    rw [hq] at hq'; cases hq'
    rw [hlb] at hlb'
    have : be g0 ++ be d0 ++ [UInt8.ofNat n0] ++ (spaceOf q.rspace ++ be k0) = lb' := by injection hlb'
    rw [← this]
    refine ⟨fun e he hlt => ?_, safe_of hql hpc e4 hle r1 hK r2 r3, ?_⟩
    · obtain ⟨t, ht⟩ := hT.keys e he
      exact lb_below hpc e4 hle r1 ht hlt
    · rw [e5]
      have hlive := hl.sets .create
      obtain ⟨t, ht⟩ : ∃ t : TestSet 64, t = a.set .create := ⟨_, rfl⟩
      have hb : ∀ v : BitVec 64, t.Mem v ↔ Allowed rs .create v.toNat := fun v => by rw [ht]; exact run_field h hr (f := .create) (by decide) v
      have hlive : ∃ v : BitVec 64, t.Mem v := by rw [ht]; exact hlive
      rw [← ht]
      show Walks asc (stampRange t.bound asc)
      unfold Walks stampRange
      cases asc with
      | true =>
        obtain ⟨v, hv⟩ := hlive
        have := hv.1
        simp only [if_true]
        exact Nat.le_trans this.1 this.2
      | false =>
        rcases hwalk with hw' | ⟨m, n, x1, x2, x3, x4⟩
        · cases hw'
        · have en : (BitVec.ofNat 64 n).toNat = n := by rw [BitVec.toNat_ofNat]; omega
          have em : (BitVec.ofNat 64 m).toNat = m := by rw [BitVec.toNat_ofNat]; omega
          have y1 := ((hb (BitVec.ofNat 64 n)).2 (by rw [en]; exact x4)).1
          have y2 := ((hb (BitVec.ofNat 64 m)).2 (by rw [em]; exact x3)).1
          simp only [Bool.false_eq_true, if_false]
          have z1 := y1.2
          have z2 := y2.1
          omega)
  refine ⟨sel, out, n, o1, o2, o3, fun e => ⟨o4 e, fun ⟨p1, p2, p3⟩ => o5 trivial hin e p1 p2 p3⟩⟩

section
variable {q : TreeKeys} {pc : List Bytes} {g0 : BitVec 256} {d0 : BitVec 128} {n0 : Nat} {k0 : BitVec 256}

/-- In the only group and domain asked for, what is not below the lower bound. -/
theorem from_low (hl : Least q g0 d0 n0 k0) (hg : ∀ v, q.group.Mem v → v = g0) (hd : ∀ v, q.domain.Mem v → v = d0)
    {k : Bytes} {t : TreeTuple} (hk : KeyOf k t) (h1 : q.group.Mem (num 256 t.group)) (h2 : q.domain.Mem (num 128 t.domain)) {r : Bytes}
    (hf : bytesLt k (be g0 ++ be d0 ++ [UInt8.ofNat n0] ++ r) = false) :
    n0 ≤ t.space.length ∧ (t.space.length = n0 → bytesLt (encodeSpace t.space ++ t.pubkey) r = false) := by
  have eg : (num 256 t.group).toNat = beNat t.group := num_toNat (by rw [hk.group]; decide)
  have ed : (num 128 t.domain).toNat = beNat t.domain := num_toNat (by rw [hk.domain]; decide)
  have sg : t.group = be g0 := by
    refine beNat_inj (by rw [hk.group, be_length]) ?_
    rw [beNat_be (by decide), ← eg, hg _ h1]
  have sd : t.domain = be d0 := by
    refine beNat_inj (by rw [hk.domain, be_length]) ?_
    rw [beNat_be (by decide), ← ed, hd _ h2]
  have key := jump_lt hk (be_length g0) (be_length d0) (UInt8.ofNat n0) r
  rw [hf, n0_small hl] at key
  simp only [Bool.false_eq_true, false_iff, not_or, not_and] at key
  obtain ⟨-, key⟩ := key
  obtain ⟨-, key⟩ := key sg
  obtain ⟨k1, k2⟩ := key sd
  exact ⟨by omega, fun hn => by rw [← Bool.not_eq_true]; exact k2 hn⟩

/-- With one depth, the prefix tells where to stop. -/
theorem one_depth (hpc : IsSpace (encodeSpace pc) pc) (hsp : spaceOf q.rspace = encodeSpace pc)
    (hl : Least q g0 d0 n0 k0) (hg : ∀ v, q.group.Mem v → v = g0) (hd : ∀ v, q.domain.Mem v → v = d0)
    (hn : ∀ d, BitSet.has q.depth d = true → d = n0) {k k' : Bytes} {t t' : TreeTuple} (hk : KeyOf k t) (hk' : KeyOf k' t')
    (h1 : q.group.Mem (num 256 t.group)) (h2 : q.domain.Mem (num 128 t.domain))
    (hf : bytesLt k (be g0 ++ be d0 ++ [UInt8.ofNat n0] ++ (spaceOf q.rspace ++ be k0)) = false) (hlt : bytesLt k k' = true)
    (sg : t.group = t'.group) (sd : t.domain = t'.domain) (h4 : BitSet.has q.depth t.space.length = true) (hp : ¬ pc <+: t.space) : ¬ Hit q k' := by
  intro hh
  obtain ⟨-, -, -, y4, r, y5⟩ := (hit_iff hpc hsp hk').1 hh
  have x1 := hn _ h4
  have x2 := hn _ y4
  obtain ⟨-, x3⟩ := from_low hl hg hd hk h1 h2 hf
  have x3 := x3 x1
  rw [hsp] at x3
  have x4 : bytesLt (encodeSpace t.space ++ t.pubkey) (encodeSpace t'.space ++ t'.pubkey) = true := by
    rcases (key_cmp hk hk').1 hlt with c | ⟨-, c | ⟨-, c | ⟨-, c⟩⟩⟩
    · rw [sg] at c; omega
    · rw [sd] at c; omega
    · omega
    · exact c
  rw [← y5, Space.encodeSpace_append, List.append_assoc] at x4
  refine hp (prefix_long hk.space.comps hpc.comps ?_ (sandwich x3 x4))
  have : pc.length + r.length = n0 := by rw [← x2, ← y5]; simp
  omega

end

end Verif.Query
