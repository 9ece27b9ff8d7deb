import Verif.Lemmas.Tree6
/-!
# Jumps
-/
namespace Verif.Query
open Verif Verif.Pkt Verif.Tree Verif.Pred Verif.Env Verif.Spec Verif.Props

theorem be_num {w : Nat} (hw : 8 * (w / 8) = w) {b : Bytes} (hb : b.length = w / 8) : be (num w b) = b := by
  unfold be
  rw [num_toNat (by omega), ← hb]
  exact beBytes_beNat b

/-- Keys against what jump targets look like. -/
theorem jump_lt {k : Bytes} {t : TreeTuple} (h : KeyOf k t) {g d : Bytes} (hg : g.length = 32) (hd : d.length = 16) (x : UInt8) (r : Bytes) :
    bytesLt k (g ++ d ++ [x] ++ r) = true ↔ beNat t.group < beNat g ∨ (t.group = g ∧ (beNat t.domain < beNat d ∨ (t.domain = d ∧
      (t.space.length < x.toNat ∨ (t.space.length = x.toNat ∧ bytesLt (encodeSpace t.space ++ t.pubkey) r = true))))) := by
  have l1 := h.depth
  have n1 : (UInt8.ofNat t.space.length).toNat = t.space.length := by simp; omega
  have n3 : UInt8.ofNat t.space.length = x ↔ t.space.length = x.toNat :=
    ⟨fun hh => by rw [← hh, n1], fun hh => by rw [hh]; simp⟩
  have k2 : g ++ d ++ [x] ++ r = g ++ d ++ [x] ++ r ++ [] := by simp
  have e : k = t.group ++ t.domain ++ [UInt8.ofNat t.space.length] ++ (encodeSpace t.space ++ t.pubkey) ++ [] := by rw [h.form]; simp
  rw [e, k2, key_lt (h.group.trans hg.symm) (h.domain.trans hd.symm), n1]
  simp only [Bool.or_eq_true, Bool.and_eq_true, decide_eq_true_eq, n3, List.append_nil]
  rw [bytesLt_beNat (h.group.trans hg.symm), bytesLt_beNat (h.domain.trans hd.symm)]

theorem key_cmp {k k' : Bytes} {t t' : TreeTuple} (h : KeyOf k t) (h' : KeyOf k' t') :
    bytesLt k k' = true ↔ beNat t.group < beNat t'.group ∨ (t.group = t'.group ∧ (beNat t.domain < beNat t'.domain ∨ (t.domain = t'.domain ∧
      (t.space.length < t'.space.length ∨ (t.space.length = t'.space.length ∧
        bytesLt (encodeSpace t.space ++ t.pubkey) (encodeSpace t'.space ++ t'.pubkey) = true))))) := by
  have l1 := h'.depth
  have n1 : (UInt8.ofNat t'.space.length).toNat = t'.space.length := by simp; omega
  have e : k' = t'.group ++ t'.domain ++ [UInt8.ofNat t'.space.length] ++ (encodeSpace t'.space ++ t'.pubkey) := by rw [h'.form]; simp
  rw [e, jump_lt h h'.group h'.domain, n1]

theorem hit_iff {q : TreeKeys} {pc : List Bytes} (hpc : IsSpace (encodeSpace pc) pc) (hsp : spaceOf q.rspace = encodeSpace pc)
    {k : Bytes} {t : TreeTuple} (h : KeyOf k t) : Hit q k ↔ q.group.Mem (num 256 t.group) ∧ q.domain.Mem (num 128 t.domain) ∧
      q.pubkey.Mem (num 256 t.pubkey) ∧ BitSet.has q.depth t.space.length = true ∧ pc <+: t.space := by
  unfold Hit
  rw [h.keyGroup, h.keyDomain, h.keyPubkey, h.keyDepth, h.keySpace, hsp, space_starts_with h.space hpc]

/-- The least members. -/
structure Least (q : TreeKeys) (g0 : BitVec 256) (d0 : BitVec 128) (n0 : Nat) (k0 : BitVec 256) : Prop where
  group : q.group.Mem g0 ∧ ∀ y, q.group.Mem y → g0.toNat ≤ y.toNat
  domain : q.domain.Mem d0 ∧ ∀ y, q.domain.Mem y → d0.toNat ≤ y.toNat
  depth : BitSet.has q.depth n0 = true ∧ ∀ d, BitSet.has q.depth d = true → n0 ≤ d
  pubkey : q.pubkey.Mem k0 ∧ ∀ y, q.pubkey.Mem y → k0.toNat ≤ y.toNat

theorem least_member {w : Nat} (h0 : 1 < w) (h32 : w < 2 ^ 32) (t : TestSet w) (h : ∃ x, t.Mem x) :
    ∃ i x, t.info true (minV w) = .ok i ∧ i.val = some x ∧ t.Mem x ∧ ∀ y, t.Mem y → x.toNat ≤ y.toNat := by
  obtain ⟨i, h1, h2, -⟩ := info_eq h0 h32 true t h (minV w)
  have hz : (minV w).toNat = 0 := minV_toNat w
  cases hv : i.val with
  | none =>
    rw [hv] at h2
    obtain ⟨x, hx⟩ := h
    exact absurd (by omega) (h2 x hx)
  | some x =>
    rw [hv] at h2
    exact ⟨i, x, h1, hv, h2.1, fun y hy => h2.2.2 y hy (by omega)⟩

theorem lowerBound_spec {q : TreeKeys} (hq : q.Live) (hn : ∃ d, BitSet.has q.depth d = true) :
    ∃ g0 d0 n0 k0, Least q g0 d0 n0 k0 ∧
      q.lowerBound = .ok (be g0 ++ be d0 ++ [UInt8.ofNat n0] ++ (spaceOf q.rspace ++ be k0)) := by
  obtain ⟨i1, g0, a1, a2, a3⟩ := least_member (by decide) (by decide) q.group hq.group
  obtain ⟨i2, d0, b1, b2, b3⟩ := least_member (by decide) (by decide) q.domain hq.domain
  obtain ⟨i3, k0, c1, c2, c3⟩ := least_member (by decide) (by decide) q.pubkey hq.pubkey
  have hdep : ∃ n0, (q.depth.info 0).val = some n0 ∧ BitSet.has q.depth n0 = true ∧ ∀ d, BitSet.has q.depth d = true → n0 ≤ d := by
    unfold BitSet.info
    simp only
    by_cases h0 : BitSet.has q.depth 0 = true
    · rw [if_pos h0]; exact ⟨0, rfl, h0, fun d _ => Nat.zero_le _⟩
    · rw [if_neg h0]
      cases hx : BitSet.next q.depth 0 with
      | none =>
        obtain ⟨d, hd⟩ := hn
        have := (next_none q.depth 0).1 hx d (by
          rcases Nat.eq_zero_or_pos d with rfl | h
          · exact absurd hd h0
          · exact h)
        rw [hd] at this; cases this
      | some n =>
        obtain ⟨e1, e2, e3, e4⟩ := next_some hx
        refine ⟨n, rfl, e3, fun d hd => ?_⟩
        apply Classical.byContradiction
        intro hlt
        have := e4 d (by
          rcases Nat.eq_zero_or_pos d with rfl | h
          · exact absurd hd h0
          · exact h) (by omega)
        rw [hd] at this; cases this
  obtain ⟨n0, f1, f2⟩ := hdep
  refine ⟨g0, d0, n0, k0, ⟨a3, b3, f2, c3⟩, ?_⟩
  unfold TreeKeys.lowerBound
  rw [a1, b1, c1]
  simp only
  rw [a2, b2, f1, c2]
  simp

theorem lowerBound_none {q : TreeKeys} {lb : Bytes} (h : q.lowerBound = .ok lb) : ∃ d, BitSet.has q.depth d = true := by
  unfold TreeKeys.lowerBound at h
  split at h
  · split at h
    · rename_i hn _
      unfold BitSet.info at hn
      simp only at hn
      split at hn
      · rename_i h0; exact ⟨0, h0⟩
      · exact ⟨_, (next_some hn).2.2.1⟩
    · cases h
  · cases h

theorem jump_inj {x b : Bytes} (h : (.ok (.jump x) : PRes Look) = .ok (.jump b)) : b = x := by
  injection h with h; injection h with h; exact h.symm

/-- The shape of the targets. -/
theorem look_jump {q : TreeKeys} (hq : q.Live) {pc : List Bytes} (hpc : IsSpace (encodeSpace pc) pc) (hsp : spaceOf q.rspace = encodeSpace pc)
    {lb D0 R : Bytes} {x0 : UInt8} (dr32 : lb.drop 32 = D0 ++ [x0] ++ R) (dr48 : lb.drop 48 = [x0] ++ R)
    (dr49 : lb.drop 49 = R) (hlb : lb.length ≤ 81 + (encodeSpace pc).length) {k : Bytes} {t : TreeTuple} (hk : KeyOf k t) :
    (look q lb k = .ok .over →
      ∀ y, q.group.Mem y → y.toNat < beNat t.group) ∧
    ∀ b, look q lb k = .ok (.jump b) →
      (∃ gv : BitVec 256, beNat t.group < gv.toNat ∧ (∀ y, q.group.Mem y → beNat t.group ≤ y.toNat → gv.toNat ≤ y.toNat) ∧
        b = be gv ++ D0 ++ [x0] ++ R) ∨
      ((∀ y, q.domain.Mem y → y.toNat < beNat t.domain) ∧
        b = t.group ++ List.replicate 16 255 ++ [255] ++ R) ∨
      (∃ dv : BitVec 128, beNat t.domain < dv.toNat ∧ (∀ y, q.domain.Mem y → beNat t.domain ≤ y.toNat → dv.toNat ≤ y.toNat) ∧
        b = t.group ++ be dv ++ [x0] ++ R) ∨
      (q.group.Mem (num 256 t.group) ∧ q.domain.Mem (num 128 t.domain) ∧ (BitSet.has q.depth t.space.length = false ∨ ¬ pc <+: t.space) ∧
        ∃ x : UInt8, t.space.length < x.toNat ∧ b = t.group ++ t.domain ++ [x] ++ R ∧
          (BitSet.has q.depth t.space.length = true → ∀ n, t.space.length < n → BitSet.has q.depth n = true → x.toNat ≤ n)) ∨
      (q.pubkey.Mem (num 256 t.pubkey) → False) ∧ ((∃ kv : BitVec 256, beNat t.pubkey < kv.toNat ∧
          (∀ y, q.pubkey.Mem y → beNat t.pubkey ≤ y.toNat → kv.toNat ≤ y.toNat) ∧
          b = t.group ++ t.domain ++ [UInt8.ofNat t.space.length] ++ (encodeSpace t.space ++ be kv)) ∨
        ((∀ y, q.pubkey.Mem y → y.toNat < beNat t.pubkey) ∧
          b = t.group ++ t.domain ++ [UInt8.ofNat t.space.length] ++ (encodeSpace t.space ++ List.replicate 32 255))) := by
  obtain ⟨gi, hg1, hg2, hg3⟩ := info_eq (by decide) (by decide) true q.group hq.group (num 256 t.group)
  obtain ⟨di, hd1, hd2, hd3⟩ := info_eq (by decide) (by decide) true q.domain hq.domain (num 128 t.domain)
  obtain ⟨ki, hp1, hp2, hp3⟩ := info_eq (by decide) (by decide) true q.pubkey hq.pubkey (num 256 t.pubkey)
  have eg : (num 256 t.group).toNat = beNat t.group := num_toNat (by rw [hk.group]; decide)
  have ed : (num 128 t.domain).toNat = beNat t.domain := num_toNat (by rw [hk.domain]; decide)
  have ek : (num 256 t.pubkey).toNat = beNat t.pubkey := num_toNat (by rw [hk.pubkey]; decide)
  have bg : be (num 256 t.group) = t.group := be_num (by decide) hk.group
  have bd : be (num 128 t.domain) = t.domain := be_num (by decide) hk.domain
  have lbe : ∀ v : BitVec 256, (be v).length = 32 := fun v => be_length v
  have lbd : ∀ v : BitVec 128, (be v).length = 16 := fun v => be_length v
  have kd : UInt8.ofNat (keyDepth k).toNat = UInt8.ofNat t.space.length := by rw [hk.keyDepth]
  unfold look
  rw [hk.keyGroup, hk.keyDomain, hk.keyPubkey, hk.keyDepth, hk.keySpace, hg1, hd1, hp1, hsp]
  simp only
  by_cases hh : (ki.inSet && (BitSet.info q.depth t.space.length).inSet && Space.startsWith (encodeSpace t.space) (encodeSpace pc) && di.inSet &&
      gi.inSet) = true
  · rw [if_pos hh]; exact ⟨nofun, nofun⟩
  · rw [if_neg hh]
    cases hgv : gi.val with
    | none =>
      rw [hgv] at hg2
      refine ⟨fun _ y hy => ?_, nofun⟩
      have := hg2 y hy
      omega
    | some gv =>
      rw [hgv] at hg2
      obtain ⟨g4, g5, g6⟩ := hg2
      refine ⟨nofun, ?_⟩
      intro b hb
      simp only at hb
      cases hgin : gi.inSet with
      | false =>
        left
        rw [hgin] at hb
        simp only [Bool.false_eq_true, if_false, List.append_nil] at hb
        have hb := jump_inj hb; rw [hb]; clear hb
        refine ⟨gv, ?_, by rw [← eg]; exact g6, ?_⟩
        · rw [← eg]
          apply Nat.lt_of_le_of_ne g5
          intro hne
          have := BitVec.eq_of_toNat_eq hne
          rw [← this] at g4
          rw [hg3.2 g4] at hgin; cases hgin
        · rw [lbe, dr32]; simp
      | true =>
        right
        have hgm := hg3.1 hgin
        have : gv = num 256 t.group := by
          apply BitVec.eq_of_toNat_eq
          exact Nat.le_antisymm (g6 _ hgm (Nat.le_refl _)) g5
        subst this
        rw [hgin, bg] at hb
        simp only [if_true] at hb
        cases hdv : di.val with
        | none =>
          left
          rw [hdv] at hb hd2
          simp only at hb
          have hb := jump_inj hb; rw [hb]; clear hb
          refine ⟨fun y hy => ?_, ?_⟩
          · have := hd2 y hy; omega
          · have : (t.group ++ (List.replicate 16 255 ++ [255])).length = 49 := by simp [hk.group]
            rw [this, dr49]; simp
        | some dv =>
          right
          rw [hdv] at hb hd2
          obtain ⟨d4, d5, d6⟩ := hd2
          simp only at hb
          cases hdin : di.inSet with
          | false =>
            left
            rw [hdin] at hb
            simp only [Bool.false_eq_true, if_false, List.append_nil] at hb
            have hb := jump_inj hb; rw [hb]; clear hb
            refine ⟨dv, ?_, by rw [← ed]; exact d6, ?_⟩
            · rw [← ed]
              apply Nat.lt_of_le_of_ne d5
              intro hne
              have := BitVec.eq_of_toNat_eq hne
              rw [← this] at d4
              rw [hd3.2 d4] at hdin; cases hdin
            · have : (t.group ++ be dv).length = 48 := by simp [hk.group, lbd]
              rw [this, dr48]; simp
          | true =>
            right
            have hdm := hd3.1 hdin
            have : dv = num 128 t.domain := by
              apply BitVec.eq_of_toNat_eq
              exact Nat.le_antisymm (d6 _ hdm (Nat.le_refl _)) d5
            subst this
            rw [hdin, bd] at hb
            simp only [if_true] at hb
            by_cases hbad : (!(BitSet.info q.depth t.space.length).inSet || !Space.startsWith (encodeSpace t.space) (encodeSpace pc)) = true
            · left
              rw [if_pos hbad] at hb
              have hb := jump_inj hb; rw [hb]; clear hb
              refine ⟨hgm, hdm, ?_, UInt8.ofNat ((q.depth.next ((BitSet.info q.depth t.space.length).val.getD 255)).getD 255), ?_, ?_, ?_⟩
              · rw [Bool.or_eq_true] at hbad
                rcases hbad with h1 | h1
                · left
                  have : (BitSet.info q.depth t.space.length).inSet = BitSet.has q.depth t.space.length := rfl
                  rw [this] at h1; simpa using h1
                · right
                  intro hpre
                  rw [(space_starts_with hk.space hpc).2 hpre] at h1; cases h1
              · have h8 := hk.depth
                have hval : t.space.length ≤ (BitSet.info q.depth t.space.length).val.getD 255 := by
                  unfold BitSet.info
                  simp only
                  split
                  · simp
                  · cases hn : BitSet.next q.depth t.space.length with
                    | none => simp; omega
                    | some v => have := (next_some hn).1; simp; omega
                cases hn : BitSet.next q.depth ((BitSet.info q.depth t.space.length).val.getD 255) with
                | none => simp; omega
                | some v =>
                  obtain ⟨n1, n2, -⟩ := next_some hn
                  simp only [Option.getD_some]
                  have : (UInt8.ofNat v).toNat = v := by simp; omega
                  omega
              · have hlen : ∀ x : UInt8, (t.group ++ (t.domain ++ [x])).length = 49 := by intro x; simp [hk.group, hk.domain]
                rw [hlen, dr49]; simp
              · intro hin n hn hhas
                have hval : (BitSet.info q.depth t.space.length).val.getD 255 = t.space.length := by
                  unfold BitSet.info
                  simp only
                  rw [if_pos hin]; rfl
                rw [hval]
                cases hx : BitSet.next q.depth t.space.length with
                | none => rw [(next_none _ _).1 hx n hn] at hhas; cases hhas
                | some v =>
                  obtain ⟨n1, n2, -, n4⟩ := next_some hx
                  simp only [Option.getD_some]
                  have hv : (UInt8.ofNat v).toNat = v := by simp; omega
                  rw [hv]
                  apply Classical.byContradiction
                  intro hlt
                  rw [n4 n hn (by omega)] at hhas; cases hhas
            · right
              rw [if_neg hbad] at hb
              rw [Bool.or_eq_true] at hbad
              have hdin' : (BitSet.info q.depth t.space.length).inSet = true := by
                cases h : (BitSet.info q.depth t.space.length).inSet with
                | true => rfl
                | false => rw [h] at hbad; simp at hbad
              have hpre' : Space.startsWith (encodeSpace t.space) (encodeSpace pc) = true := by
                cases h : Space.startsWith (encodeSpace t.space) (encodeSpace pc) with
                | true => rfl
                | false => rw [h] at hbad; simp at hbad
              have hki : ki.inSet = false := by
                rw [hdin', hpre', hdin, hgin] at hh
                simpa using hh
              have hpk : ¬ q.pubkey.Mem (num 256 t.pubkey) := by
                intro h; rw [hp3.2 h] at hki; cases hki
              refine ⟨hpk, ?_⟩
              have hval : (BitSet.info q.depth t.space.length).val.getD 255 = t.space.length := by
                have : BitSet.has q.depth t.space.length = true := hdin'
                unfold BitSet.info
                simp only
                rw [if_pos this]; rfl
              have hple : (encodeSpace pc).length ≤ (encodeSpace t.space).length := by
                obtain ⟨r, hr⟩ := (space_starts_with hk.space hpc).1 hpre'
                rw [← hr, Space.encodeSpace_append, List.length_append]; omega
              rw [hval] at hb
              cases hkv : ki.val with
              | some kv =>
                left
                rw [hkv] at hb hp2
                obtain ⟨k4, k5, k6⟩ := hp2
                simp only at hb
                have hb := jump_inj hb; rw [hb]; clear hb
                refine ⟨kv, ?_, by rw [← ek]; exact k6, ?_⟩
                · rw [← ek]
                  apply Nat.lt_of_le_of_ne k5
                  intro hne
                  have := BitVec.eq_of_toNat_eq hne
                  rw [← this] at k4
                  exact hpk k4
                · rw [List.drop_of_length_le (by simp [lbe, hk.group, hk.domain]; omega)]; simp
              | none =>
                right
                rw [hkv] at hb hp2
                simp only at hb
                have hb := jump_inj hb; rw [hb]; clear hb
                refine ⟨fun y hy => ?_, ?_⟩
                · have := hp2 y hy; omega
                · rw [List.drop_of_length_le (by simp [lbe, hk.group, hk.domain]; omega)]; simp

end Verif.Query
