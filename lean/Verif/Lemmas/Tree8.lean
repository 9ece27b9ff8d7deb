import Verif.Lemmas.Base64
import Verif.Lemmas.Tree7
/-!
# Queries whose jumps leave nothing out
-/
namespace Verif.Query
open Verif Verif.Pkt Verif.Tree Verif.Pred Verif.Env Verif.Spec Verif.Props

theorem be_zero_head {v : BitVec 256} (h : v.toNat < 2 ^ 248) : ∃ r, be v = 0 :: r := by
  have hl := be_length v
  have hn := beNat_be (by decide) v
  cases hb : be v with
  | nil => rw [hb] at hl; simp at hl
  | cons x r =>
    rw [hb] at hl hn
    rw [Verif.Abe.beNat_cons] at hn
    have hr : r.length = 31 := by simpa using hl
    rw [hr] at hn
    refine ⟨r, ?_⟩
    have hx : x.toNat = 0 := by
      rcases Nat.eq_zero_or_pos x.toNat with h0 | h0
      · exact h0
      · have : 1 * 256 ^ 31 ≤ x.toNat * 256 ^ 31 := Nat.mul_le_mul_right _ h0
        have e : (256 : Nat) ^ 31 = 2 ^ 248 := by decide
        omega
    have : x = 0 := UInt8.toNat_inj.1 hx
    rw [this]

section
variable {q : TreeKeys} {pc : List Bytes} {g0 : BitVec 256} {d0 : BitVec 128} {n0 : Nat} {k0 : BitVec 256}

/-- The rest of a key asked for is not below that of the lower bound. -/
theorem tail_low (hpc : IsSpace (encodeSpace pc) pc) (hsp : spaceOf q.rspace = encodeSpace pc) (hl : Least q g0 d0 n0 k0)
    (hok : pc.length = n0 ∨ k0.toNat < 2 ^ 248) {k : Bytes} {t : TreeTuple} (hk : KeyOf k t) (hh : Hit q k)
    (hn : t.space.length = n0) : bytesLt (encodeSpace t.space ++ t.pubkey) (encodeSpace pc ++ be k0) = false := by
  obtain ⟨h1, h2, h3, h4, r, hr⟩ := (hit_iff hpc hsp hk).1 hh
  have ek : (num 256 t.pubkey).toNat = beNat t.pubkey := num_toNat (by rw [hk.pubkey]; decide)
  have hmin := hl.pubkey.2 _ h3
  rw [ek] at hmin
  rw [← hr, Space.encodeSpace_append, List.append_assoc, bytesLt_append_left]
  cases r with
  | nil =>
    rw [Bool.eq_false_iff]
    intro hlt
    have := (bytesLt_be (by decide) k0 hk.pubkey).1 (by simpa [encodeSpace] using hlt)
    omega
  | cons c r =>
    have hlen : pc.length + (r.length + 1) = n0 := by rw [← hn, ← hr]; simp
    rcases hok with h | h
    · omega
    · obtain ⟨z, hz⟩ := be_zero_head h
      have hc := hk.space.comps c (by rw [← hr]; simp)
      rw [hz, Space.encodeSpace_cons, List.cons_append]
      have : (UInt8.ofNat c.length).toNat = c.length := by simp; omega
      unfold bytesLt
      rw [this, if_neg (by simp), if_pos (by simp; omega)]

theorem n0_small (hl : Least q g0 d0 n0 k0) : (UInt8.ofNat n0).toNat = n0 := by
  have := hl.depth.1
  unfold BitSet.has at this
  rw [Bool.and_eq_true, decide_eq_true_iff] at this
  simp; omega

/-- Nothing asked for is below the lower bound. -/
theorem lb_below (hpc : IsSpace (encodeSpace pc) pc) (hsp : spaceOf q.rspace = encodeSpace pc) (hl : Least q g0 d0 n0 k0)
    (hok : pc.length = n0 ∨ k0.toNat < 2 ^ 248) {k : Bytes} {t : TreeTuple} (hk : KeyOf k t)
    (hlt : bytesLt k (be g0 ++ be d0 ++ [UInt8.ofNat n0] ++ (spaceOf q.rspace ++ be k0)) = true) : ¬ Hit q k := by
  intro hh
  obtain ⟨h1, h2, h3, h4, -⟩ := (hit_iff hpc hsp hk).1 hh
  have eg : (num 256 t.group).toNat = beNat t.group := num_toNat (by rw [hk.group]; decide)
  have ed : (num 128 t.domain).toNat = beNat t.domain := num_toNat (by rw [hk.domain]; decide)
  have m1 := hl.group.2 _ h1
  have m2 := hl.domain.2 _ h2
  have m4 := hl.depth.2 _ h4
  rw [jump_lt hk (be_length g0) (be_length d0), beNat_be (by decide), beNat_be (by decide), n0_small hl] at hlt
  rcases hlt with h | ⟨-, h | ⟨-, h | ⟨h, h'⟩⟩⟩
  · omega
  · omega
  · omega
  · rw [hsp, tail_low hpc hsp hl hok hk hh h] at h'; cases h'

variable {K : Bytes → Prop}

/-- What makes the jumps safe. -/
theorem safe_of (hq : q.Live) (hpc : IsSpace (encodeSpace pc) pc) (hsp : spaceOf q.rspace = encodeSpace pc) (hl : Least q g0 d0 n0 k0)
    (hok : pc.length = n0 ∨ k0.toNat < 2 ^ 248) (hK : ∀ k, K k → ∃ t, KeyOf k t)
    (H1 : ∀ k t, K k → KeyOf k t → q.group.Mem (num 256 t.group) → q.domain.Mem (num 128 t.domain) → BitSet.has q.depth t.space.length = false →
      ∀ d, BitSet.has q.depth d = true → d < t.space.length)
    (H2 : ∀ k k' t t', K k → K k' → KeyOf k t → KeyOf k' t' → q.group.Mem (num 256 t.group) → q.domain.Mem (num 128 t.domain) →
      bytesLt k k' = true → t.group = t'.group → t.domain = t'.domain → BitSet.has q.depth t.space.length = true → ¬ pc <+: t.space → ¬ Hit q k') :
    Safe q (be g0 ++ be d0 ++ [UInt8.ofNat n0] ++ (spaceOf q.rspace ++ be k0)) K := by
  intro k k' kk kk' hlt
  obtain ⟨t, hk⟩ := hK k kk
  obtain ⟨t', hk'⟩ := hK k' kk'
  have eg' : (num 256 t'.group).toNat = beNat t'.group := num_toNat (by rw [hk'.group]; decide)
  have ed' : (num 128 t'.domain).toNat = beNat t'.domain := num_toNat (by rw [hk'.domain]; decide)
  have ek' : (num 256 t'.pubkey).toNat = beNat t'.pubkey := num_toNat (by rw [hk'.pubkey]; decide)
  have lbe : ∀ v : BitVec 256, (be v).length = 32 := fun v => be_length v
  have lbd : ∀ v : BitVec 128, (be v).length = 16 := fun v => be_length v
  have hc := (key_cmp hk hk').1 hlt
  have gle : beNat t.group ≤ beNat t'.group := by
    rcases hc with h | ⟨h, _⟩
    · omega
    · rw [h]; exact Nat.le_refl _
  have hlook := look_jump (lb := be g0 ++ be d0 ++ [UInt8.ofNat n0] ++ (spaceOf q.rspace ++ be k0)) (D0 := be d0)
    (R := spaceOf q.rspace ++ be k0) (x0 := UInt8.ofNat n0) hq hpc hsp
    (by
      simp only [List.append_assoc]
      rw [List.drop_append_of_le_length (by rw [lbe]; omega), List.drop_of_length_le (by rw [lbe]; omega), List.nil_append])
    (by
      have : (be g0 ++ be d0 ++ [UInt8.ofNat n0] ++ (spaceOf q.rspace ++ be k0)) =
        (be g0 ++ be d0) ++ ([UInt8.ofNat n0] ++ (spaceOf q.rspace ++ be k0)) := by simp
      rw [this, List.drop_append_of_le_length (by simp [lbe, lbd]), List.drop_of_length_le (by simp [lbe, lbd]), List.nil_append])
    (by rw [List.drop_append_of_le_length (by simp [lbe, lbd]), List.drop_of_length_le (by simp [lbe, lbd]), List.nil_append])
    (by rw [hsp]; simp [lbe, lbd]; omega) hk
  refine ⟨fun ho hh => ?_, fun b hb hlt' hh => ?_⟩
  · obtain ⟨h1, -⟩ := (hit_iff hpc hsp hk').1 hh
    have := hlook.1 ho _ h1
    omega
  · have hh' := (hit_iff hpc hsp hk').1 hh
    obtain ⟨h1, h2, h3, h4, h5⟩ := hh'
    have m1 := hl.group.2 _ h1
    have m2 := hl.domain.2 _ h2
    have m4 := hl.depth.2 _ h4
    rcases hlook.2 b hb with ⟨gv, a1, a2, a3⟩ | ⟨a2, a3⟩ | ⟨dv, a1, a2, a3⟩ | ⟨a0, a1, a2, x, a4, a3, -⟩ | ⟨a0, ⟨kv, a1, a2, a3⟩ | ⟨a2, a3⟩⟩
    · -- another group
      rw [a3, jump_lt hk' (lbe gv) (lbd d0), beNat_be (by decide), beNat_be (by decide), n0_small hl] at hlt'
      have := a2 _ h1 (by omega)
      rcases hlt' with h | ⟨-, h | ⟨-, h | ⟨h, h'⟩⟩⟩
      · omega
      · omega
      · omega
      · rw [hsp, tail_low hpc hsp hl hok hk' hh h] at h'; cases h'
    · -- no domain left
      rw [a3, jump_lt hk' hk.group (by simp)] at hlt'
      have := a2 _ h2
      rcases hc with h | ⟨h, h' | ⟨h', h''⟩⟩
      · rcases hlt' with l | ⟨l, -⟩
        · omega
        · rw [l] at h; omega
      · omega
      · rw [h'] at this; omega
    · -- another domain
      rw [a3, jump_lt hk' hk.group (lbd dv), beNat_be (by decide), n0_small hl] at hlt'
      rcases hc with h | ⟨h, h'⟩
      · rcases hlt' with l | ⟨l, -⟩
        · omega
        · rw [l] at h; omega
      · have dle : beNat t.domain ≤ beNat t'.domain := by
          rcases h' with h' | ⟨h', -⟩
          · omega
          · rw [h']; exact Nat.le_refl _
        have := a2 _ h2 (by omega)
        rcases hlt' with l | ⟨-, l | ⟨-, l | ⟨l, l'⟩⟩⟩
        · rw [h] at l; omega
        · omega
        · omega
        · rw [hsp, tail_low hpc hsp hl hok hk' hh l] at l'; cases l'
    · -- depth or prefix
      rw [a3, jump_lt hk' hk.group hk.domain] at hlt'
      have sg : t.group = t'.group := by
        rcases hc with h | ⟨h, -⟩
        · rcases hlt' with l | ⟨l, -⟩
          · omega
          · exact l.symm
        · exact h
      have sd : t.domain = t'.domain := by
        rcases hc with h | ⟨-, h | ⟨h, -⟩⟩
        · rw [sg] at h; omega
        · rcases hlt' with l | ⟨-, l | ⟨l, -⟩⟩
          · rw [sg] at l; omega
          · omega
          · exact l.symm
        · exact h
      have hnle : t.space.length ≤ t'.space.length := by
        rcases hc with h | ⟨-, h | ⟨-, h | ⟨h, -⟩⟩⟩
        · rw [sg] at h; omega
        · rw [sd] at h; omega
        · omega
        · omega
      cases hd : BitSet.has q.depth t.space.length with
      | false =>
        have := H1 k t kk hk a0 a1 hd _ h4
        omega
      | true =>
        rcases a2 with a2 | a2
        · rw [hd] at a2; cases a2
        · exact H2 k k' t t' kk kk' hk hk' a0 a1 hlt sg sd hd a2 hh
    · -- another key
      have h8 := hk.depth
      have hnn : (UInt8.ofNat t.space.length).toNat = t.space.length := by simp; omega
      rw [a3, jump_lt hk' hk.group hk.domain, hnn] at hlt'
      have : ∃ hs : t.space = t'.space, bytesLt t.pubkey t'.pubkey = true ∧ bytesLt t'.pubkey (be kv) = true := by
        rcases hc with h | ⟨h, h' | ⟨h', h'' | ⟨h'', h3'⟩⟩⟩
        · rcases hlt' with l | ⟨l, -⟩
          · omega
          · rw [l] at h; omega
        · rcases hlt' with l | ⟨-, l | ⟨l, -⟩⟩
          · rw [h] at l; omega
          · omega
          · rw [l] at h'; omega
        · rcases hlt' with l | ⟨-, l | ⟨-, l | ⟨l, -⟩⟩⟩
          · rw [h] at l; omega
          · rw [h'] at l; omega
          · omega
          · omega
        · rcases hlt' with l | ⟨-, l | ⟨-, l | ⟨-, l'⟩⟩⟩
          · rw [h] at l; omega
          · rw [h'] at l; omega
          · omega
          · rw [bytesLt_enc _ _ hk.space.comps hk'.space.comps h'', Bool.or_eq_true, Bool.and_eq_true, decide_eq_true_iff] at h3'
            rw [bytesLt_enc _ _ hk'.space.comps hk.space.comps h''.symm, Bool.or_eq_true, Bool.and_eq_true, decide_eq_true_iff] at l'
            rcases h3' with x | ⟨x, x'⟩
            · rcases l' with y | ⟨y, y'⟩
              · rw [bytesLt_asymm x] at y; cases y
              · rw [y, bytesLt_irrefl] at x; cases x
            · rcases l' with y | ⟨y, y'⟩
              · rw [x, bytesLt_irrefl] at y; cases y
              · exact ⟨x, x', y'⟩
      obtain ⟨-, p1, p2⟩ := this
      rw [bytesLt_beNat (hk.pubkey.trans hk'.pubkey.symm)] at p1
      rw [bytesLt_be (by decide) kv hk'.pubkey] at p2
      have := a2 _ h3 (by omega)
      omega
    · -- no key left
      have h8 := hk.depth
      have hnn : (UInt8.ofNat t.space.length).toNat = t.space.length := by simp; omega
      rw [a3, jump_lt hk' hk.group hk.domain, hnn] at hlt'
      have : beNat t.pubkey ≤ beNat t'.pubkey := by
        rcases hc with h | ⟨h, h' | ⟨h', h'' | ⟨h'', h3'⟩⟩⟩
        · rcases hlt' with l | ⟨l, -⟩
          · omega
          · rw [l] at h; omega
        · rcases hlt' with l | ⟨-, l | ⟨l, -⟩⟩
          · rw [h] at l; omega
          · omega
          · rw [l] at h'; omega
        · rcases hlt' with l | ⟨-, l | ⟨-, l | ⟨l, -⟩⟩⟩
          · rw [h] at l; omega
          · rw [h'] at l; omega
          · omega
          · omega
        · rcases hlt' with l | ⟨-, l | ⟨-, l | ⟨-, l'⟩⟩⟩
          · rw [h] at l; omega
          · rw [h'] at l; omega
          · omega
          · rw [bytesLt_enc _ _ hk.space.comps hk'.space.comps h'', Bool.or_eq_true, Bool.and_eq_true, decide_eq_true_iff] at h3'
            rw [bytesLt_enc _ _ hk'.space.comps hk.space.comps h''.symm, Bool.or_eq_true, Bool.and_eq_true, decide_eq_true_iff] at l'
            rcases h3' with x | ⟨x, x'⟩
            · rcases l' with y | ⟨y, y'⟩
              · rw [bytesLt_asymm x] at y; cases y
              · rw [y, bytesLt_irrefl] at x; cases x
            · exact Nat.le_of_lt ((bytesLt_beNat (hk.pubkey.trans hk'.pubkey.symm)).1 x')
      have h6 := a2 _ h3
      omega

/-- Jumps go forward, unless a stored key is the last one and not asked for. -/
theorem moves_of (hq : q.Live) (hpc : IsSpace (encodeSpace pc) pc) (hsp : spaceOf q.rspace = encodeSpace pc)
    (hK : ∀ k, K k → ∃ t, KeyOf k t) (hff : q.pubkey.Mem (num 256 (List.replicate 32 255)) ∨ ∀ k t, K k → KeyOf k t → t.pubkey ≠ List.replicate 32 255) :
    Moves q (be g0 ++ be d0 ++ [UInt8.ofNat n0] ++ (spaceOf q.rspace ++ be k0)) K := by
  intro k b kk hb
  obtain ⟨t, hk⟩ := hK k kk
  have lbe : ∀ v : BitVec 256, (be v).length = 32 := fun v => be_length v
  have lbd : ∀ v : BitVec 128, (be v).length = 16 := fun v => be_length v
  have hlook := (look_jump (lb := be g0 ++ be d0 ++ [UInt8.ofNat n0] ++ (spaceOf q.rspace ++ be k0)) (D0 := be d0)
    (R := spaceOf q.rspace ++ be k0) (x0 := UInt8.ofNat n0) hq hpc hsp
    (by
      simp only [List.append_assoc]
      rw [List.drop_append_of_le_length (by rw [lbe]; omega), List.drop_of_length_le (by rw [lbe]; omega), List.nil_append])
    (by
      have : (be g0 ++ be d0 ++ [UInt8.ofNat n0] ++ (spaceOf q.rspace ++ be k0)) =
        (be g0 ++ be d0) ++ ([UInt8.ofNat n0] ++ (spaceOf q.rspace ++ be k0)) := by simp
      rw [this, List.drop_append_of_le_length (by simp [lbe, lbd]), List.drop_of_length_le (by simp [lbe, lbd]), List.nil_append])
    (by rw [List.drop_append_of_le_length (by simp [lbe, lbd]), List.drop_of_length_le (by simp [lbe, lbd]), List.nil_append])
    (by rw [hsp]; simp [lbe, lbd]; omega) hk).2 b hb
  have h8 := hk.depth
  have hnn : (UInt8.ofNat t.space.length).toNat = t.space.length := by simp; omega
  rcases hlook with ⟨gv, a1, a2, a3⟩ | ⟨a2, a3⟩ | ⟨dv, a1, a2, a3⟩ | ⟨-, -, a2, x, a4, a3, -⟩ | ⟨a0, ⟨kv, a1, a2, a3⟩ | ⟨a2, a3⟩⟩
  · rw [a3, jump_lt hk (lbe gv) (lbd d0), beNat_be (by decide)]; exact .inl a1
  · rw [a3, jump_lt hk hk.group (by simp)]
    right
    refine ⟨rfl, ?_⟩
    have hb := beNat_lt t.domain
    rw [hk.domain] at hb
    have hff : beNat (List.replicate 16 255) = 256 ^ 16 - 1 := by decide
    rcases Nat.lt_or_ge (beNat t.domain) (256 ^ 16 - 1) with h | h
    · left; rw [hff]; exact h
    · right
      have : beNat t.domain = beNat (List.replicate 16 255) := by rw [hff]; omega
      refine ⟨beNat_inj (by simp [hk.domain]) this, .inl ?_⟩
      show t.space.length < 255
      omega
  · rw [a3, jump_lt hk hk.group (lbd dv), beNat_be (by decide)]; exact .inr ⟨rfl, .inl a1⟩
  · rw [a3, jump_lt hk hk.group hk.domain]; exact .inr ⟨rfl, .inr ⟨rfl, .inl a4⟩⟩
  · rw [a3, jump_lt hk hk.group hk.domain, hnn, bytesLt_append_left, bytesLt_be (by decide) kv hk.pubkey]
    exact .inr ⟨rfl, .inr ⟨rfl, .inr ⟨rfl, a1⟩⟩⟩
  · rw [a3, jump_lt hk hk.group hk.domain, hnn, bytesLt_append_left, bytesLt_beNat (by simp [hk.pubkey])]
    refine .inr ⟨rfl, .inr ⟨rfl, .inr ⟨rfl, ?_⟩⟩⟩
    have hb := beNat_lt t.pubkey
    rw [hk.pubkey] at hb
    have hff' : beNat (List.replicate 32 255) = 256 ^ 32 - 1 := by decide
    rw [hff']
    apply Classical.byContradiction
    intro hge
    have he : beNat t.pubkey = beNat (List.replicate 32 255) := by rw [hff']; omega
    have he := beNat_inj (by simp [hk.pubkey]) he
    rcases hff with h | h
    · rw [← he] at h; exact a0 h
    · exact h k t kk hk he

end

end Verif.Query
