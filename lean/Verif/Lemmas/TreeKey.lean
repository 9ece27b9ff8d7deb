import Verif.Model.TreeKey
import Verif.Spec.TreeKey
import Verif.Lemmas.Bytes
import Verif.Lemmas.Rooted
namespace Verif.Tree
open Verif Verif.Pkt Verif.Spec Verif.Space

theorem bytesBefore_iff (a b : Bytes) : BytesBefore a b ↔ bytesLt a b = true := by
  constructor
  · rintro (⟨x, t, rfl⟩ | ⟨p, x, y, s, t, rfl, rfl, h⟩)
    · have := bytesLt_append_left a [] (x :: t)
      simpa [bytesLt] using this
    · rw [bytesLt_append_left]
      have : x.toNat < y.toNat := h
      simp [bytesLt, this]
  · induction a generalizing b with
    | nil =>
      cases b with
      | nil => simp [bytesLt]
      | cons y b => intro _; exact .inl ⟨y, b, rfl⟩
    | cons x a ih =>
      cases b with
      | nil => simp [bytesLt]
      | cons y b =>
        intro h
        simp only [bytesLt] at h
        split at h
        · rename_i hxy
          exact .inr ⟨[], x, y, a, b, rfl, rfl, hxy⟩
        · split at h
          · cases h
          · have hxy : x = y := UInt8.toNat_inj.1 (by omega)
            subst hxy
            rcases ih b h with ⟨z, t, rfl⟩ | ⟨p, u, v, s, t, rfl, rfl, huv⟩
            · exact .inl ⟨z, t, rfl⟩
            · exact .inr ⟨x :: p, u, v, s, t, rfl, rfl, huv⟩

/-- encodings of as many components differ before either ends -/
theorem bytesLt_enc (a b : List Bytes) (ha : ValidComps a) (hb : ValidComps b) (hl : a.length = b.length) (x y : Bytes) :
    bytesLt (encodeSpace a ++ x) (encodeSpace b ++ y) =
      (bytesLt (encodeSpace a) (encodeSpace b) || (decide (a = b) && bytesLt x y)) := by
  induction a generalizing b with
  | nil =>
    cases b with
    | nil => simp [bytesLt]
    | cons => simp at hl
  | cons c a ih =>
    cases b with
    | nil => simp at hl
    | cons d b =>
      rw [ValidComps.cons_iff] at ha hb
      have ih := ih b ha.2 hb.2 (by simpa using hl)
      rw [encodeSpace_cons, encodeSpace_cons]
      by_cases hcd : c.length = d.length
      · have e1 : UInt8.ofNat c.length :: (c ++ encodeSpace a) = (UInt8.ofNat c.length :: c) ++ encodeSpace a := rfl
        have e2 : UInt8.ofNat d.length :: (d ++ encodeSpace b) = (UInt8.ofNat d.length :: d) ++ encodeSpace b := rfl
        rw [e1, e2, List.append_assoc, List.append_assoc, bytesLt_append _ _ _ _ (by simp [hcd]),
          bytesLt_append _ _ (encodeSpace a) (encodeSpace b) (by simp [hcd]), ih]
        have e3 : (UInt8.ofNat c.length :: c = UInt8.ofNat d.length :: d) ↔ c = d := by
          constructor
          · intro h; exact (List.cons.inj h).2
          · rintro rfl; rfl
        by_cases hc : c = d
        · subst hc; simp [Bool.or_assoc]
        · simp [e3, hc]
      · have h1 := ofNat_len ha.1.2
        have h2 := ofNat_len hb.1.2
        have hne : ¬ (c :: a = d :: b) := by
          intro h; exact hcd (by rw [(List.cons.inj h).1])
        simp only [List.cons_append, bytesLt, h1, h2, hne, decide_false, Bool.false_and, Bool.or_false]
        by_cases hlt : c.length < d.length
        · simp [hlt]
        · have : d.length < c.length := by omega
          simp [hlt, this]

theorem enc_append_eq (a b : List Bytes) (ha : ValidComps a) (hb : ValidComps b) {x y : Bytes} (hxy : x.length = y.length)
    (h : encodeSpace a ++ x = encodeSpace b ++ y) : a = b ∧ x = y := by
  have hl : (encodeSpace a).length = (encodeSpace b).length := by
    have := congrArg List.length h; simp at this; omega
  have := List.append_inj h hl
  exact ⟨encode_inj ha hb this.1, this.2⟩

theorem wellRooted_headD {r : Bytes} {cs : List Bytes} (h : WellRooted r cs) : (r.headD 0).toNat = cs.length := by
  have h8 := h.depth
  have e : (UInt8.ofNat cs.length).toNat = cs.length := by simp; omega
  rcases h.form with rfl | rfl
  · unfold rootedOf
    split
    · rename_i h0; subst h0; rfl
    · rw [Rooted.rootedWith_head, e]
  · rw [Rooted.rootedWith_head, e]

theorem wellRooted_space {r : Bytes} {cs : List Bytes} (h : WellRooted r cs) : spaceOf r = encodeSpace cs := by
  rcases h.form with rfl | rfl
  · unfold rootedOf
    split
    · rename_i h0; subst h0; rfl
    · exact Rooted.rootedWith_drop8 _ _
  · exact Rooted.rootedWith_drop8 _ _

/-- what the entry of a point with a tuple is -/
theorem fromPkt_of_tuple {p : NetParts} {t : TreeTuple} (h : HasTuple p t) (l : Nat) :
    ∃ d : UInt8, d.toNat = t.space.length ∧ t.group.length = 32 ∧ t.domain.length = 16 ∧ t.pubkey.length = 32 ∧
      ValidComps t.space ∧ t.create < 2 ^ 64 ∧ t.hash.length = 32 ∧ t.hash = p.hash ∧ p.getCreate = t.create ∧
      TreeEntry.fromPkt l p = some ⟨t.group ++ t.domain ++ [d] ++ encodeSpace t.space ++ t.pubkey,
        (TreeValue.fromPkt l p).bytes⟩ := by
  obtain ⟨c, hw, hg, hd, hc, hh, hk⟩ := h
  refine ⟨c.rspace.headD 0, wellRooted_headD hw, ?_⟩
  have hs := wellRooted_space hw
  have key : ∀ content : Content, IsPacket p content → (content = .link c ∨ ∃ pk s, content = .key c pk s) → c.Sized := by
    intro content hp hcase
    rcases hcase with rfl | ⟨pk, s, rfl⟩
    · exact hp.valid.2
    · exact hp.valid.2.1
  rcases hk with ⟨hp, hpk⟩ | ⟨sig, hp⟩
  · have hz := key _ hp (.inl rfl)
    refine ⟨by rw [hg]; exact hz.group, by rw [hd]; exact hz.domain, by rw [hpk]; simp, hw.space.comps,
      by rw [hc]; exact hz.stamp, by rw [hh]; exact hp.hash, hh, ?_, ?_⟩
    · simp [NetParts.getCreate, hp.parts, Content.parts, Content.fields, Fields.head?, hc]
    · simp [TreeEntry.fromPkt, hp.parts, Content.parts, Content.fields, Fields.commonIdx, keyOfFields, hg, hd, hpk, hs, zeros]
  · have hz := key _ hp (.inr ⟨_, _, rfl⟩)
    refine ⟨by rw [hg]; exact hz.group, by rw [hd]; exact hz.domain, hp.valid.2.2.1, hw.space.comps,
      by rw [hc]; exact hz.stamp, by rw [hh]; exact hp.hash, hh, ?_, ?_⟩
    · simp [NetParts.getCreate, hp.parts, Content.parts, Content.fields, Fields.head?, hc]
    · simp [TreeEntry.fromPkt, hp.parts, Content.parts, Content.fields, Fields.commonIdx, keyOfFields, hg, hd, hs]

theorem key_lt {g1 g2 d1 d2 s1 s2 k1 k2 : Bytes} {x y : UInt8} (hg : g1.length = g2.length) (hd : d1.length = d2.length) :
    bytesLt (g1 ++ d1 ++ [x] ++ s1 ++ k1) (g2 ++ d2 ++ [y] ++ s2 ++ k2) =
      (bytesLt g1 g2 || (decide (g1 = g2) && (bytesLt d1 d2 || (decide (d1 = d2) && (decide (x.toNat < y.toNat) ||
        (decide (x = y) && bytesLt (s1 ++ k1) (s2 ++ k2))))))) := by
  simp only [List.append_assoc]
  rw [bytesLt_append _ _ _ _ hg, bytesLt_append _ _ _ _ hd, bytesLt_append [x] [y] _ _ rfl]
  have e1 : bytesLt [x] [y] = decide (x.toNat < y.toNat) := by
    simp [bytesLt]
  rw [e1]
  have e2 : ([x] = [y]) ↔ x = y := by simp
  simp only [e2]

theorem value_ofBytes (v : TreeValue) (h1 : v.create < 2 ^ 64) (h2 : v.hash.length = 32) (h3 : v.logptr < 2 ^ 64)
    (h4 : v.linksLen < 65536) (h5 : v.dataSize < 65536) : TreeValue.ofBytes v.bytes = v := by
  have e : ∀ (a b : Bytes), a.length = 8 → (a ++ b).take 8 = a := by
    intro a b h; rw [List.take_append_of_le_length (by omega), List.take_of_length_le (by omega)]
  obtain ⟨c, hsh, l, n, s⟩ := v
  simp only at *
  have b8 : ∀ n, (beBytes 8 n).length = 8 := fun n => by simp
  have b2 : ∀ n, (beBytes 2 n).length = 2 := fun n => by simp
  simp only [TreeValue.ofBytes, TreeValue.bytes]
  congr 1
  · rw [List.append_assoc, List.append_assoc, List.append_assoc, e _ _ (b8 _), beNat_beBytes _ _ (by simpa using h1)]
  · rw [List.append_assoc, List.append_assoc, take_drop_mid _ _ _ (b8 _) h2]
  · rw [List.append_assoc, take_drop_mid _ _ _ (by simp [h2]) (b8 _), beNat_beBytes _ _ (by simpa using h3)]
  · rw [take_drop_mid _ _ _ (by simp [h2]) (b2 _), beNat_beBytes _ _ (by simpa using h4)]
  · have := take_drop_mid (beBytes 8 c ++ hsh ++ beBytes 8 l ++ beBytes 2 n) (beBytes 2 s) [] (a := 50) (n := 2) (by simp [h2]) (b2 _)
    rw [List.append_nil] at this
    rw [this, beNat_beBytes _ _ (by simpa using h5)]

end Verif.Tree
