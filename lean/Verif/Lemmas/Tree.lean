import Verif.Lemmas.Query3
/-!
# Walking the tree table
-/
namespace Verif.Query
open Verif Verif.Pkt Verif.Tree Verif.Pred Verif.Env Verif.Spec Verif.Props

/-! ### keys -/

/-- The key of a tuple. -/
structure KeyOf (k : Bytes) (t : TreeTuple) : Prop where
  form : k = t.group ++ t.domain ++ [UInt8.ofNat t.space.length] ++ encodeSpace t.space ++ t.pubkey
  group : t.group.length = 32
  domain : t.domain.length = 16
  pubkey : t.pubkey.length = 32
  space : IsSpace (encodeSpace t.space) t.space
  depth : t.space.length ≤ 8

theorem KeyOf.length {k : Bytes} {t : TreeTuple} (h : KeyOf k t) : k.length = 49 + (encodeSpace t.space).length + 32 := by
  rw [h.form]; simp [h.group, h.domain, h.pubkey]; omega
theorem KeyOf.keyGroup {k : Bytes} {t : TreeTuple} (h : KeyOf k t) : Tree.keyGroup k = t.group := by
  unfold Tree.keyGroup
  rw [h.form]; simp only [List.append_assoc]
  rw [List.take_append_of_le_length (by rw [h.group]; omega), List.take_of_length_le (by rw [h.group]; omega)]
theorem KeyOf.keyDomain {k : Bytes} {t : TreeTuple} (h : KeyOf k t) : Tree.keyDomain k = t.domain := by
  unfold Tree.keyDomain
  rw [h.form]; simp only [List.append_assoc]
  rw [List.drop_append_of_le_length (by rw [h.group]; omega), List.drop_of_length_le (by rw [h.group]; omega), List.nil_append,
    List.take_append_of_le_length (by rw [h.domain]; omega), List.take_of_length_le (by rw [h.domain]; omega)]
theorem KeyOf.keyDepth {k : Bytes} {t : TreeTuple} (h : KeyOf k t) : (Tree.keyDepth k).toNat = t.space.length := by
  unfold Tree.keyDepth
  have e : k = (t.group ++ t.domain) ++ ([UInt8.ofNat t.space.length] ++ encodeSpace t.space ++ t.pubkey) := by rw [h.form]; simp
  have hl : (t.group ++ t.domain).length = 48 := by simp [h.group, h.domain]
  rw [e, List.drop_append_of_le_length (by omega), List.drop_of_length_le (by omega)]
  have := h.depth
  simp; omega
theorem KeyOf.keyPubkey {k : Bytes} {t : TreeTuple} (h : KeyOf k t) : Tree.keyPubkey k = t.pubkey := by
  unfold Tree.keyPubkey
  have hl := h.length
  have hp := h.pubkey
  have e := h.form
  obtain ⟨x, hx⟩ : ∃ x, x = t.group ++ t.domain ++ [UInt8.ofNat t.space.length] ++ encodeSpace t.space := ⟨_, rfl⟩
  rw [← hx] at e
  have hxl : x.length = k.length - 32 := by rw [e]; simp [hp]
  rw [← hxl, e, List.drop_append_of_le_length (by omega), List.drop_of_length_le (by omega), List.nil_append]
theorem KeyOf.keySpace {k : Bytes} {t : TreeTuple} (h : KeyOf k t) : Tree.keySpace k = encodeSpace t.space := by
  unfold Tree.keySpace
  have hp := h.pubkey
  have e := h.form
  obtain ⟨y, hy⟩ : ∃ y, y = t.group ++ t.domain ++ [UInt8.ofNat t.space.length] := ⟨_, rfl⟩
  rw [← hy] at e
  have hyl : y.length = 49 := by rw [hy]; simp [h.group, h.domain]
  have hxl : (y ++ encodeSpace t.space).length = k.length - 32 := by rw [e]; simp [hp]; omega
  rw [← hxl, e, List.take_append_of_le_length (by omega), List.take_of_length_le (by omega),
    List.drop_append_of_le_length (by omega), List.drop_of_length_le (by omega), List.nil_append]

/-- Every key of the tree is the key of its points. -/
theorem keyOf_pkt {p : NetParts} {t : TreeTuple} (h : HasTuple p t) {i : Nat} {e : TreeEntry} (he : TreeEntry.fromPkt i p = some e) :
    KeyOf e.key t := by
  obtain ⟨d, hd, h1, h2, h3, h4, -, -, -, -, hf⟩ := fromPkt_of_tuple h i
  rw [he] at hf; cases hf
  obtain ⟨c, hw, -⟩ := h
  refine ⟨?_, h1, h2, h3, hw.space, hw.depth⟩
  simp only
  rw [← hd]; simp

/-- The order of keys is that of their parts; in front of `k ++ [255]` there is nothing new after `k`. -/
theorem keyOf_lt {k k' : Bytes} {t t' : TreeTuple} (h : KeyOf k t) (h' : KeyOf k' t') (z z' : Bytes) :
    bytesLt (k ++ z) (k' ++ z') = true ↔ bytesLt t.group t'.group = true ∨ (t.group = t'.group ∧
      (bytesLt t.domain t'.domain = true ∨ (t.domain = t'.domain ∧ (t.space.length < t'.space.length ∨
        (t.space.length = t'.space.length ∧ (bytesLt (encodeSpace t.space) (encodeSpace t'.space) = true ∨ (t.space = t'.space ∧
          (bytesLt t.pubkey t'.pubkey = true ∨ (t.pubkey = t'.pubkey ∧ bytesLt z z' = true))))))))) := by
  have e := h.form
  have e' := h'.form
  have k1 : k ++ z = t.group ++ t.domain ++ [UInt8.ofNat t.space.length] ++ encodeSpace t.space ++ (t.pubkey ++ z) := by rw [e]; simp
  have k2 : k' ++ z' = t'.group ++ t'.domain ++ [UInt8.ofNat t'.space.length] ++ encodeSpace t'.space ++ (t'.pubkey ++ z') := by rw [e']; simp
  have l1 := h.depth
  have l2 := h'.depth
  have n1 : (UInt8.ofNat t.space.length).toNat = t.space.length := by simp; omega
  have n2 : (UInt8.ofNat t'.space.length).toNat = t'.space.length := by simp; omega
  have n3 : UInt8.ofNat t.space.length = UInt8.ofNat t'.space.length ↔ t.space.length = t'.space.length :=
    ⟨fun hh => by rw [← n1, ← n2, hh], fun hh => by rw [hh]⟩
  rw [k1, k2, key_lt (h.group.trans h'.group.symm) (h.domain.trans h'.domain.symm), n1, n2]
  simp only [Bool.or_eq_true, Bool.and_eq_true, decide_eq_true_eq, n3]
  have key : t.space.length = t'.space.length → (bytesLt (encodeSpace t.space ++ (t.pubkey ++ z)) (encodeSpace t'.space ++ (t'.pubkey ++ z')) = true ↔
      (bytesLt (encodeSpace t.space) (encodeSpace t'.space) = true ∨ (t.space = t'.space ∧
          (bytesLt t.pubkey t'.pubkey = true ∨ (t.pubkey = t'.pubkey ∧ bytesLt z z' = true))))) := by
    intro hl
    rw [bytesLt_enc _ _ h.space.comps h'.space.comps hl, bytesLt_append _ _ _ _ (h.pubkey.trans h'.pubkey.symm)]
    simp only [Bool.or_eq_true, Bool.and_eq_true, decide_eq_true_eq]
  constructor
  · rintro (h1 | ⟨h1, h2 | ⟨h2, h3 | ⟨h3, h4⟩⟩⟩)
    · exact .inl h1
    · exact .inr ⟨h1, .inl h2⟩
    · exact .inr ⟨h1, .inr ⟨h2, .inl h3⟩⟩
    · exact .inr ⟨h1, .inr ⟨h2, .inr ⟨h3, (key h3).1 h4⟩⟩⟩
  · rintro (h1 | ⟨h1, h2 | ⟨h2, h3 | ⟨h3, h4⟩⟩⟩)
    · exact .inl h1
    · exact .inr ⟨h1, .inl h2⟩
    · exact .inr ⟨h1, .inr ⟨h2, .inl h3⟩⟩
    · exact .inr ⟨h1, .inr ⟨h2, .inr ⟨h3, (key h3).2 h4⟩⟩⟩

theorem keyOf_gap {k k' : Bytes} {t t' : TreeTuple} (h : KeyOf k t) (h' : KeyOf k' t') (hlt : bytesLt k k' = true)
    (hlt' : bytesLt k' (k ++ [255]) = true) : False := by
  have h1 : bytesLt (k ++ []) (k' ++ []) = true := by simpa using hlt
  have h2 : bytesLt (k' ++ []) (k ++ [255]) = true := by simpa using hlt'
  rw [keyOf_lt h h'] at h1
  rw [keyOf_lt h' h] at h2
  have asym : ∀ {a b : Bytes}, bytesLt a b = true → bytesLt b a = true → False := by
    intro a b x y; rw [bytesLt_asymm x] at y; cases y
  have ne : ∀ {a b : Bytes}, bytesLt a b = true → a = b → False := fun x y => bytesLt_ne x y
  rcases h1 with a1 | ⟨a1, b1⟩
  · rcases h2 with a2 | ⟨a2, b2⟩
    · exact asym a1 a2
    · exact ne a1 a2.symm
  · rcases h2 with a2 | ⟨a2, b2⟩
    · exact ne a2 a1.symm
    · rcases b1 with b1 | ⟨b1, c1⟩
      · rcases b2 with b2 | ⟨b2, c2⟩
        · exact asym b1 b2
        · exact ne b1 b2.symm
      · rcases b2 with b2 | ⟨b2, c2⟩
        · exact ne b2 b1.symm
        · rcases c1 with c1 | ⟨c1, d1⟩
          · rcases c2 with c2 | ⟨c2, d2⟩ <;> omega
          · rcases c2 with c2 | ⟨c2, d2⟩
            · omega
            · rcases d1 with d1 | ⟨d1, e1⟩
              · rcases d2 with d2 | ⟨d2, e2⟩
                · exact asym d1 d2
                · rw [d2] at d1; exact ne d1 rfl
              · rcases d2 with d2 | ⟨d2, e2⟩
                · rw [d1] at d2; exact ne d2 rfl
                · rcases e1 with e1 | ⟨e1, f1⟩
                  · rcases e2 with e2 | ⟨e2, f2⟩
                    · exact asym e1 e2
                    · exact ne e1 e2.symm
                  · cases f1

/-! ### looking at a key -/

/-- The sets of the keys have members, as in every accepted query. -/
structure TreeKeys.Live (q : TreeKeys) : Prop where
  group : ∃ x, q.group.Mem x
  domain : ∃ x, q.domain.Mem x
  pubkey : ∃ x, q.pubkey.Mem x

/-- The key is one the query asks for. -/
def Hit (q : TreeKeys) (k : Bytes) : Prop :=
  q.group.Mem (num 256 (keyGroup k)) ∧ q.domain.Mem (num 128 (keyDomain k)) ∧ q.pubkey.Mem (num 256 (keyPubkey k)) ∧
    BitSet.has q.depth (keyDepth k).toNat = true ∧ Space.startsWith (keySpace k) (spaceOf q.rspace) = true

theorem look_cases {q : TreeKeys} (hq : q.Live) (lb k : Bytes) :
    (look q lb k = .ok .here ∧ Hit q k) ∨ (¬ Hit q k ∧ (look q lb k = .ok .over ∨ ∃ b, look q lb k = .ok (.jump b))) := by
  obtain ⟨g, hg1, hg2, hg3⟩ := info_eq (by decide) (by decide) true q.group hq.group (num 256 (keyGroup k))
  obtain ⟨d, hd1, hd2, hd3⟩ := info_eq (by decide) (by decide) true q.domain hq.domain (num 128 (keyDomain k))
  obtain ⟨p, hp1, hp2, hp3⟩ := info_eq (by decide) (by decide) true q.pubkey hq.pubkey (num 256 (keyPubkey k))
  unfold look
  rw [hg1, hd1, hp1]
  simp only
  by_cases hh : (p.inSet && (BitSet.info q.depth (keyDepth k).toNat).inSet && Space.startsWith (keySpace k) (spaceOf q.rspace) && d.inSet &&
    g.inSet) = true
  · left
    rw [if_pos hh]
    simp only [Bool.and_eq_true] at hh
    exact ⟨rfl, hg3.1 hh.2, hd3.1 hh.1.2, hp3.1 hh.1.1.1.1, hh.1.1.1.2, hh.1.1.2⟩
  · right
    rw [if_neg hh]
    refine ⟨?_, ?_⟩
    · rintro ⟨h1, h2, h3, h4, h5⟩
      apply hh
      simp only [Bool.and_eq_true]
      exact ⟨⟨⟨⟨hp3.2 h3, h4⟩, h5⟩, hd3.2 h2⟩, hg3.2 h1⟩
    · cases hgv : g.val with
      | none => exact .inl rfl
      | some gv => exact .inr ⟨_, rfl⟩

end Verif.Query
