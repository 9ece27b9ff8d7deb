import Verif.Lemmas.TreeKey
import Verif.Props.Packet
/-!
# C14: tree order is the documented tuple order
-/
namespace Verif.Props
open Verif Verif.Pkt Verif.Spec Verif.Tree Verif.Space

/-- Comparing keys as byte strings orders points by (group, domain, depth, space, pubkey). -/
theorem tree_key_order {p q : NetParts} {a b : TreeTuple} (hp : HasTuple p a) (hq : HasTuple q b) (l m : Nat) :
    ∃ e f, TreeEntry.fromPkt l p = some e ∧ TreeEntry.fromPkt m q = some f ∧
      (BytesBefore e.key f.key ↔ a.KeyLt b) ∧ (e.key = f.key ↔ a.KeyEq b) := by
  obtain ⟨x, hx, hg, hd, hk, hv, -, -, -, -, he⟩ := fromPkt_of_tuple hp l
  obtain ⟨y, hy, hg', hd', hk', hv', -, -, -, -, hf⟩ := fromPkt_of_tuple hq m
  refine ⟨_, _, he, hf, ?_, ?_⟩
  · rw [bytesBefore_iff, key_lt (hg.trans hg'.symm) (hd.trans hd'.symm)]
    simp only [TreeTuple.KeyLt, LexLt, bytesBefore_iff, hx, hy]
    have hxy : x = y ↔ a.space.length = b.space.length := by
      rw [← hx, ← hy]; exact UInt8.toNat_inj.symm
    by_cases hl : a.space.length = b.space.length
    · rw [bytesLt_enc _ _ hv hv' hl]
      simp [hxy, hl]
    · simp [hxy, hl]
  · constructor
    · intro h
      have h1 := congrArg (List.take 32) h
      simp only [List.append_assoc] at h
      obtain ⟨e1, h⟩ := List.append_inj h (hg.trans hg'.symm)
      obtain ⟨e2, h⟩ := List.append_inj h (hd.trans hd'.symm)
      obtain ⟨e3, h⟩ := List.append_inj h rfl
      obtain ⟨e4, e5⟩ := enc_append_eq _ _ hv hv' (hk.trans hk'.symm) h
      exact ⟨e1, e2, e4, e5⟩
    · rintro ⟨e1, e2, e3, e4⟩
      have : x = y := UInt8.toNat_inj.1 (by rw [hx, hy, e3])
      rw [e1, e2, e3, e4, this]

/-- Entries are ordered by create stamp, then hash, whatever their log positions and sizes. -/
theorem tree_value_order {p q : NetParts} {a b : TreeTuple} (hp : HasTuple p a) (hq : HasTuple q b) (l m : Nat)
    (hne : a.hash ≠ b.hash) :
    ∃ e f, TreeEntry.fromPkt l p = some e ∧ TreeEntry.fromPkt m q = some f ∧ (BytesBefore e.val f.val ↔ a.ValLt b) := by
  obtain ⟨x, -, -, -, -, -, hc, hh, hph, hpc, he⟩ := fromPkt_of_tuple hp l
  obtain ⟨y, -, -, -, -, -, hc', hh', hqh, hqc, hf⟩ := fromPkt_of_tuple hq m
  refine ⟨_, _, he, hf, ?_⟩
  rw [bytesBefore_iff]
  simp only [TreeValue.fromPkt, TreeValue.bytes, List.append_assoc]
  rw [bytesLt_append _ _ _ _ (by simp), bytesLt_append _ _ _ _ (by rw [← hph, ← hqh, hh, hh'])]
  simp only [TreeTuple.ValLt, LexLt, bytesBefore_iff, hpc, hqc, ← hph, ← hqh]
  have e : beBytes 8 a.create = beBytes 8 b.create ↔ a.create = b.create := by
    constructor
    · intro h
      have := congrArg beNat h
      rwa [beNat_beBytes _ _ (by simpa using hc), beNat_beBytes _ _ (by simpa using hc')] at this
    · intro h; rw [h]
  have e1 := bytesLt_beBytes (k := 8) (m := a.create) (n := b.create) (by simpa using hc) (by simpa using hc')
  simp [e, e1, hne]

/-- The fields are recovered from the key and the value. -/
theorem tree_entry_fields {p : NetParts} {a : TreeTuple} (hp : HasTuple p a) (l : Nat) (hl : l < 2 ^ 64) :
    ∃ e, TreeEntry.fromPkt l p = some e ∧ keyGroup e.key = a.group ∧ keyDomain e.key = a.domain ∧
      (keyDepth e.key).toNat = a.space.length ∧ keySpace e.key = encodeSpace a.space ∧ keyPubkey e.key = a.pubkey ∧
      (TreeValue.ofBytes e.val).create = a.create ∧ (TreeValue.ofBytes e.val).hash = a.hash ∧
      (TreeValue.ofBytes e.val).logptr = l ∧ (TreeValue.ofBytes e.val).linksLen = p.getLinks.length % 65536 ∧
      (TreeValue.ofBytes e.val).dataSize = p.data.length % 65536 := by
  obtain ⟨x, hx, hg, hd, hk, hv, hc, hh, hph, hpc, he⟩ := fromPkt_of_tuple hp l
  have hv : TreeValue.ofBytes (TreeValue.fromPkt l p).bytes = TreeValue.fromPkt l p :=
    value_ofBytes _ (by simpa [TreeValue.fromPkt, hpc] using hc) (by simpa [TreeValue.fromPkt, ← hph] using hh) hl
      (Nat.mod_lt _ (by omega)) (Nat.mod_lt _ (by omega))
  refine ⟨_, he, ?_, ?_, ?_, ?_, ?_, ?_⟩
  · simp [keyGroup, hg]
  · simp only [keyDomain, List.append_assoc]
    rw [List.drop_append_of_le_length (by omega), List.drop_of_length_le (by omega)]
    simp [hd]
  · have : (a.group ++ a.domain).length = 48 := by simp [hg, hd]
    simp only [keyDepth]
    rw [List.append_assoc, List.append_assoc, List.drop_append_of_le_length (by omega), List.drop_of_length_le (by omega)]
    simpa using hx
  · have h49 : (a.group ++ a.domain ++ [x]).length = 49 := by simp [hg, hd]
    simp only [keySpace]
    generalize a.group ++ a.domain ++ [x] = h at *
    have : (h ++ encodeSpace a.space ++ a.pubkey).length - 32 = (h ++ encodeSpace a.space).length := by
      rw [List.length_append, hk]; omega
    rw [this, List.take_append_of_le_length (by omega), List.take_of_length_le (by omega),
      List.drop_append_of_le_length (by omega), List.drop_of_length_le (by omega)]
    rfl
  · simp only [keyPubkey]
    generalize a.group ++ a.domain ++ [x] ++ encodeSpace a.space = h at *
    have : (h ++ a.pubkey).length - 32 = h.length := by rw [List.length_append, hk]; omega
    rw [this, List.drop_append_of_le_length (by omega), List.drop_of_length_le (by omega)]
    rfl
  · rw [hv]; exact ⟨hpc, hph.symm, rfl, rfl, rfl⟩

/-- Data points and error points have no entry. -/
theorem tree_entry_iff (p : NetParts) (c : Content) (hp : IsPacket p c) (l : Nat) :
    TreeEntry.fromPkt l p = none ↔ c.group? = none := by
  cases c <;> simp [TreeEntry.fromPkt, hp.parts, Content.parts, Content.fields, Fields.commonIdx, Content.group?]

/-! ### the ordering of packets used by `PktCmp` -/

theorem entry_cmp_eq (a b : TreeEntry) : a.cmp b = .eq ↔ a = b := by
  unfold TreeEntry.cmp
  constructor
  · intro h
    split at h
    · cases h
    · split at h
      · cases h
      · split at h
        · cases h
        · split at h
          · cases h
          · rename_i h1 h2 h3 h4
            rcases bytesLt_total a.key b.key with e | e | e
            · exact absurd e h1
            · rcases bytesLt_total a.val b.val with f | f | f
              · exact absurd f h3
              · cases a; cases b; simp_all
              · exact absurd f h4
            · exact absurd e h2
  · rintro rfl; simp [bytesLt_irrefl]

theorem entry_cmp_swap (a b : TreeEntry) : b.cmp a = (a.cmp b).swap := by
  have key : ∀ (a b : Bytes) (o : Ordering),
      (if bytesLt b a then Ordering.lt else if bytesLt a b then .gt else o.swap) =
        (if bytesLt a b then Ordering.lt else if bytesLt b a then .gt else o).swap := by
    intro a b o
    by_cases h1 : bytesLt a b = true
    · simp [h1, bytesLt_asymm h1]
    · by_cases h2 : bytesLt b a = true <;> simp [h1, h2]
  have e2 := key a.val b.val .eq
  unfold TreeEntry.cmp
  rw [← key a.key b.key, ← key a.val b.val]
  rfl

/-- `PktCmp` is consistent: equal in the order exactly when equal as packets (same hash), provided packets with the
same hash are the same packet. -/
theorem pktCmp_eq_iff {p q : NetParts} {c d : Content} (hp : IsPacket p c) (hq : IsPacket q d)
    (hcol : p.hash = q.hash → p.parts = q.parts) : pktCmp p q = .eq ↔ pktEq p q = true := by
  have hb : pktEq p q = true ↔ p.hash = q.hash := by simp [pktEq]
  rw [hb]
  constructor
  · intro h
    unfold pktCmp at h
    split at h
    · rename_i a b ha hb
      rw [entry_cmp_eq] at h
      subst h
      have hv : ∀ {p : NetParts} {e : TreeEntry}, TreeEntry.fromPkt 0 p = some e →
          e.val = (TreeValue.fromPkt 0 p).bytes := by
        intro p e h
        simp only [TreeEntry.fromPkt] at h
        split at h
        · cases h
        · cases h; rfl
      have := (hv ha).symm.trans (hv hb)
      simp only [TreeValue.fromPkt, TreeValue.bytes, List.append_assoc] at this
      have := (List.append_inj this (by simp)).2
      exact (List.append_inj this (by rw [hp.hash, hq.hash])).1
    · cases h
    · cases h
    · split at h
      · cases h
      · split at h
        · cases h
        · rename_i h1 h2
          rcases bytesLt_total p.hash q.hash with e | e | e
          · exact absurd e h1
          · exact e
          · exact absurd e h2
  · intro h
    have hpq := hcol h
    have : TreeEntry.fromPkt 0 p = TreeEntry.fromPkt 0 q := by
      simp [TreeEntry.fromPkt, TreeValue.fromPkt, NetParts.getCreate, NetParts.getLinks, NetParts.data, hpq, h]
    unfold pktCmp
    rw [this]
    cases TreeEntry.fromPkt 0 q with
    | none => simp [h, bytesLt_irrefl]
    | some e => exact (entry_cmp_eq e e).2 rfl

/-- In the order of packets those of the tree come first; data and error points come after them by hash. -/
theorem pktCmp_data {p q : NetParts} {t : TreeTuple} {c d : Content} (hp : IsPacket p c) (hc : c.group? = none) :
    (HasTuple q t → pktCmp q p = .lt ∧ pktCmp p q = .gt) ∧
    (IsPacket q d → d.group? = none → (pktCmp p q = .lt ↔ BytesBefore p.hash q.hash)) := by
  have hn : TreeEntry.fromPkt 0 p = none := (tree_entry_iff p c hp 0).2 hc
  constructor
  · intro hq
    obtain ⟨e, -, he, -⟩ := tree_key_order hq hq 0 0
    simp [pktCmp, hn, he]
  · intro hq hd
    have hm : TreeEntry.fromPkt 0 q = none := (tree_entry_iff q d hq 0).2 hd
    simp only [pktCmp, hn, hm]
    rw [bytesBefore_iff]
    by_cases h : bytesLt p.hash q.hash = true
    · simp [h]
    · by_cases h2 : bytesLt q.hash p.hash = true <;> simp [h, h2]

/-- The order of packets is antisymmetric and puts points of the tree in tuple order. -/
theorem pktCmp_tuple {p q : NetParts} {a b : TreeTuple} (hp : HasTuple p a) (hq : HasTuple q b) (hne : a.hash ≠ b.hash) :
    (pktCmp p q = .lt ↔ a.KeyLt b ∨ (a.KeyEq b ∧ a.ValLt b)) ∧ pktCmp q p = (pktCmp p q).swap := by
  obtain ⟨e, f, he, hf, h1, h2⟩ := tree_key_order hp hq 0 0
  obtain ⟨e', f', he', hf', h3⟩ := tree_value_order hp hq 0 0 hne
  rw [he] at he'; rw [hf] at hf'; cases he'; cases hf'
  simp only [pktCmp, he, hf]
  refine ⟨?_, entry_cmp_swap e f⟩
  rw [← h1, ← h2, ← h3, bytesBefore_iff, bytesBefore_iff]
  unfold TreeEntry.cmp
  by_cases hk : bytesLt e.key f.key = true
  · simp [hk]
  · by_cases hk2 : bytesLt f.key e.key = true
    · have : e.key ≠ f.key := (bytesLt_ne hk2).symm
      simp [hk, hk2, this]
    · have hkk : e.key = f.key := by
        rcases bytesLt_total e.key f.key with x | x | x
        · exact absurd x hk
        · exact x
        · exact absurd x hk2
      by_cases hv : bytesLt e.val f.val = true
      · simp [hkk, bytesLt_irrefl, hv]
      · by_cases hv2 : bytesLt f.val e.val = true <;> simp [hkk, bytesLt_irrefl, hv, hv2]

/-! ### a concrete pair -/

def exLink (space : List Bytes) (stamp : Nat) : LinkContent := ⟨List.replicate 32 5, List.replicate 16 6, stamp, [], rootedOf space, [1, 2]⟩
def exPkt (space : List Bytes) (stamp : Nat) (h : UInt8) : NetParts :=
  ⟨List.replicate 32 0, List.replicate 32 h, (Content.link (exLink space stamp)).parts⟩
def exTuple (space : List Bytes) (stamp : Nat) (h : UInt8) : TreeTuple :=
  ⟨List.replicate 32 5, List.replicate 16 6, space, List.replicate 32 0, stamp, List.replicate 32 h⟩

theorem exPkt_is (space : List Bytes) (stamp : Nat) (h : UInt8) (hs : IsSpace (encodeSpace space) space)
    (hst : stamp < 2 ^ 64) (hr : Rooted.checkComponents (rootedOf space) = .ok ()) :
    IsPacket (exPkt space stamp h) (.link (exLink space stamp)) := by
  refine ⟨rfl, ⟨?_, ?_⟩, ?_, ?_⟩
  · have h1 : (rootedOf space).length ≤ 8 + (encodeSpace space).length := by
      unfold rootedOf
      split
      · simp
      · rw [Rooted.rootedWith_length]; omega
    have := hs.size
    simp [Content.size, LinkContent.len, exLink]; omega
  · exact ⟨List.length_replicate, List.length_replicate, hst, (by intro l hl; cases hl), hr⟩
  · exact List.length_replicate
  · exact List.length_replicate

theorem exTuple_has (space : List Bytes) (stamp : Nat) (h : UInt8) (hs : IsSpace (encodeSpace space) space)
    (h8 : space.length ≤ 8) (hst : stamp < 2 ^ 64) (hr : Rooted.checkComponents (rootedOf space) = .ok ()) :
    HasTuple (exPkt space stamp h) (exTuple space stamp h) :=
  ⟨exLink space stamp, ⟨hs, h8, .inl rfl⟩, rfl, rfl, rfl, rfl, .inl ⟨exPkt_is space stamp h hs hst hr, rfl⟩⟩

/-- Two points in one group and domain: the deeper space comes later even though its bytes are smaller. -/
example : HasTuple (exPkt [[98]] 7 1) (exTuple [[98]] 7 1) ∧ HasTuple (exPkt [[97], [97]] 3 2) (exTuple [[97], [97]] 3 2) ∧
    (exTuple [[98]] 7 1).KeyLt (exTuple [[97], [97]] 3 2) := by
  refine ⟨exTuple_has _ _ _ ⟨by simp [ValidComps], rfl, by decide⟩ (by decide) (by decide) (by decide),
    exTuple_has _ _ _ ⟨by simp [ValidComps], rfl, by decide⟩ (by decide) (by decide) (by decide), ?_⟩
  exact .inr ⟨rfl, .inr ⟨rfl, .inl (by decide)⟩⟩

/-- Two accepted link points, whatever their depth byte, share a key exactly when group, domain, depth byte and space
bytes agree. -/
theorem tree_key_eq_any {p q : NetParts} {c d : LinkContent} (hp : IsPacket p (.link c)) (hq : IsPacket q (.link d))
    (l m : Nat) : ∃ e f, TreeEntry.fromPkt l p = some e ∧ TreeEntry.fromPkt m q = some f ∧
      (e.key = f.key ↔ c.group = d.group ∧ c.domain = d.domain ∧ c.rspace.headD 0 = d.rspace.headD 0 ∧
        c.rspace.drop 8 = d.rspace.drop 8) := by
  have h1 : c.Sized := hp.valid.2
  have h2 : d.Sized := hq.valid.2
  refine ⟨⟨keyOfFields c.group c.domain (c.rspace.headD 0) (spaceOf c.rspace) none, (TreeValue.fromPkt l p).bytes⟩,
    ⟨keyOfFields d.group d.domain (d.rspace.headD 0) (spaceOf d.rspace) none, (TreeValue.fromPkt m q).bytes⟩, ?_, ?_, ?_⟩
  · simp [TreeEntry.fromPkt, hp.parts, Content.parts, Content.fields, Fields.commonIdx]
  · simp [TreeEntry.fromPkt, hq.parts, Content.parts, Content.fields, Fields.commonIdx]
  · simp only [keyOfFields, spaceOf, List.append_assoc]
    constructor
    · intro h
      obtain ⟨e1, h⟩ := List.append_inj h (h1.group.trans h2.group.symm)
      obtain ⟨e2, h⟩ := List.append_inj h (h1.domain.trans h2.domain.symm)
      obtain ⟨e3, h⟩ := List.append_inj h rfl
      have := List.append_cancel_right h
      exact ⟨e1, e2, (List.cons.inj e3).1, this⟩
    · rintro ⟨e1, e2, e3, e4⟩
      rw [e1, e2, e3, e4]

/-- Finding: the depth byte of an accepted eight-component space is not checked, so such a point can sort before a
point of a one-component space. -/
theorem tree_order_hostile_depth :
    ∃ (p q : NetParts) (c d : LinkContent) (e f : TreeEntry), IsPacket p (.link c) ∧ IsPacket q (.link d) ∧
      c.group = d.group ∧ c.domain = d.domain ∧ spaceOf c.rspace = encodeSpace (List.replicate 8 [65]) ∧
      spaceOf d.rspace = encodeSpace [[66]] ∧ TreeEntry.fromPkt 0 p = some e ∧ TreeEntry.fromPkt 0 q = some f ∧
      BytesBefore e.key f.key := by
  have hq : IsPacket (exPkt [[66]] 0 0) (.link (exLink [[66]] 0)) :=
    ⟨rfl, ⟨by decide, ⟨List.length_replicate, List.length_replicate, by decide, (by intro l hl; cases hl), by decide⟩⟩,
      List.length_replicate, List.length_replicate⟩
  let c : LinkContent := { exLink [] 0 with rspace := rootedWith 1 (List.replicate 8 [65]) }
  have hp : IsPacket ⟨List.replicate 32 0, List.replicate 32 1, (Content.link c).parts⟩ (.link c) :=
    ⟨rfl, ⟨by decide, ⟨List.length_replicate, List.length_replicate, by decide, (by intro l hl; cases hl), by decide⟩⟩,
      List.length_replicate, List.length_replicate⟩
  refine ⟨_, _, _, _, _, _, hp, hq, rfl, rfl, by decide, by decide, rfl, rfl, ?_⟩
  rw [bytesBefore_iff]
  decide

end Verif.Props
