import Verif.Model.PyPkt
import Verif.Spec.PyPkt
import Verif.Props.Packet2
import Verif.Props.TreeKey
import Verif.Props.Space
/-!
# C92 and C93: packet objects in Python and JavaScript
-/
namespace Verif.Props
open Verif Verif.Pkt Verif.Spec Verif.Tree Verif.Ffi Verif.Space
open Verif.Pred (PRes)

/-! ### how a packet object comes about -/

theorem holds_size {C : Crypto} {q : NetPkt} {c : Content} (h : Holds C q c) : q.size = q.bytes.length ∧ q.size = 64 + c.size + padTo8 c.size := by
  have hl := layout_length h.valid
  have e : q.size = 64 + c.size + padTo8 c.size := by
    rw [NetPkt.size, h.point, ofBytes_layout h.valid, PointHeader.size, paddedSize_eq]; omega
  refine ⟨?_, e⟩
  rw [e]; simp [NetPkt.bytes, h.point, h.header, h.hash32, hl]; omega

theorem layout_four {c : Content} (hv : c.Valid) : 4 ≤ c.layout.length := by
  rw [layout_length hv]
  cases c <;> simp only [Content.size, LinkContent.len] <;> omega

theorem copy_layout {C : Crypto} (dbg : Bool) {nh hash head content : Bytes} {c : Content} (hv : c.Valid) (e : head ++ content = c.layout) (h4 : head.length = 4)
    (skip : Bool) : fromHeaderAndCopy C dbg nh hash head skip content =
      match (NetPkt.mk nh hash c.layout).check C dbg skip with
      | .error e => .error e
      | .ok () => .ok ⟨nh, hash, c.layout⟩ := by
  have ho : PointHeader.ofBytes head = ⟨0, c.type, c.size⟩ := by
    rw [← ofBytes_layout hv, ← e]
    obtain ⟨a, b, x, y, rfl⟩ : ∃ a b x y, head = [a, b, x, y] := by
      match head, h4 with
      | [a, b, x, y], _ => exact ⟨a, b, x, y, rfl⟩
    rfl
  unfold fromHeaderAndCopy
  have h4 : 4 ≤ c.size := by cases c <;> simp only [Content.size, LinkContent.len] <;> omega
  have h5 : ¬ (PointHeader.mk 0 c.type c.size).paddedSize < 4 := by rw [paddedSize_eq]; omega
  rw [ho, if_neg h5, e]
  rfl

/-- **C93**: every packet that is built becomes a packet object with its header, hash and content. -/
theorem object_of_built {C : Crypto} (L : C.Laws) (dbg : Bool) (recv : Nat) {p : NetParts} (h : Built C p) :
    ∃ q c, PyPkt.ofParts C dbg recv p = .ok ⟨p.netHeader, recv, q⟩ ∧ Holds C q c ∧ q.netHeader = p.netHeader ∧ q.hash = p.hash ∧ p.parts = c.parts := by
  obtain ⟨c, hv, hs, hn, hh, hp⟩ := built_content L h
  have hl : p.hash.length = 32 := by rw [hh]; exact L.hash_len _
  refine ⟨⟨p.netHeader, p.hash, c.layout⟩, c, ?_, ⟨hv, hs, rfl, hn, hl, hh⟩, rfl, rfl, hp⟩
  have hb : c.parts.header.bytes.length = 4 := by simp [PointHeader.bytes]
  have hseg : ∃ rest, c.parts.segments = c.parts.header.bytes :: rest := by
    cases c <;> exact ⟨_, rfl⟩
  obtain ⟨rest, hr⟩ := hseg
  have e : c.parts.header.bytes ++ Segments.bytes (c.parts.header.bytes.drop 4 :: rest) = c.layout := by
    rw [← segments_layout, hr]
    rw [List.drop_eq_nil_of_le (by omega)]
    simp [Segments.bytes]
  unfold PyPkt.ofParts arcOfParts
  rw [hp, hr]
  simp only []
  rw [copy_layout dbg hv e hb, (check_layout hv).2 (fun _ => ⟨hs, hh⟩)]
  rfl

/-- **C93**: so does every correct packet that was read from a buffer or is stored; a packet with a wrong hash or signature, which `lk_read_unchecked` and an
import without checks let through, panics. -/
theorem object_of_bytes (C : Crypto) (dbg : Bool) (recv : Nat) {q : NetPkt} {c : Content} (hv : c.Valid) (hp : q.point = c.layout) :
    (c.Sealed C ∧ q.hash = C.hash c.layout → PyPkt.ofPtr C dbg recv q = .ok ⟨q.netHeader, recv, q⟩) ∧
    (¬ (c.Sealed C ∧ q.hash = C.hash c.layout) → PyPkt.ofPtr C dbg recv q = .error .panic) := by
  have h4 := layout_four hv
  obtain ⟨nh, hash, pt⟩ := q
  simp only at hp
  subst hp
  have e := copy_layout (C := C) dbg (nh := nh) (hash := hash) hv (List.take_append_drop 4 c.layout) (by simp; omega) false
  have hck := check_layout (C := C) (dbg := dbg) (skip := false) (nh := nh) (h := hash) hv
  constructor
  · intro h
    unfold PyPkt.ofPtr arcOfPtr
    simp only [e, hck.2 (fun _ => h)]
    rfl
  · intro h
    unfold PyPkt.ofPtr arcOfPtr
    simp only [e]
    cases hc : (NetPkt.mk nh hash c.layout).check C dbg false with
    | ok _ => exact absurd (hck.1 hc rfl) h
    | error _ => rfl

/-! ### C93 attributes -/

theorem parts_holds {C : Crypto} (dbg : Bool) {q : NetPkt} {c : Content} (h : Holds C q c) : forget (q.parts dbg) = .ok c.parts := by
  rw [NetPkt.parts, h.point, parts_layout dbg h.valid]; rfl

theorem header_holds {C : Crypto} {q : NetPkt} {c : Content} (h : Holds C q c) : headerOf q = .ok (c.link?.map headOf) := by
  have hv := h.valid
  unfold headerOf linkpointHeader
  rw [h.point]
  cases c with
  | data b => rw [fixed_data hv]; rfl
  | error b => rw [fixed_error hv]; rfl
  | link l => rw [fixed_link hv]; rfl
  | key l pk sig => rw [fixed_key hv]; rfl

theorem tail_holds {C : Crypto} (dbg : Bool) {q : NetPkt} {c : Content} (h : Holds C q c) :
    Ffi.tailOf dbg q = .ok (c.link?.map fun l => ⟨l.links, l.data, l.rspace⟩) := by
  unfold Ffi.tailOf; rw [parts_holds dbg h]; cases c <;> rfl

theorem signed_holds {C : Crypto} (dbg : Bool) {q : NetPkt} {c : Content} (h : Holds C q c) :
    signedOf dbg q = .ok (c.keys?.map fun k => ⟨k.1, k.2⟩) := by
  unfold signedOf; rw [parts_holds dbg h]; cases c <;> rfl

/-- **C93**: the attributes that copy a field. -/
theorem attributes {C : Crypto} (dbg : Bool) {q : NetPkt} {c : Content} (h : Holds C q c) :
    pktType q = c.type ∧ dataOf dbg q = .ok c.payload ∧ groupOf q = .ok (c.link?.map (·.group)) ∧ domainOf q = .ok (c.link?.map (·.domain)) ∧
    createOf q = .ok (c.link?.map fun l => beBytes 8 l.stamp) ∧ rootedOfPkt dbg q = .ok (c.link?.map (·.rspace)) ∧
    pubkeyOf dbg q = .ok (c.keys?.map (·.1)) ∧ signatureOf dbg q = .ok (c.keys?.map (·.2)) ∧ pyLinks dbg q = .ok (c.link?.map (·.links)) ∧
    q.size = q.bytes.length := by
  refine ⟨?_, ?_, ?_, ?_, ?_, ?_, ?_, ?_, ?_, (holds_size h).1⟩
  · rw [pktType, h.point, ofBytes_layout h.valid]
  · rw [dataOf, parts_holds dbg h]; cases c <;> rfl
  · rw [groupOf, header_holds h]; cases c <;> rfl
  · rw [domainOf, header_holds h]; cases c <;> rfl
  · rw [createOf, header_holds h]; cases c <;> rfl
  · rw [rootedOfPkt, tail_holds dbg h]; cases c <;> rfl
  · rw [pubkeyOf, signed_holds dbg h]; cases c <;> rfl
  · rw [signatureOf, signed_holds dbg h]; cases c <;> rfl
  · rw [pyLinks, tail_holds dbg h]; cases c <;> rfl

/-- **C93**: a point without link fields has no space. -/
theorem attributes_none {C : Crypto} (dbg : Bool) {q : NetPkt} {c : Content} (h : Holds C q c) (hn : c.link? = none) :
    spaceOfPkt dbg q = .ok none ∧ compList dbg q = .ok none ∧ depthOf dbg q = .ok none ∧ (∀ i, compOf dbg q i = .ok []) ∧ jsLinks dbg q = .ok [] ∧
    jsLinksBytes dbg q = .ok none ∧ jsLinksArray dbg q = .ok [] := by
  have hr : rootedOfPkt dbg q = .ok none := by rw [rootedOfPkt, tail_holds dbg h, hn]; rfl
  have ht := tail_holds dbg h
  rw [hn] at ht
  refine ⟨by rw [spaceOfPkt, hr], by rw [compList, hr], by rw [depthOf, ht]; rfl, fun i => ?_, by rw [jsLinks, ht]; rfl, by rw [jsLinksBytes, ht]; rfl,
    by rw [jsLinksArray, jsLinksBytes, jsLinks, ht]; rfl⟩
  rw [compOf, hr]
  have h8 := i.isLt
  have : Rooted.comp [] i.val = .ok [] := (rooted_access [] ⟨nofun, rfl, by decide⟩ (by decide)).2.2.2.2.1 _ h8
  show forget (Rooted.comp [] i.val) = _
  rw [this]; rfl

theorem mapM_comp {r : Bytes} {cs : List Bytes} (h : ∀ i, i < 8 → Rooted.comp r i = .ok (cs.getD i [])) :
    (List.range 8).mapM (Rooted.comp r) = .ok ((List.range 8).map fun i => cs.getD i []) := by
  have : ∀ l : List Nat, (∀ i ∈ l, i < 8) → l.mapM (Rooted.comp r) = .ok (l.map fun i => cs.getD i []) := by
    intro l hl
    induction l with
    | nil => rfl
    | cons x l ih =>
      rw [List.mapM_cons, h x (hl x (by simp)), ih (fun i hi => hl i (List.mem_cons_of_mem _ hi))]; rfl
  exact this _ (fun i hi => List.mem_range.1 hi)

theorem range_take {cs : List Bytes} {d : Nat} (hd : d ≤ cs.length) (h8 : cs.length ≤ 8) :
    (((List.range 8).map fun i => cs.getD i []).take d) = cs.take d := by
  apply List.ext_getElem?
  intro i
  rw [List.getElem?_take, List.getElem?_take]
  split
  · rename_i hi
    rw [List.getElem?_map, List.getElem?_range (by omega), List.getElem?_eq_getElem (by omega)]
    simp [List.getD_eq_getElem?_getD, List.getElem?_eq_getElem (show i < cs.length by omega)]
  · rfl

/-- **C93**: what the space attributes give for any space that reading accepts: its depth byte `d` and its components.  Only `comp_list` may panic, and does if
the depth byte is above 8. -/
theorem attributes_space {C : Crypto} (dbg : Bool) {q : NetPkt} {c : Content} (h : Holds C q c) {l : LinkContent} (hl : c.link? = some l)
    {d : UInt8} {cs : List Bytes} (hs : IsSpace (encodeSpace cs) cs) (h8 : cs.length ≤ 8) (hr : l.rspace = rootedWith d cs) (hd : cs.length < 8 → d.toNat = cs.length) :
    spaceOfPkt dbg q = .ok (some (encodeSpace cs)) ∧ (∀ i, compOf dbg q i = .ok (cs.getD i.val [])) ∧ depthOf dbg q = .ok (some d) ∧
    compList dbg q = if d.toNat ≤ 8 then .ok (some (cs.take d.toNat)) else .error .panic := by
  have hrs : rootedOfPkt dbg q = .ok (some (rootedWith d cs)) := by rw [rootedOfPkt, tail_holds dbg h, hl, ← hr]; rfl
  have hcomp : ∀ i, i < 8 → Rooted.comp (rootedWith d cs) i = .ok (cs.getD i []) := fun i hi => Rooted.comp_rootedWith hs.comps h8 hs.size hi
  refine ⟨?_, fun i => ?_, ?_, ?_⟩
  · rw [spaceOfPkt, hrs]
    simp only []
    unfold Rooted.space; rw [Rooted.fields_rootedWith h8 hs.size]; rfl
  · rw [compOf, hrs]
    show forget (Rooted.comp (rootedWith d cs) i.val) = _
    rw [hcomp _ i.isLt]; rfl
  · rw [depthOf, tail_holds dbg h, hl]
    show Except.ok (some (l.rspace.headD 0)) = _
    rw [hr, Rooted.rootedWith_head]
  · rw [compList, hrs]
    simp only [mapM_comp hcomp, forget, Rooted.depth, Rooted.rootedWith_head]
    rw [List.length_map, List.length_range]
    by_cases hd8 : d.toNat ≤ 8
    · rw [if_pos hd8, if_pos hd8]
      by_cases hc : cs.length < 8
      · rw [range_take (by rw [hd hc]; exact Nat.le_refl _) h8]
      · rw [range_take (by omega) h8]
    · rw [if_neg hd8, if_neg hd8]

/-- **C93**: for a space whose depth byte is its number of components, in particular one that was built, these are the components. -/
theorem attributes_components {C : Crypto} (dbg : Bool) {q : NetPkt} {c : Content} (h : Holds C q c) {l : LinkContent} (hl : c.link? = some l)
    {cs : List Bytes} (hw : WellRooted l.rspace cs) :
    spaceOfPkt dbg q = .ok (some (encodeSpace cs)) ∧ (∀ i, compOf dbg q i = .ok (cs.getD i.val [])) ∧ depthOf dbg q = .ok (some (UInt8.ofNat cs.length)) ∧
    compList dbg q = .ok (some cs) := by
  have hd : (UInt8.ofNat cs.length).toNat = cs.length := by have := hw.depth; simp; omega
  have main := fun hr => attributes_space dbg h hl hw.space hw.depth (d := UInt8.ofNat cs.length) hr (fun _ => hd)
  rw [hd, if_pos hw.depth, List.take_of_length_le (Nat.le_refl _)] at main
  rcases hw.form with hr | hr
  · by_cases hcs : cs = []
    · subst hcs
      have hr' : l.rspace = [] := hr
      have hrs : rootedOfPkt dbg q = .ok (some []) := by rw [rootedOfPkt, tail_holds dbg h, hl, ← hr']; rfl
      have hc := (rooted_access [] hw.space hw.depth).2.2.2.2.1
      refine ⟨by rw [spaceOfPkt, hrs]; rfl, fun i => ?_, ?_, ?_⟩
      · rw [compOf, hrs]
        show forget (Rooted.comp [] i.val) = _
        rw [show (Rooted.comp [] i.val) = _ from hc _ i.isLt]; rfl
      · rw [depthOf, tail_holds dbg h, hl]
        show Except.ok (some (l.rspace.headD 0)) = _
        rw [hr']; rfl
      · rw [compList, hrs]
        simp only [mapM_comp (r := []) (cs := []) hc]
        rfl
    · rw [rootedOf, if_neg hcs] at hr; exact main hr
  · exact main hr

/-- The content whose space has eight components and the depth byte `d`. -/
def badDepth (d : UInt8) : Content :=
  .link ⟨List.replicate 32 5, List.replicate 16 6, 7, [], rootedWith d (List.replicate 8 [65]), [1, 2]⟩
theorem holds_mk {C : Crypto} (L : C.Laws) {c : Content} (hv : c.Valid) (hs : c.Sealed C) (nh : Bytes) (hn : nh.length = 32) :
    Holds C ⟨nh, C.hash c.layout, c.layout⟩ c := ⟨hv, hs, rfl, hn, L.hash_len _, rfl⟩
theorem badDepth_holds (d : UInt8) : Holds toyCrypto ⟨List.replicate 32 0, toyCrypto.hash (badDepth d).layout, (badDepth d).layout⟩ (badDepth d) := by
  refine holds_mk (c := badDepth d) toyCrypto_laws ?_ trivial _ List.length_replicate
  refine ⟨?_, List.length_replicate, List.length_replicate, ?_, (by intro l hl; cases hl), ?_⟩
  · show 64 + 48 * 0 + (rootedWith d (List.replicate 8 [65])).length + 2 ≤ 65024
    rw [Rooted.rootedWith_length]; decide
  · show 7 < 2 ^ 64; decide
  · exact (rooted_check_iff _).2 (.inr ⟨d, _, ⟨by intro c hc; rw [List.eq_of_mem_replicate hc]; decide, rfl, by decide⟩, by decide, rfl, fun h => absurd h (by decide)⟩)

/-- **C93 is false** of `comp_list`: anyone can make a packet, which every reader accepts, for which it panics, and one for which it shows no component of a
space that has eight. -/
theorem comp_list_hostile (dbg : Bool) : (∃ q c, Holds toyCrypto q c ∧ compList dbg q = .error .panic) ∧
    ∃ q c, Holds toyCrypto q c ∧ compList dbg q = .ok (some []) ∧ ∀ i, compOf dbg q i = .ok [65] := by
  have hs : IsSpace (encodeSpace (List.replicate 8 [65])) (List.replicate 8 [65]) := ⟨by intro c hc; rw [List.eq_of_mem_replicate hc]; decide, rfl, by decide⟩
  refine ⟨⟨_, _, badDepth_holds 200, ?_⟩, _, _, badDepth_holds 0, ?_, fun i => ?_⟩
  · rw [(attributes_space dbg (badDepth_holds 200) (l := ⟨_, _, _, _, _, _⟩) rfl hs (by decide) rfl (by decide)).2.2.2]; rfl
  · rw [(attributes_space dbg (badDepth_holds 0) (l := ⟨_, _, _, _, _, _⟩) rfl hs (by decide) rfl (by decide)).2.2.2]; rfl
  · rw [(attributes_space dbg (badDepth_holds 0) (l := ⟨_, _, _, _, _, _⟩) rfl hs (by decide) rfl (by decide)).2.1]
    revert i; decide

/-! ### C92 comparing -/

theorem enum_holds {C : Crypto} (dbg : Bool) {q : NetPkt} {c : Content} (h : Holds C q c) : enumOf dbg q = .ok ⟨q.netHeader, q.hash, c.parts⟩ := by
  unfold enumOf; rw [parts_holds dbg h]; rfl

theorem isPacket_holds {C : Crypto} {q : NetPkt} {c : Content} (h : Holds C q c) : IsPacket ⟨q.netHeader, q.hash, c.parts⟩ c := ⟨rfl, h.valid, h.hash32, h.header⟩

/-- The order of two packets, as `__richcmp__` computes it. -/
theorem richcmp_eq {C : Crypto} (dbg : Bool) {a b : PyPkt} {c d : Content} (ha : Holds C a.pkt c) (hb : Holds C b.pkt d) (op : CmpOp) :
    richcmp dbg op a b = .ok (match op with
      | .eq => a.pkt.hash == b.pkt.hash
      | .ne => a.pkt.hash != b.pkt.hash
      | op => op.holds (pktCmp ⟨a.pkt.netHeader, a.pkt.hash, c.parts⟩ ⟨b.pkt.netHeader, b.pkt.hash, d.parts⟩)) := by
  unfold richcmp
  rw [enum_holds dbg ha, enum_holds dbg hb]
  cases op <;> rfl

theorem lt_swap (a b : Bytes) (o : Ordering) :
    (if bytesLt b a then Ordering.lt else if bytesLt a b then .gt else o.swap) = (if bytesLt a b then Ordering.lt else if bytesLt b a then .gt else o).swap := by
  by_cases h1 : bytesLt a b = true
  · simp [h1, bytesLt_asymm h1]
  · by_cases h2 : bytesLt b a = true <;> simp [h1, h2]

theorem pktCmp_swap (p q : NetParts) : pktCmp q p = (pktCmp p q).swap := by
  unfold pktCmp
  cases TreeEntry.fromPkt 0 p with
  | none =>
    cases TreeEntry.fromPkt 0 q with
    | none => exact lt_swap p.hash q.hash .eq
    | some _ => rfl
  | some a =>
    cases TreeEntry.fromPkt 0 q with
    | none => rfl
    | some b => exact entry_cmp_swap a b

/-- Comparing two pairs by their first and then their second part is transitive. -/
theorem lex_trans {a b c a' b' c' : Bytes} :
    (if bytesLt a b then Ordering.lt else if bytesLt b a then .gt else if bytesLt a' b' then .lt else if bytesLt b' a' then .gt else .eq) = .lt →
    (if bytesLt b c then Ordering.lt else if bytesLt c b then .gt else if bytesLt b' c' then .lt else if bytesLt c' b' then .gt else .eq) = .lt →
    (if bytesLt a c then Ordering.lt else if bytesLt c a then .gt else if bytesLt a' c' then .lt else if bytesLt c' a' then .gt else .eq) = .lt := by
  intro h1 h2
  rcases bytesLt_total a b with h | rfl | h
  · rcases bytesLt_total b c with h' | rfl | h'
    · rw [if_pos (bytesLt_trans h h')]
    · rw [if_pos h]
    · rw [if_neg (by rw [bytesLt_asymm h']; simp), if_pos h'] at h2; cases h2
  · rcases bytesLt_total a c with h' | rfl | h'
    · rw [if_pos h']
    · simp only [bytesLt_irrefl, Bool.false_eq_true, if_false] at h1 h2 ⊢
      have e1 : bytesLt a' b' = true := by
        apply Classical.byContradiction; intro h
        rw [if_neg h] at h1; split at h1 <;> cases h1
      have e2 : bytesLt b' c' = true := by
        apply Classical.byContradiction; intro h
        rw [if_neg h] at h2; split at h2 <;> cases h2
      rw [if_pos (bytesLt_trans e1 e2)]
    · rw [if_neg (by rw [bytesLt_asymm h']; simp), if_pos h'] at h2; cases h2
  · rw [if_neg (by rw [bytesLt_asymm h]; simp), if_pos h] at h1; cases h1

theorem pktCmp_trans {p q r : NetParts} (h1 : pktCmp p q = .lt) (h2 : pktCmp q r = .lt) : pktCmp p r = .lt := by
  unfold pktCmp at *
  cases hp : TreeEntry.fromPkt 0 p with
  | none =>
    rw [hp] at h1
    cases hq : TreeEntry.fromPkt 0 q with
    | some _ => rw [hq] at h1; cases h1
    | none =>
      rw [hq] at h1 h2
      cases hr : TreeEntry.fromPkt 0 r with
      | some _ => rw [hr] at h2; cases h2
      | none =>
        rw [hr] at h2
        simp only [] at h1 h2 ⊢
        have := lex_trans (a := p.hash) (b := q.hash) (c := r.hash) (a' := []) (b' := []) (c' := []) (by simpa [bytesLt] using h1) (by simpa [bytesLt] using h2)
        simpa [bytesLt] using this
  | some a =>
    rw [hp] at h1
    cases hr : TreeEntry.fromPkt 0 r with
    | none => rfl
    | some c =>
      cases hq : TreeEntry.fromPkt 0 q with
      | none => rw [hq, hr] at h2; cases h2
      | some b =>
        rw [hq] at h1 h2; rw [hr] at h2
        exact lex_trans h1 h2

theorem sortKey_tuple {C : Crypto} {q : NetPkt} {c : Content} (h : Holds C q c) {t : TreeTuple} (ht : SortsBy q.hash c (.tree t)) :
    HasTuple ⟨q.netHeader, q.hash, c.parts⟩ t := by
  obtain ⟨l, hl, hw, h1, h2, h3, h4, h5⟩ := ht
  refine ⟨l, hw, h1, h2, h3, h4, ?_⟩
  cases c with
  | data b => cases hl
  | error b => cases hl
  | link l' => cases hl; exact .inl ⟨isPacket_holds h, h5⟩
  | key l' pk sig =>
    cases hl
    have h5' : t.pubkey = pk := h5
    refine .inr ⟨sig, ?_⟩
    rw [h5']; exact isPacket_holds h

/-- **C92**: `==` and `!=` compare the hashes. -/
theorem py_eq {C : Crypto} (dbg : Bool) {a b : PyPkt} {c d : Content} (ha : Holds C a.pkt c) (hb : Holds C b.pkt d) :
    richcmp dbg .eq a b = .ok (decide (a.pkt.hash = b.pkt.hash)) ∧ richcmp dbg .ne a b = .ok (decide (a.pkt.hash ≠ b.pkt.hash)) := by
  rw [richcmp_eq dbg ha hb, richcmp_eq dbg ha hb]
  by_cases h : a.pkt.hash = b.pkt.hash
  · rw [h]; simp
  · simp [h]

/-- **C92**: `<` is the order of the tree, with packets that are in no tree last and by hash. -/
theorem py_lt {C : Crypto} (dbg : Bool) {a b : PyPkt} {c d : Content} (ha : Holds C a.pkt c) (hb : Holds C b.pkt d) {s t : SortKey}
    (hs : SortsBy a.pkt.hash c s) (ht : SortsBy b.pkt.hash d t) (hne : a.pkt.hash ≠ b.pkt.hash) :
    ∃ r, richcmp dbg .lt a b = .ok r ∧ (r = true ↔ s.Before t) := by
  refine ⟨_, richcmp_eq dbg ha hb .lt, ?_⟩
  show ((pktCmp _ _) == Ordering.lt) = true ↔ _
  rw [beq_iff_eq]
  have hg : ∀ {e : Content}, e.link? = none → e.group? = none := fun {e} he => by cases e <;> first | rfl | cases he
  cases s with
  | tree s =>
    have h1 := sortKey_tuple ha hs
    cases t with
    | tree t =>
      have h2 := sortKey_tuple hb ht
      have e1 : s.hash = a.pkt.hash := by obtain ⟨_, _, _, _, _, _, h, _⟩ := hs; exact h
      have e2 : t.hash = b.pkt.hash := by obtain ⟨_, _, _, _, _, _, h, _⟩ := ht; exact h
      exact (pktCmp_tuple h1 h2 (by rw [e1, e2]; exact hne)).1
    | hash k =>
      have := ((pktCmp_data (d := d) (isPacket_holds hb) (hg ht.1)).1 h1).1
      rw [this]; simp [SortKey.Before]
  | hash k =>
    cases t with
    | tree t =>
      have := ((pktCmp_data (d := d) (isPacket_holds ha) (hg hs.1)).1 (sortKey_tuple hb ht)).2
      rw [this]; simp [SortKey.Before]
    | hash k' =>
      rw [(pktCmp_data (t := ⟨[], [], [], [], 0, []⟩) (isPacket_holds ha) (hg hs.1)).2 (isPacket_holds hb) (hg ht.1), hs.2, ht.2]; rfl

/-- **C92**: the six operators are those of one total order: unless the hash function collides on the two, exactly one of `<`, `==` and `>` holds, `<=` and `>=`
are `<` or `==` and `>` or `==`, `!=` is not `==`, and `>` is `<` the other way round. -/
theorem py_total {C : Crypto} (dbg : Bool) {a b : PyPkt} {c d : Content} (ha : Holds C a.pkt c) (hb : Holds C b.pkt d) (hcol : a.pkt.hash = b.pkt.hash → c = d) :
    ∃ lt eq gt, richcmp dbg .lt a b = .ok lt ∧ richcmp dbg .eq a b = .ok eq ∧ richcmp dbg .gt a b = .ok gt ∧
      ((lt, eq, gt) = (true, false, false) ∨ (lt, eq, gt) = (false, true, false) ∨ (lt, eq, gt) = (false, false, true)) ∧
      richcmp dbg .le a b = .ok (lt || eq) ∧ richcmp dbg .ge a b = .ok (gt || eq) ∧ richcmp dbg .ne a b = .ok (!eq) ∧ richcmp dbg .lt b a = .ok gt := by
  have hc : pktCmp ⟨a.pkt.netHeader, a.pkt.hash, c.parts⟩ ⟨b.pkt.netHeader, b.pkt.hash, d.parts⟩ = .eq ↔ a.pkt.hash = b.pkt.hash := by
    rw [pktCmp_eq_iff (isPacket_holds ha) (isPacket_holds hb) (fun h => by rw [hcol h])]
    simp [pktEq]
  refine ⟨_, _, _, richcmp_eq dbg ha hb .lt, richcmp_eq dbg ha hb .eq, richcmp_eq dbg ha hb .gt, ?_⟩
  rw [richcmp_eq dbg ha hb .le, richcmp_eq dbg ha hb .ge, richcmp_eq dbg ha hb .ne, richcmp_eq dbg hb ha .lt]
  simp only []
  rw [pktCmp_swap ⟨a.pkt.netHeader, a.pkt.hash, c.parts⟩]
  cases ho : pktCmp ⟨a.pkt.netHeader, a.pkt.hash, c.parts⟩ ⟨b.pkt.netHeader, b.pkt.hash, d.parts⟩ with
  | eq =>
    have he := hc.1 ho
    simp [CmpOp.holds, he, bne]
  | lt =>
    have he : ¬ a.pkt.hash = b.pkt.hash := fun h => by have := hc.2 h; rw [ho] at this; cases this
    simp [CmpOp.holds, he, bne]
  | gt =>
    have he : ¬ a.pkt.hash = b.pkt.hash := fun h => by have := hc.2 h; rw [ho] at this; cases this
    simp [CmpOp.holds, he, bne]

/-- **C92**: `<` is transitive. -/
theorem py_trans {C : Crypto} (dbg : Bool) {x y z : PyPkt} {c d e : Content} (hx : Holds C x.pkt c) (hy : Holds C y.pkt d) (hz : Holds C z.pkt e)
    (h1 : richcmp dbg .lt x y = .ok true) (h2 : richcmp dbg .lt y z = .ok true) : richcmp dbg .lt x z = .ok true := by
  rw [richcmp_eq dbg hx hy] at h1
  rw [richcmp_eq dbg hy hz] at h2
  rw [richcmp_eq dbg hx hz]
  simp only [CmpOp.holds, Except.ok.injEq, beq_iff_eq] at h1 h2 ⊢
  exact pktCmp_trans h1 h2

/-- **C92 is false** of sets and keys: `hash(pkt)` panics for every packet, whatever the size of a word. -/
theorem py_hash_panics {C : Crypto} (w : Nat) {a : PyPkt} {c : Content} (_h : Holds C a.pkt c) : pyHash w a = .error .panic := by
  unfold pyHash
  split
  · rename_i hw
    simp only []
    rw [if_neg]
    rw [List.length_drop, List.length_take]; omega
  · rfl

theorem lex_swap (a b a' b' : Bytes) :
    (if bytesLt b a then Ordering.lt else if bytesLt a b then .gt else if bytesLt b' a' then .lt else if bytesLt a' b' then .gt else .eq) =
    (if bytesLt a b then Ordering.lt else if bytesLt b a then .gt else if bytesLt a' b' then .lt else if bytesLt b' a' then .gt else .eq).swap := by
  have e2 := lt_swap a' b' .eq
  rw [show Ordering.eq = Ordering.eq.swap from rfl, e2]
  exact lt_swap a b _

/-- **C92**: links compare by tag, then by pointer; the operators are those of a total order. -/
theorem link_order (a b : Link) :
    (linkRichcmp .lt a b = true ↔ BytesBefore a.tag b.tag ∨ (a.tag = b.tag ∧ BytesBefore a.ptr b.ptr)) ∧
    (linkRichcmp .eq a b = true ↔ a = b) ∧ (linkRichcmp .gt a b = linkRichcmp .lt b a) ∧
    (linkRichcmp .le a b = (linkRichcmp .lt a b || linkRichcmp .eq a b)) ∧ (linkRichcmp .ge a b = (linkRichcmp .gt a b || linkRichcmp .eq a b)) ∧
    (linkRichcmp .ne a b = !linkRichcmp .eq a b) ∧ (linkRichcmp .lt a b = true ∨ a = b ∨ linkRichcmp .lt b a = true) := by
  have hsw : linkCmp b a = (linkCmp a b).swap := lex_swap a.tag b.tag a.ptr b.ptr
  have heq : linkCmp a b = .eq ↔ a = b := by
    constructor
    · intro h
      unfold linkCmp at h
      rcases bytesLt_total a.tag b.tag with h1 | h1 | h1
      · rw [if_pos h1] at h; cases h
      · rw [h1] at h
        simp only [bytesLt_irrefl, Bool.false_eq_true, if_false] at h
        rcases bytesLt_total a.ptr b.ptr with h2 | h2 | h2
        · rw [if_pos h2] at h; cases h
        · cases a; cases b; simp_all
        · rw [if_neg (by rw [bytesLt_asymm h2]; simp), if_pos h2] at h; cases h
      · rw [if_neg (by rw [bytesLt_asymm h1]; simp), if_pos h1] at h; cases h
    · rintro rfl; simp [linkCmp, bytesLt_irrefl]
  have hlt : linkCmp a b = .lt ↔ BytesBefore a.tag b.tag ∨ (a.tag = b.tag ∧ BytesBefore a.ptr b.ptr) := by
    rw [bytesBefore_iff, bytesBefore_iff]
    unfold linkCmp
    rcases bytesLt_total a.tag b.tag with h1 | h1 | h1
    · simp [h1]
    · rw [h1]
      simp only [bytesLt_irrefl, Bool.false_eq_true, if_false, false_or, true_and]
      by_cases h2 : bytesLt a.ptr b.ptr = true
      · simp [h2]
      · simp only [h2, if_false, iff_false, Bool.false_eq_true]; split <;> simp
    · have := bytesLt_asymm h1
      have hn : a.tag ≠ b.tag := (bytesLt_ne h1).symm
      simp [h1, this, hn]
  unfold linkRichcmp
  rw [hsw]
  refine ⟨by rw [← hlt]; simp [CmpOp.holds], by rw [← heq]; simp [CmpOp.holds], ?_⟩
  rw [← heq]
  cases linkCmp a b <;> decide

/-! ### concrete packets -/

/-- A point at a space, in the bytes of a packet. -/
def exQ (space : List Bytes) (stamp : Nat) : NetPkt :=
  ⟨List.replicate 32 0, toyCrypto.hash (Content.link (exLink space stamp)).layout, (Content.link (exLink space stamp)).layout⟩
theorem exQ_holds (space : List Bytes) (stamp : Nat) (hs : IsSpace (encodeSpace space) space) (hst : stamp < 2 ^ 64)
    (hr : Rooted.checkComponents (rootedOf space) = .ok ()) : Holds toyCrypto (exQ space stamp) (.link (exLink space stamp)) :=
  holds_mk (c := .link (exLink space stamp)) toyCrypto_laws (exPkt_is space stamp 0 hs hst hr).valid trivial _ List.length_replicate
theorem exQ_sorts (space : List Bytes) (stamp : Nat) (hs : IsSpace (encodeSpace space) space) (h8 : space.length ≤ 8) (h : Bytes) :
    SortsBy h (.link (exLink space stamp)) (.tree ⟨List.replicate 32 5, List.replicate 16 6, space, List.replicate 32 0, stamp, h⟩) :=
  ⟨exLink space stamp, rfl, ⟨hs, h8, .inl rfl⟩, rfl, rfl, rfl, rfl, rfl⟩

/-- The attributes of a point with two components, and the comparison of that point with a data point and with one at a space that is not as deep. -/
example : Holds toyCrypto (exQ [[97], [98, 99]] 7) (.link (exLink [[97], [98, 99]] 7)) ∧ compList true (exQ [[97], [98, 99]] 7) = .ok (some [[97], [98, 99]]) := by
  have hs : IsSpace (encodeSpace [[97], [98, 99]]) [[97], [98, 99]] := ⟨by simp [ValidComps], rfl, by decide⟩
  have h := exQ_holds [[97], [98, 99]] 7 hs (by decide) (by decide)
  exact ⟨h, (attributes_components true h (l := exLink [[97], [98, 99]] 7) rfl ⟨hs, by decide, .inl rfl⟩).2.2.2⟩
example (recv : Nat) : ∃ r, richcmp true .lt (PyPkt.new recv (exQ [[98]] 7)) (PyPkt.new recv (exQ [[97], [97]] 3)) = .ok r ∧ r = true := by
  have h1 : IsSpace (encodeSpace [[98]]) [[98]] := ⟨by simp [ValidComps], rfl, by decide⟩
  have h2 : IsSpace (encodeSpace [[97], [97]]) [[97], [97]] := ⟨by simp [ValidComps], rfl, by decide⟩
  have hne : (exQ [[98]] 7).hash ≠ (exQ [[97], [97]] 3).hash := by decide +kernel
  obtain ⟨r, hr, hi⟩ := py_lt true (a := PyPkt.new recv (exQ [[98]] 7)) (b := PyPkt.new recv (exQ [[97], [97]] 3)) (exQ_holds _ _ h1 (by decide) (by decide))
    (exQ_holds _ _ h2 (by decide) (by decide)) (exQ_sorts _ _ h1 (by decide) _) (exQ_sorts _ _ h2 (by decide) _) hne
  exact ⟨r, hr, hi.2 (.inl (.inr ⟨rfl, .inr ⟨rfl, .inl (show 1 < 2 by decide)⟩⟩))⟩
/-- A stored packet with a hash that is not its own panics when it becomes a Python object. -/
example : PyPkt.ofPtr toyCrypto true 5 { exQ [[98]] 7 with hash := List.replicate 32 0 } = .error .panic :=
  (object_of_bytes toyCrypto true 5 (c := .link (exLink [[98]] 7)) (exQ_holds _ _ ⟨by simp [ValidComps], rfl, by decide⟩ (by decide) (by decide)).valid rfl).2
    (fun h => absurd h.2 (by decide +kernel))
/-- Two links with the same tag are sorted by pointer. -/
example : linkRichcmp .lt ⟨List.replicate 16 1, List.replicate 32 1⟩ ⟨List.replicate 16 1, List.replicate 32 2⟩ = true := by decide

end Verif.Props
