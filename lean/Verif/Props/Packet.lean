import Verif.Lemmas.Packet2
import Verif.Props.Space
/-!
# C01–C09: points and packets
-/
namespace Verif.Props
open Verif Verif.Spec Verif.Pkt

/-! ## C01 build, serialise, read back -/

/-- Every built packet is described by one allowed, properly signed content. -/
theorem built_content {C : Crypto} (L : C.Laws) {p : NetParts} (h : Built C p) :
    ∃ c : Content, c.Valid ∧ c.Sealed C ∧ p.netHeader.length = 32 ∧ p.hash = C.hash c.layout ∧ p.parts = c.parts := by
  cases h with
  | data d nh hn h =>
    unfold tryDatapoint at h
    split at h
    · cases h
    rename_i hd he
    have hs : d.length ≤ 65020 := by
      apply Classical.byContradiction
      intro hc
      rw [newContentLen, newPointSize_big (by omega)] at he; cases he
    have hv : (Content.data d).Valid := ⟨by simp only [Content.size]; omega, trivial⟩
    have := newContentLen_eq hv (n := d.length) (by simp only [Content.size]; omega)
    rw [show tData = (Content.data d).type from rfl, this] at he
    cases he
    cases h
    exact ⟨.data d, hv, trivial, hn, by rw [Parts.computeHash, ← segments_layout]; rfl, rfl⟩
  | error d nh hn h =>
    unfold errorpoint at h
    split at h
    · cases h
    rename_i hd he
    have hs : d.length ≤ 65020 := by
      apply Classical.byContradiction
      intro hc
      rw [newContentLen, newPointSize_big (by omega)] at he; cases he
    have hv : (Content.error d).Valid := ⟨by simp only [Content.size]; omega, trivial⟩
    have := newContentLen_eq hv (n := d.length) (by simp only [Content.size]; omega)
    rw [show tError = (Content.error d).type from rfl, this] at he
    cases he
    cases h
    exact ⟨.error d, hv, trivial, hn, by rw [Parts.computeHash, ← segments_layout]; rfl, rfl⟩
  | point group domain rspace data nh links stamp key hn hg hd hs hl h =>
    have hr : Rooted.checkComponents rspace = .ok () := by
      apply Classical.byContradiction
      intro hc
      have : linkp group domain rspace links data stamp = .error .panic := by
        unfold linkp
        split
        · rfl
        · exact absurd ‹_› hc
      cases key <;> simp [tryPoint, tryLinkpoint, tryKeypoint, this] at h
    have hsz : LinkContent.Sized ⟨group, domain, stamp, links, rspace, data⟩ := ⟨hg, hd, hs, hl, hr⟩
    have := tryPoint_eq (C := C) hsz key nh
    simp only [] at this
    rw [this] at h
    split at h
    · cases h
      exact ⟨_, contentOf_valid L hsz key ‹_›, contentOf_sealed L _ _, hn, rfl, rfl⟩
    · cases h

theorem segments_take7 (c : Content) : (c.parts.segments.take 7).flatten = c.layout ∧ c.parts.segments.getD 7 [] = [] := by
  rw [← segments_layout, Segments.bytes]
  cases c <;> simp [Content.parts, Parts.segments, Content.fields, Segments.fromArray, List.replicate]

/-- C01: a built packet is written as routing header, hash and the layout of its content. -/
theorem built_bytes {C : Crypto} (L : C.Laws) (dbg : Bool) {p : NetParts} (h : Built C p) :
    ∃ c : Content, c.Valid ∧ c.Sealed C ∧ p.parts = c.parts ∧ p.hash = C.hash c.layout ∧
      lkWriteParts dbg p true = .ok (p.netHeader ++ p.hash ++ c.layout) := by
  obtain ⟨c, hv, hs, hn, hh, hp⟩ := built_content L h
  refine ⟨c, hv, hs, hp, hh, ?_⟩
  obtain ⟨h7, h8⟩ := segments_take7 c
  simp only [lkWriteParts, if_true, NetParts.segments, Segments.pushFront, hp, h8]
  simp [Segments.bytes, h7]

/-- C01: build, write, read back, with anything behind it in the buffer: the packet that is read has the same
routing header, the same hash and the same fields, and the rest of the buffer is returned. -/
theorem build_write_read {C : Crypto} (L : C.Laws) (dbg dbg' : Bool) {p : NetParts} (h : Built C p) (rest : Bytes) :
    ∃ bytes q, lkWriteParts dbg p true = .ok bytes ∧ lkRead C dbg' (bytes ++ rest) true = .ok (q, rest) ∧
      q.netHeader = p.netHeader ∧ q.hash = p.hash ∧ q.parts dbg' = .ok p.parts ∧ lkWrite q true = .ok bytes := by
  obtain ⟨c, hv, hs, hp, hh, hw⟩ := built_bytes L dbg h
  obtain ⟨_, _, _, hn, _, _⟩ := built_content L h
  have hl : p.hash.length = 32 := by rw [hh]; exact L.hash_len _
  refine ⟨_, ⟨p.netHeader, p.hash, c.layout⟩, hw, ?_, rfl, rfl, ?_, ?_⟩
  · unfold lkRead lkReadWith
    rw [readPkt_append C dbg' false hv hn hl, (check_layout hv).2 (fun _ => ⟨hs, hh⟩)]
    simp only [if_true, NetPkt.size, PointHeader.size, ofBytes_layout hv, paddedSize_eq, ← layout_length hv]
    congr 2
    rw [show c.layout.length + 32 + 32 = (p.netHeader ++ p.hash ++ c.layout).length by simp [hn, hl]; omega]
    rw [List.drop_left' rfl]
  · rw [NetPkt.parts, parts_layout dbg' hv, hp]
  · simp [lkWrite, NetPkt.bytes]

/-- C01: copying a built packet into its byte form (`as_netbox`) never panics and gives the same bytes. -/
theorem build_netbox {C : Crypto} (L : C.Laws) (dbg : Bool) {p : NetParts} (h : Built C p) :
    ∃ q, p.asNetbox C dbg = .ok q ∧ lkWriteParts dbg p true = .ok q.bytes ∧ q.hash = p.hash ∧
      q.netHeader = p.netHeader ∧ q.parts dbg = .ok p.parts := by
  obtain ⟨c, hv, hs, hp, hh, hw⟩ := built_bytes L dbg h
  obtain ⟨_, _, _, hn, _, _⟩ := built_content L h
  have hl : p.hash.length = 32 := by rw [hh]; exact L.hash_len _
  refine ⟨⟨p.netHeader, p.hash, c.layout⟩, ?_, hw, rfl, rfl, ?_⟩
  · unfold lkWriteParts at hw
    simp only [if_true] at hw
    split at hw
    · cases hw
    rename_i s hseg
    have hb : s.bytes = p.netHeader ++ p.hash ++ c.layout := by injection hw
    have e1 : s.bytes.take 32 = p.netHeader := by rw [hb, List.append_assoc, List.take_left' hn]
    have e2 : (s.bytes.drop 32).take 32 = p.hash := by
      rw [hb, List.append_assoc, List.drop_left' hn, List.take_left' hl]
    have e3 : s.bytes.drop 64 = c.layout := by rw [hb, List.drop_left' (by simp [hn, hl])]
    unfold NetParts.asNetbox
    simp only [hseg, e1, e2, e3, (check_layout (dbg := dbg) (nh := p.netHeader) hv).2 (fun _ => ⟨hs, hh⟩)]
    simp [Except.isOk, Except.toBool]
  · rw [NetPkt.parts, parts_layout dbg hv, hp]

/-- Witness for C01: a signed point with a link, a one component space and data can be built. -/
def witnessPoint : Res NetParts :=
  tryPoint toyCrypto (List.replicate 32 1) (List.replicate 16 2) (rootedOf [[104, 105]])
    [⟨List.replicate 16 3, List.replicate 32 4⟩] [5, 6, 7] 1000 (some (9 : UInt8)) (List.replicate 32 0)

theorem witness_sized : LinkContent.Sized ⟨List.replicate 32 1, List.replicate 16 2, 1000,
    [⟨List.replicate 16 3, List.replicate 32 4⟩], rootedOf [[104, 105]], [5, 6, 7]⟩ := by
  refine ⟨by simp, by simp, by decide, ?_, by decide⟩
  intro l hl; simp only [List.mem_singleton] at hl; subst hl; simp

theorem witness_built : ∃ p, witnessPoint = .ok p ∧ Built toyCrypto p := by
  have h := tryPoint_eq (C := toyCrypto) witness_sized (some (9 : UInt8)) (List.replicate 32 0)
  rw [if_pos (by show LinkContent.len _ + 96 ≤ 65024; decide)] at h
  exact ⟨_, h, .point _ _ _ _ _ _ _ _ (by simp) (by simp) (by simp) (by decide) witness_sized.links h⟩

/-! ## C02 an accepted packet is what its hash says it is -/

/-- C02: what `lk_read` accepts, exactly.  A buffer is accepted if and only if it starts with 32 routing bytes,
a hash and the layout of an allowed content, such that the hash is that of the point bytes and a key point is
signed.  The result consists of exactly these bytes and the rest. -/
theorem read_iff (C : Crypto) (dbg : Bool) (buf rest : Bytes) (p : NetPkt) :
    lkRead C dbg buf true = .ok (p, rest) ↔
      ∃ c : Content, c.Valid ∧ c.Sealed C ∧ p.point = c.layout ∧ p.netHeader.length = 32 ∧ p.hash.length = 32 ∧
        p.hash = C.hash c.layout ∧ buf = p.netHeader ++ p.hash ++ p.point ++ rest := by
  unfold lkRead lkReadWith
  constructor
  · intro h
    split at h
    · cases h
    rename_i q hq
    simp only [if_true] at h
    obtain ⟨c, rest', hv, hp, h1, h2, hb, hs⟩ := (readPkt_ok_iff C dbg false buf q).1 hq
    obtain ⟨hs1, hs2⟩ := hs rfl
    cases h
    refine ⟨c, hv, hs1, hp, h1, h2, hp ▸ hs2, ?_⟩
    have : buf.drop p.size = rest' := by
      rw [hb, NetPkt.size, hp, ofBytes_layout hv, PointHeader.size, paddedSize_eq, ← layout_length hv, List.drop_left']
      simp [h1, h2]; omega
    rw [this]; exact hb
  · rintro ⟨c, hv, hs, hp, h1, h2, hh, hb⟩
    have := (readPkt_ok_iff C dbg false buf p).2 ⟨c, rest, hv, hp, h1, h2, hb, fun _ => ⟨hs, hp ▸ hh⟩⟩
    rw [this]
    simp only [if_true]
    congr 2
    rw [hb, NetPkt.size, hp, ofBytes_layout hv, PointHeader.size, paddedSize_eq, ← layout_length hv, List.drop_left']
    simp [h1, h2]; omega

/-- C02: one byte string is the layout of at most one content. -/
theorem layout_injective {a b : Content} (ha : a.Valid) (hb : b.Valid) (h : a.layout = b.layout) : a = b := by
  have e : a.parts = b.parts := by
    have h1 := parts_layout false ha
    have h2 := parts_layout false hb
    rw [h, h2] at h1; injection h1 with h1; exact h1.symm
  have e := congrArg Parts.fields e
  simp only [Content.parts] at e
  cases a with
  | data => cases b <;> simp_all [Content.fields]
  | error => cases b <;> simp_all [Content.fields]
  | link a =>
    cases b with
    | link b =>
      cases a; cases b
      simp only [Content.fields, Fields.link.injEq, LinkHead.mk.injEq, Tail.mk.injEq] at e
      simp [e]
    | _ => simp [Content.fields] at e
  | key a =>
    cases b with
    | key b =>
      cases a; cases b
      simp only [Content.fields, Fields.key.injEq, LinkHead.mk.injEq, Tail.mk.injEq, Signed.mk.injEq] at e
      simp [e]
    | _ => simp [Content.fields] at e

/-- C02: two accepted packets with the same hash carry the same point, unless they exhibit a hash collision. -/
theorem same_hash_same_point (C : Crypto) (dbg : Bool) {b1 b2 r1 r2 : Bytes} {p q : NetPkt}
    (h1 : lkRead C dbg b1 true = .ok (p, r1)) (h2 : lkRead C dbg b2 true = .ok (q, r2)) (hh : p.hash = q.hash) :
    (p.point = q.point ∧ p.parts dbg = q.parts dbg) ∨ (p.point ≠ q.point ∧ C.hash p.point = C.hash q.point) := by
  obtain ⟨c, hv, _, hp, _, _, he, _⟩ := (read_iff C dbg b1 r1 p).1 h1
  obtain ⟨d, _, _, hq, _, _, hf, _⟩ := (read_iff C dbg b2 r2 q).1 h2
  by_cases e : p.point = q.point
  · exact .inl ⟨e, by simp [NetPkt.parts, e]⟩
  · exact .inr ⟨e, by rw [hp, hq, ← he, ← hf, hh]⟩

/-- C02: an accepted packet has readable fields, those of its content, and the accessor never panics. -/
theorem read_parts (C : Crypto) (dbg dbg' : Bool) {buf rest : Bytes} {p : NetPkt}
    (h : lkRead C dbg buf true = .ok (p, rest)) :
    ∃ c : Content, c.Valid ∧ c.Sealed C ∧ p.hash = C.hash c.layout ∧ p.parts dbg' = .ok c.parts := by
  obtain ⟨c, hv, hs, hp, _, _, he, _⟩ := (read_iff C dbg buf rest p).1 h
  exact ⟨c, hv, hs, he, by rw [NetPkt.parts, hp, parts_layout dbg' hv]⟩

/-- C02: `lk_read_unchecked` in a build without debug assertions is `lk_read` (it validates the hash), and with
debug assertions it accepts any hash and any signature. -/
theorem read_unchecked_is_checked (C : Crypto) (buf : Bytes) (ap : Bool) :
    lkReadUnchecked C false buf ap = lkRead C false buf ap := rfl

/-! ## C03 size limits -/

/-- C03: `lk_datapoint` succeeds exactly up to 65020 bytes of data. -/
theorem datapoint_iff (C : Crypto) (data nh : Bytes) :
    (∃ p, tryDatapoint C data nh = .ok p) ↔ 4 + data.length ≤ 65024 := by
  constructor
  · rintro ⟨p, h⟩
    apply Classical.byContradiction
    intro hc
    unfold tryDatapoint at h
    rw [newContentLen, newPointSize_big (by omega)] at h; cases h
  · intro h
    have hv : (Content.data data).Valid := ⟨by simp only [Content.size]; omega, trivial⟩
    have := newContentLen_eq hv (n := data.length) (by simp only [Content.size]; omega)
    unfold tryDatapoint
    rw [show tData = (Content.data data).type from rfl, this]
    exact ⟨_, rfl⟩

/-- C03: a link or key point is built exactly when 64 bytes of headers, 48 per link, the space, the data and 96
for a signature together are at most 65024; otherwise the error is `ContentLen`. -/
theorem point_iff (C : Crypto) (c : LinkContent) (h : c.Sized) (key : Option C.Key) (nh : Bytes) :
    ((∃ p, tryPoint C c.group c.domain c.rspace c.links c.data c.stamp key nh = .ok p) ↔
      64 + 48 * c.links.length + c.rspace.length + c.data.length + (if key.isSome then 96 else 0) ≤ 65024) ∧
    ((¬ ∃ p, tryPoint C c.group c.domain c.rspace c.links c.data c.stamp key nh = .ok p) →
      tryPoint C c.group c.domain c.rspace c.links c.data c.stamp key nh = .error (.err .contentLen)) := by
  rw [tryPoint_eq h]
  have hs : (contentOf C c key).size =
      64 + 48 * c.links.length + c.rspace.length + c.data.length + (if key.isSome then 96 else 0) := by
    cases key <;> rfl
  split
  · rename_i hx; exact ⟨⟨fun _ => hs ▸ hx, fun _ => ⟨_, rfl⟩⟩, fun hn => absurd ⟨_, rfl⟩ hn⟩
  · rename_i hx
    refine ⟨⟨?_, fun hh => absurd (hs ▸ hh) hx⟩, fun _ => rfl⟩
    rintro ⟨p, hp⟩; cases hp

/-- C03: a built packet is a multiple of 8 bytes and at most 65088 bytes, and the size its header declares is
the number of bytes written. -/
theorem built_size {C : Crypto} (L : C.Laws) (dbg : Bool) {p : NetParts} (h : Built C p) :
    ∃ bytes, lkWriteParts dbg p true = .ok bytes ∧ bytes.length % 8 = 0 ∧ bytes.length ≤ 65088 ∧
      bytes.length = p.parts.header.size := by
  obtain ⟨c, hv, hs, hp, hh, hw⟩ := built_bytes L dbg h
  obtain ⟨_, _, _, hn, _, _⟩ := built_content L h
  have hl : p.hash.length = 32 := by rw [hh]; exact L.hash_len _
  have := layout_length hv
  have h1 := hv.1
  refine ⟨_, hw, ?_, ?_, ?_⟩
  · simp only [List.length_append, hn, hl, this, padTo8]; omega
  · simp only [List.length_append, hn, hl, this, padTo8]; omega
  · simp only [List.length_append, hn, hl, this, hp, Content.parts, PointHeader.size, paddedSize_eq]; omega

/-! ## C04 calc_free_space -/

theorem rootedOf_len (cs : List Bytes) :
    (rootedOf cs).length = if cs = [] then 0 else (encodeSpace cs).length + 8 := by
  unfold rootedOf
  split
  · rfl
  · simp [rootedWith]; omega

theorem calc_eq {sp : Bytes} {cs : List Bytes} (h : IsSpace sp cs) (links : List Link) (data : Bytes) (signed : Bool) :
    calcFreeSpace sp links data signed =
      (65020 - (if signed then 96 else 60) : Int) - 48 * links.length - (rootedOf cs).length - data.length := by
  have he : sp = [] ↔ cs = [] := by
    rw [h.enc]
    cases cs with
    | nil => simp [encodeSpace]
    | cons c cs => simp [encodeSpace]
  rw [rootedOf_len]
  unfold calcFreeSpace
  by_cases hc : cs = []
  · have := he.2 hc; subst this
    cases signed <;> simp [hc, maxLinkpointData, maxKeypointData, maxContentSize, maxPointSize] <;> omega
  · have hsp : sp ≠ [] := fun e => hc (he.1 e)
    have : sp.isEmpty = false := by cases sp <;> simp_all
    rw [← h.enc]
    cases signed <;> simp [hc, this, maxLinkpointData, maxKeypointData, maxContentSize, maxPointSize] <;> omega

/-- C04 for unsigned points: adding `extra` bytes of data to a point can be built exactly when there are at most
`calc_free_space` of them.  The same for signed points is false, see `calc_free_space_signed_wrong`. -/
theorem calc_free_space_partial (C : Crypto) {sp : Bytes} {cs : List Bytes} (h : IsSpace sp cs)
    (c : LinkContent) (hc : c.Sized) (hr : c.rspace = rootedOf cs) (nh extra : Bytes) :
    (∃ p, tryLinkpoint C c.group c.domain c.rspace c.links (c.data ++ extra) c.stamp nh = .ok p) ↔
      (extra.length : Int) ≤ calcFreeSpace sp c.links c.data false := by
  have hc' : LinkContent.Sized { c with data := c.data ++ extra } := ⟨hc.group, hc.domain, hc.stamp, hc.links, hc.rspace⟩
  have := (point_iff C _ hc' none nh).1
  simp only [tryPoint] at this
  rw [this, calc_eq h, ← hr]
  simp only [List.length_append, Option.isSome_none, Bool.false_eq_true, if_false]
  omega

/-- C04 for signed points: the function reports exactly 60 bytes more than what fits. -/
theorem calc_free_space_signed (C : Crypto) {sp : Bytes} {cs : List Bytes} (h : IsSpace sp cs)
    (c : LinkContent) (hc : c.Sized) (hr : c.rspace = rootedOf cs) (k : C.Key) (nh extra : Bytes) :
    (∃ p, tryKeypoint C c.group c.domain c.rspace c.links (c.data ++ extra) c.stamp k nh = .ok p) ↔
      (extra.length : Int) + 60 ≤ calcFreeSpace sp c.links c.data true := by
  have hc' : LinkContent.Sized { c with data := c.data ++ extra } := ⟨hc.group, hc.domain, hc.stamp, hc.links, hc.rspace⟩
  have := (point_iff C _ hc' (some k) nh).1
  simp only [tryPoint] at this
  rw [this, calc_eq h, ← hr]
  simp only [List.length_append, Option.isSome_some, if_true]
  omega

/-- C04 is false for signed points: with no space, no links and 64924 bytes of data the function reports that the
point fits with 0 bytes free, and building it fails. -/
theorem calc_free_space_signed_wrong (C : Crypto) (k : C.Key) (nh : Bytes) :
    calcFreeSpace [] [] (List.replicate 64924 7) true = 0 ∧
      tryKeypoint C (List.replicate 32 1) (List.replicate 16 2) [] [] (List.replicate 64924 7) 0 k nh
        = .error (.err .contentLen) := by
  constructor
  · rw [calc_eq (cs := []) Space.isSpace_nil, List.length_replicate]; rfl
  · have hc : LinkContent.Sized ⟨List.replicate 32 1, List.replicate 16 2, 0, [], [], List.replicate 64924 7⟩ :=
      ⟨by simp, by simp, by decide, (by simp [LinksSized]), by decide⟩
    have := tryPoint_eq (C := C) hc (some k) nh
    rw [if_neg] at this
    · exact this
    · simp only [contentOf, Content.size, LinkContent.len, List.length_replicate]; omega

/-- Witness for C04: the hypotheses hold for a two component space. -/
example : IsSpace (encodeSpace [[97], [98, 99]]) [[97], [98, 99]] :=
  ⟨by intro c hc; simp at hc; rcases hc with rfl | rfl <;> simp, rfl, by decide⟩

/-! ## C05 a partial packet asks for more -/

/-- C05: every strict prefix of a built packet gives a request for more bytes, never more than the packet has. -/
theorem prefix_needs_more {C : Crypto} (L : C.Laws) (dbg dbg' skip : Bool) {p : NetParts} (h : Built C p) :
    ∃ bytes, lkWriteParts dbg p true = .ok bytes ∧
      ∀ n < bytes.length, ∃ e m, readPkt C dbg' (bytes.take n) skip = .error (.err e) ∧ e.requiresMore = some m ∧
        n < m ∧ m ≤ bytes.length ∧ (68 ≤ n → m = bytes.length) := by
  obtain ⟨c, hv, hs, hp, hh, hw⟩ := built_bytes L dbg h
  obtain ⟨_, _, _, hn, _, _⟩ := built_content L h
  have hl : p.hash.length = 32 := by rw [hh]; exact L.hash_len _
  have h8 := layout_ge8 hv
  refine ⟨_, hw, ?_⟩
  intro n hnl
  have hlen : (p.netHeader ++ p.hash ++ c.layout).length = 64 + c.layout.length := by simp [hn, hl]; omega
  by_cases h68 : n < 68
  · refine ⟨.missingHeader, 68, ?_, rfl, h68, by omega, by omega⟩
    unfold readPkt
    rw [if_pos]
    rw [List.length_take]; unfold minNetpktSize; omega
  · refine ⟨.missingBytes (p.netHeader ++ p.hash ++ c.layout).length, _, ?_, rfl, hnl, by omega, fun _ => rfl⟩
    have e : ((p.netHeader ++ p.hash ++ c.layout).take n).drop 64 = c.layout.take (n - 64) := by
      rw [List.drop_take, List.drop_left' (by simp [hn, hl])]
    unfold readPkt
    rw [if_neg (by rw [List.length_take]; unfold minNetpktSize; omega)]
    simp only [e]
    rw [ofBytes_take (by omega), ofBytes_layout hv, header_check hv]
    simp only [PointHeader.size, paddedSize_eq, ← layout_length hv]
    rw [if_pos (by rw [List.length_take]; omega)]
    congr 3
    omega

/-! ## C08 private group -/

theorem privateGroup_eq : privateGroup = zeroGroup := rfl

theorem checkPrivate_layout {c : Content} (hv : c.Valid) :
    checkPrivate c.layout = if c.group? = some zeroGroup then .error (.err .privateGroup) else .ok () := by
  unfold checkPrivate linkpointHeader
  cases c with
  | data b => simp [fixed_data hv, Content.group?]
  | error b => simp [fixed_error hv, Content.group?]
  | link c => simp [fixed_link hv, Content.group?, headOf, privateGroup_eq]; exact ite_congr rfl (fun _ => rfl) (fun _ => rfl)
  | key c pk sig => simp [fixed_key hv, Content.group?, headOf, privateGroup_eq]; exact ite_congr rfl (fun _ => rfl) (fun _ => rfl)

/-- C08: with `allow_private = false`, `lk_read` is `lk_read` with `true` except that points of the private group
are refused. -/
theorem read_private (C : Crypto) (dbg : Bool) (buf rest : Bytes) (p : NetPkt) :
    lkRead C dbg buf false = .ok (p, rest) ↔
      lkRead C dbg buf true = .ok (p, rest) ∧
        ∀ c : Content, c.Valid → p.point = c.layout → c.group? ≠ some zeroGroup := by
  constructor
  · intro h
    have h' : lkRead C dbg buf true = .ok (p, rest) := by
      unfold lkRead lkReadWith at h ⊢
      split at h
      · cases h
      rename_i q hq
      simp only [Bool.false_eq_true, if_false, if_true] at h ⊢
      split at h
      · cases h
      · exact h
    refine ⟨h', ?_⟩
    intro c hv hp hg
    unfold lkRead lkReadWith at h
    split at h
    · cases h
    rename_i q hq
    simp only [Bool.false_eq_true, if_false] at h
    split at h
    · cases h
    rename_i hc
    cases h
    rw [hp, checkPrivate_layout hv, if_pos hg] at hc
    cases hc
  · rintro ⟨h, hg⟩
    obtain ⟨c, hv, hs, hp, h1, h2, hh, hb⟩ := (read_iff C dbg buf rest p).1 h
    unfold lkRead lkReadWith at h ⊢
    split at h
    · cases h
    rename_i q hq
    simp only [Bool.false_eq_true, if_false, if_true] at h ⊢
    cases h
    rw [hp, checkPrivate_layout hv, if_neg (hg c hv hp)]

/-- C08: writing.  For a packet with content `c`, in either form, `allow_private = false` refuses exactly the
private group and changes nothing else. -/
theorem write_private (dbg : Bool) (nh h : Bytes) {c : Content} (hv : c.Valid) :
    (lkWrite ⟨nh, h, c.layout⟩ false =
      if c.group? = some zeroGroup then .error (.err .privateGroup) else lkWrite ⟨nh, h, c.layout⟩ true) ∧
    (lkWriteParts dbg ⟨nh, h, c.parts⟩ false =
      if c.group? = some zeroGroup then .error (.err .privateGroup)
      else lkWriteParts dbg ⟨nh, h, c.parts⟩ true) := by
  constructor
  · unfold lkWrite
    simp only [Bool.false_eq_true, if_false, if_true, checkPrivate_layout hv]
    by_cases hg : c.group? = some zeroGroup
    · rw [if_pos hg]; simp [hg]
    · rw [if_neg hg]; simp [hg]
  · unfold lkWriteParts
    simp only [Bool.false_eq_true, if_false, if_true]
    have : c.parts.checkPrivate = if c.group? = some zeroGroup then .error .privateGroup else .ok () := by
      cases c <;> simp [Parts.checkPrivate, Content.parts, Content.fields, Content.group?, privateGroup_eq] <;> exact ite_congr rfl (fun _ => rfl) (fun _ => rfl)
    rw [this]
    by_cases hg : c.group? = some zeroGroup
    · simp [hg]
    · simp [hg]

end Verif.Props
