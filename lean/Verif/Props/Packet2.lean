import Verif.Props.Packet
/-!
# C06, C07, C09: streams, panics, routing headers
-/
namespace Verif.Props
open Verif Verif.Spec Verif.Pkt

/-! ## C06 a stream of packets -/

/-- The packets of a stream with the bytes they are written as. -/
def IsPkt (C : Crypto) (q : NetPkt) : Prop :=
  ∃ c : Content, c.Valid ∧ c.Sealed C ∧ q.point = c.layout ∧ q.netHeader.length = 32 ∧ q.hash.length = 32 ∧
    q.hash = C.hash c.layout

/-- Every built packet gives such a packet, with the bytes it is written as. -/
theorem built_isPkt {C : Crypto} (L : C.Laws) (dbg : Bool) {p : NetParts} (h : Built C p) :
    ∃ q, IsPkt C q ∧ p.asNetbox C dbg = .ok q ∧ lkWriteParts dbg p true = .ok q.bytes := by
  obtain ⟨q, h1, h2, _, _, _⟩ := build_netbox L dbg h
  obtain ⟨c, hv, hs, hp, hh, hw⟩ := built_bytes L dbg h
  obtain ⟨_, _, _, hn, _, _⟩ := built_content L h
  refine ⟨q, ?_, h1, h2⟩
  obtain ⟨bytes, q', hw', hr, _, _, _, hq⟩ := build_write_read L dbg dbg h []
  rw [h2] at hw'
  injection hw' with hw'
  subst hw'
  rw [List.append_nil] at hr
  obtain ⟨c', hv', hs', hp', h1', h2', hh', hb'⟩ := (read_iff C dbg _ _ _).1 hr
  rw [List.append_nil] at hb'
  -- q and q' have the same bytes and both start with 32 + 32 bytes
  have hlq : q.netHeader.length = 32 ∧ q.hash.length = 32 := by
    obtain ⟨q2, ha, _, hb, hc, _⟩ := build_netbox L dbg h
    rw [h1] at ha; injection ha with ha; subst ha
    exact ⟨by rw [hc]; exact hn, by rw [hb, hh]; exact L.hash_len _⟩
  have e : q.netHeader ++ (q.hash ++ q.point) = q'.netHeader ++ (q'.hash ++ q'.point) := by
    simpa [NetPkt.bytes] using hb'
  obtain ⟨e1, e2⟩ := List.append_inj e (by rw [hlq.1, h1'])
  obtain ⟨e3, e4⟩ := List.append_inj e2 (by rw [hlq.2, h2'])
  exact ⟨c', hv', hs', by rw [e4, hp'], hlq.1, hlq.2, by rw [e3, hh']⟩

theorem isPkt_length {C : Crypto} {q : NetPkt} (h : IsPkt C q) : 72 ≤ q.bytes.length := by
  obtain ⟨c, hv, _, hp, h1, h2, _⟩ := h
  have := layout_ge8 hv
  simp [NetPkt.bytes, hp, h1, h2]; omega

/-- C06: reading the front of the concatenated bytes again and again yields the packets in order, and nothing is
left over. -/
theorem read_stream (C : Crypto) (dbg : Bool) (qs : List NetPkt) (h : ∀ q ∈ qs, IsPkt C q) (fuel : Nat)
    (hf : qs.length < fuel) : readAll C dbg fuel (qs.map NetPkt.bytes).flatten = (qs, none) := by
  induction qs generalizing fuel with
  | nil =>
    cases fuel with
    | zero => omega
    | succ f => simp [readAll]
  | cons q qs ih =>
    cases fuel with
    | zero => omega
    | succ f =>
      have hq := h q (by simp)
      have hl := isPkt_length hq
      obtain ⟨c, hv, hs, hp, h1, h2, hh⟩ := hq
      have hr : lkRead C dbg ((q :: qs).map NetPkt.bytes).flatten true = .ok (q, (qs.map NetPkt.bytes).flatten) :=
        (read_iff C dbg _ _ _).2 ⟨c, hv, hs, hp, h1, h2, hh, by simp [NetPkt.bytes]⟩
      have hne : ((q :: qs).map NetPkt.bytes).flatten ≠ [] := by
        intro hx
        have := congrArg List.length hx
        simp at this
        simp [this.1] at hl
      have := ih (fun x hx => h x (by simp [hx])) f (by simp at hf; omega)
      unfold readAll
      rw [if_neg hne, hr]
      simp only [this]

/-! ### the stream decoder -/

def NonemptyChunks (chunks : List Bytes) : Prop := ∀ c ∈ chunks, c ≠ []

theorem readHeaderLoop_ok (n z : Nat) (chunks : List Bytes) (hne : NonemptyChunks chunks)
    (hl : n ≤ chunks.flatten.length) :
    ∃ r, readHeaderLoop n z chunks = some (chunks.flatten.take n, r) ∧ NonemptyChunks r ∧
      r.flatten = chunks.flatten.drop n := by
  induction chunks generalizing n z with
  | nil =>
    have : n = 0 := by simpa using hl
    subst this
    exact ⟨[], by simp [readHeaderLoop], hne, rfl⟩
  | cons c cs ih =>
    cases n with
    | zero => exact ⟨c :: cs, by simp [readHeaderLoop], hne, rfl⟩
    | succ n =>
      match c, hne with
      | [], hne => exact absurd rfl (hne [] (by simp))
      | x :: xs, hne =>
        have hne' : NonemptyChunks cs := fun y hy => hne y (by simp [hy])
        by_cases hle : (x :: xs).length ≤ n + 1
        · obtain ⟨r, h1, h2, h3⟩ := ih (n + 1 - (x :: xs).length) z hne' (by simp at hl hle ⊢; omega)
          refine ⟨r, ?_, h2, ?_⟩
          · rw [readHeaderLoop, if_pos hle, h1]
            simp only [List.flatten_cons, List.take_append]
            rw [List.take_of_length_le hle]
          · rw [h3, List.flatten_cons, List.drop_append, List.drop_of_length_le hle]; rfl
        · refine ⟨(x :: xs).drop (n + 1) :: cs, ?_, ?_, ?_⟩
          · rw [readHeaderLoop, if_neg hle, List.flatten_cons, List.take_append_of_le_length (by omega)]
          · intro y hy
            simp only [List.mem_cons] at hy
            rcases hy with rfl | hy
            · intro e; simp only [List.drop_succ_cons, List.drop_eq_nil_iff] at e; simp at hle; omega
            · exact hne' y hy
          · rw [List.flatten_cons, List.flatten_cons, List.drop_append_of_le_length (by omega)]

theorem readHeaderLoop_short (n z : Nat) (chunks : List Bytes) (hl : chunks.flatten.length < n) :
    readHeaderLoop n z chunks = none := by
  induction chunks generalizing n z with
  | nil => cases n with
    | zero => simp at hl
    | succ n => rfl
  | cons c cs ih =>
    cases n with
    | zero => omega
    | succ n =>
      match c with
      | [] =>
        rw [readHeaderLoop]
        split
        · rfl
        · exact ih _ _ (by simpa using hl)
      | x :: xs =>
        rw [readHeaderLoop, if_pos (by simp at hl ⊢; omega), ih _ _ (by simp at hl ⊢; omega)]

theorem readExact_ok (n : Nat) (chunks : List Bytes) (hne : NonemptyChunks chunks) (hl : n ≤ chunks.flatten.length) :
    ∃ r, readExact n chunks = some (chunks.flatten.take n, r) ∧ NonemptyChunks r ∧
      r.flatten = chunks.flatten.drop n := by
  induction chunks generalizing n with
  | nil =>
    have : n = 0 := by simpa using hl
    subst this
    exact ⟨[], by simp [readExact], hne, rfl⟩
  | cons c cs ih =>
    cases n with
    | zero => exact ⟨c :: cs, by simp [readExact], hne, rfl⟩
    | succ n =>
      match c, hne with
      | [], hne => exact absurd rfl (hne [] (by simp))
      | x :: xs, hne =>
        have hne' : NonemptyChunks cs := fun y hy => hne y (by simp [hy])
        by_cases hle : (x :: xs).length ≤ n + 1
        · obtain ⟨r, h1, h2, h3⟩ := ih (n + 1 - (x :: xs).length) hne' (by simp at hl hle ⊢; omega)
          refine ⟨r, ?_, h2, ?_⟩
          · rw [readExact, if_pos hle, h1]
            simp only [List.flatten_cons, List.take_append]
            rw [List.take_of_length_le hle]
          · rw [h3, List.flatten_cons, List.drop_append, List.drop_of_length_le hle]; rfl
        · refine ⟨(x :: xs).drop (n + 1) :: cs, ?_, ?_, ?_⟩
          · rw [readExact, if_neg hle, List.flatten_cons, List.take_append_of_le_length (by omega)]
          · intro y hy
            simp only [List.mem_cons] at hy
            rcases hy with rfl | hy
            · intro e; simp only [List.drop_succ_cons, List.drop_eq_nil_iff] at e; simp at hle; omega
            · exact hne' y hy
          · rw [List.flatten_cons, List.flatten_cons, List.drop_append_of_le_length (by omega)]

theorem readExact_short (n : Nat) (chunks : List Bytes) (hl : chunks.flatten.length < n) : readExact n chunks = none := by
  induction chunks generalizing n with
  | nil => cases n with
    | zero => simp at hl
    | succ n => rfl
  | cons c cs ih =>
    cases n with
    | zero => omega
    | succ n =>
      match c with
      | [] => rfl
      | x :: xs =>
        rw [readExact, if_pos (by simp at hl ⊢; omega), ih _ (by simp at hl ⊢; omega)]

/-- What the decoder hands out for a packet. -/
def received (d : Decoder) (q : NetPkt) : NetPkt := if d.hop then { q with netHeader := hopHeader q.netHeader } else q

theorem decoder_next (C : Crypto) (dbg : Bool) (d : Decoder) (q : NetPkt) (h : IsPkt C q)
    (hp : d.allowPrivate = true ∨ checkPrivate q.point = .ok ()) (chunks : List Bytes) (rest : Bytes)
    (hne : NonemptyChunks chunks) (hf : chunks.flatten = q.bytes ++ rest) :
    ∃ r, d.next C dbg chunks = some (.ok (received d q, r)) ∧ NonemptyChunks r ∧ r.flatten = rest := by
  have hl := isPkt_length h
  obtain ⟨c, hv, hs, hpt, h1, h2, hh⟩ := h
  have h8 := layout_ge8 hv
  have hb : q.bytes.length = 64 + c.layout.length := by simp [NetPkt.bytes, hpt, h1, h2]; omega
  obtain ⟨r, e1, e2, e3⟩ := readHeaderLoop_ok 68 0 chunks hne (by rw [hf]; simp; omega)
  have e1t : chunks.flatten.take 68 = q.netHeader ++ (q.hash ++ c.layout.take 4) := by
    rw [hf, List.take_append_of_le_length (by omega), NetPkt.bytes, List.append_assoc, List.take_append, h1,
      List.take_of_length_le (by omega), List.take_append, h2, List.take_of_length_le (by omega), hpt]
  have e3' : r.flatten = c.layout.drop 4 ++ rest := by
    rw [e3, hf, List.drop_append_of_le_length (by omega), NetPkt.bytes, List.drop_append, hpt, List.drop_of_length_le
      (by simp [h1, h2])]
    simp [h1, h2]
  have hof : PointHeader.ofBytes (c.layout.take 4) = ⟨0, c.type, c.size⟩ := by
    rw [ofBytes_take (by omega), ofBytes_layout hv]
  have hsz : (PointHeader.mk 0 c.type c.size).size = 64 + c.layout.length := by
    rw [PointHeader.size, paddedSize_eq, layout_length hv]; omega
  obtain ⟨r', f1, f2, f3⟩ := readExact_ok (c.layout.length - 4) r e2 (by rw [e3']; simp)
  have f1t : r.flatten.take (c.layout.length - 4) = c.layout.drop 4 := by
    rw [e3', List.take_left' (by simp)]
  refine ⟨r', ?_, f2, ?_⟩
  · unfold Decoder.next
    rw [e1, e1t]
    have d64 : (q.netHeader ++ (q.hash ++ c.layout.take 4)).drop 64 = c.layout.take 4 := by
      rw [← List.append_assoc, List.drop_left' (by simp [h1, h2])]
    have d32 : (q.netHeader ++ (q.hash ++ c.layout.take 4)).drop 32 = q.hash ++ c.layout.take 4 := List.drop_left' h1
    simp only [d64, d32, hof, header_check hv, hsz, List.take_left' h1, List.take_left' h2]
    rw [if_neg (by omega), show 64 + c.layout.length - 68 = c.layout.length - 4 by omega, f1, f1t]
    simp only [List.take_append_drop]
    have hck : (NetPkt.mk q.netHeader q.hash c.layout).check C dbg d.skipHash = .ok () := (check_layout hv).2 (fun _ => ⟨hs, hh⟩)
    rw [hck]
    have hpr : (if d.allowPrivate then .ok () else checkPrivate c.layout : Res Unit) = .ok () := by
      rcases hp with hp | hp
      · simp [hp]
      · rw [← hpt, hp]; simp
    simp only [hpr, received, hpt]
    cases q
    simp only at hpt
    rw [hpt]
  · rw [f3, e3', List.drop_left' (by simp)]

/-- C06 for the stream decoder: however the bytes of a list of packets are cut into non-empty reads, it yields the
packets in order (with the hop counted if asked) and then ends without an error.  Packets of the private group
are only let through if the decoder allows them. -/
theorem decoder_stream (C : Crypto) (dbg : Bool) (d : Decoder) (qs : List NetPkt)
    (h : ∀ q ∈ qs, IsPkt C q ∧ (d.allowPrivate = true ∨ checkPrivate q.point = .ok ()))
    (chunks : List Bytes) (hne : NonemptyChunks chunks) (hf : chunks.flatten = (qs.map NetPkt.bytes).flatten)
    (fuel : Nat) (hfuel : qs.length < fuel) :
    d.collect C dbg fuel chunks = (qs.map (received d), none) := by
  induction qs generalizing chunks fuel with
  | nil =>
    cases fuel with
    | zero => omega
    | succ f =>
      unfold Decoder.collect
      have : d.next C dbg chunks = none := by
        unfold Decoder.next
        rw [readHeaderLoop_short _ _ _ (by rw [hf]; simp)]
      rw [this]; rfl
  | cons q qs ih =>
    cases fuel with
    | zero => omega
    | succ f =>
      obtain ⟨hq, hp⟩ := h q (by simp)
      obtain ⟨r, h1, h2, h3⟩ := decoder_next C dbg d q hq hp chunks _ hne (by simpa using hf)
      have := ih (fun x hx => h x (by simp [hx])) r h2 h3 f (by simp at hfuel; omega)
      unfold Decoder.collect
      rw [h1]
      simp only [this, List.map_cons]

/-- C06, what a cut stream looks like: after the complete packets, fewer than 68 further bytes of the next packet
end the iteration as if the stream were complete; from 68 bytes on the decoder reports an error. -/
theorem decoder_cut (C : Crypto) (dbg : Bool) (d : Decoder) (q : NetPkt) (h : IsPkt C q) (n : Nat)
    (hn : n < q.bytes.length) (chunks : List Bytes) (hne : NonemptyChunks chunks)
    (hf : chunks.flatten = q.bytes.take n) :
    d.next C dbg chunks = if n < 68 then none else some (.error .io) := by
  have hl := isPkt_length h
  have hlen : chunks.flatten.length = n := by rw [hf]; simp; omega
  split
  · unfold Decoder.next
    rw [readHeaderLoop_short _ _ _ (by omega)]
  · rename_i h68
    obtain ⟨c, hv, hs, hpt, h1, h2, hh⟩ := h
    have h8 := layout_ge8 hv
    have hb : q.bytes.length = 64 + c.layout.length := by simp [NetPkt.bytes, hpt, h1, h2]; omega
    obtain ⟨r, e1, e2, e3⟩ := readHeaderLoop_ok 68 0 chunks hne (by omega)
    have e1t : chunks.flatten.take 68 = q.netHeader ++ (q.hash ++ c.layout.take 4) := by
      rw [hf, List.take_take, show min 68 n = 68 by omega, NetPkt.bytes, List.append_assoc, List.take_append, h1,
        List.take_of_length_le (by omega), List.take_append, h2, List.take_of_length_le (by omega), hpt]
    have hof : PointHeader.ofBytes (c.layout.take 4) = ⟨0, c.type, c.size⟩ := by
      rw [ofBytes_take (by omega), ofBytes_layout hv]
    have hsz : (PointHeader.mk 0 c.type c.size).size = 64 + c.layout.length := by
      rw [PointHeader.size, paddedSize_eq, layout_length hv]; omega
    unfold Decoder.next
    rw [e1, e1t]
    have d64 : (q.netHeader ++ (q.hash ++ c.layout.take 4)).drop 64 = c.layout.take 4 := by
      rw [← List.append_assoc, List.drop_left' (by simp [h1, h2])]
    simp only [d64, hof, header_check hv, hsz]
    rw [if_neg (by omega), readExact_short _ _ (by rw [e3]; simp; simp at hlen; omega)]

/-- Witness for C06: the packet of `witness_built` is one. -/
example : ∃ q, IsPkt toyCrypto q := by
  obtain ⟨p, _, hp⟩ := witness_built
  obtain ⟨q, hq, _⟩ := built_isPkt toyCrypto_laws false hp
  exact ⟨q, hq⟩

/-! ## C09 the routing header is outside the identity -/

/-- C09: replacing the 32 routing bytes of a buffer by any others changes nothing about how it is read, apart from
the routing header of the result. -/
theorem read_reroute (C : Crypto) (dbg : Bool) (nh nh' body rest : Bytes) (p : NetPkt) (h1 : nh.length = 32)
    (h2 : nh'.length = 32) (h : lkRead C dbg (nh ++ body) true = .ok (p, rest)) :
    lkRead C dbg (nh' ++ body) true = .ok ({ p with netHeader := nh' }, rest) := by
  obtain ⟨c, hv, hs, hp, h3, h4, hh, hb⟩ := (read_iff C dbg _ _ _).1 h
  refine (read_iff C dbg _ _ _).2 ⟨c, hv, hs, hp, h2, h4, hh, ?_⟩
  simp only [List.append_assoc] at hb ⊢
  obtain ⟨e1, e2⟩ := List.append_inj hb (by omega)
  rw [e2]

/-- C09: the fields and the hash of a packet do not depend on the routing header. -/
theorem fields_reroute (dbg : Bool) (p : NetPkt) (nh' : Bytes) :
    ({ p with netHeader := nh' } : NetPkt).parts dbg = p.parts dbg ∧
      ({ p with netHeader := nh' } : NetPkt).hash = p.hash := ⟨rfl, rfl⟩

/-- C09: counting a hop keeps the header at 32 bytes, changes the hop count to its successor (saturating), clears
flag bit 7 and leaves every other byte alone. -/
theorem hop_header (h : Bytes) (hl : h.length = 32) :
    (hopHeader h).length = 32 ∧ (hopHeader h).take 3 = h.take 3 ∧ (hopHeader h).drop 8 = h.drop 8 ∧
      (hopHeader h).getD 3 0 = h.getD 3 0 &&& 127 ∧
      beNat (((hopHeader h).drop 4).take 4) = min (beNat ((h.drop 4).take 4) + 1) (2 ^ 32 - 1) := by
  have hb := beNat_lt ((h.drop 4).take 4)
  have h4 : ((h.drop 4).take 4).length = 4 := by simp; omega
  have h3 : (h.take 3).length = 3 := by simp; omega
  have hmin : beNat (beBytes 4 (min (beNat ((h.drop 4).take 4) + 1) (2 ^ 32 - 1)))
      = min (beNat ((h.drop 4).take 4) + 1) (2 ^ 32 - 1) := beNat_beBytes _ _ (by omega)
  unfold hopHeader
  generalize hN : min (beNat ((h.drop 4).take 4) + 1) (2 ^ 32 - 1) = N at *
  refine ⟨by simp; omega, ?_, ?_, ?_, ?_⟩
  · rw [List.append_assoc, List.append_assoc, List.take_left' h3]
  · rw [List.drop_left' (by simp; omega)]
  · rw [List.append_assoc, List.append_assoc, List.getD_eq_getElem?_getD, List.getElem?_append_right (by omega), h3]; rfl
  · rw [show List.take 3 h ++ [h.getD 3 0 &&& 0x7f] ++ beBytes 4 N ++ List.drop 8 h
      = (List.take 3 h ++ [h.getD 3 0 &&& 0x7f]) ++ (beBytes 4 N ++ List.drop 8 h) by simp,
      List.drop_left' (by simp; omega), List.take_left' (by simp), hmin]

/-- C09: wrapping a packet in byte form with another routing header writes that header, the hash and the point. -/
theorem reroute_bytes (dbg : Bool) (p : NetPkt) (route : Bytes) (h1 : p.netHeader.length = 32) :
    ∃ s, rerouteSegments dbg p.segments route = .ok s ∧ s.bytes = route ++ p.hash ++ p.point := by
  refine ⟨_, by simp [rerouteSegments, NetPkt.segments, Segments.fromArray, Segments.pushFront, List.replicate]; rfl, ?_⟩
  simp [Segments.bytes, NetPkt.bytes, List.drop_left' h1]

/-- C09 is false for a key point in enum form: its eight byte segments are all in use, so wrapping it panics with
debug assertions, and without them the written bytes miss the signature. -/
theorem reroute_keypoint_wrong (nh h route pk sig : Bytes) (c : LinkContent) (h1 : nh.length = 32)
    (h2 : pk.length = 32) :
    ∃ s, NetParts.segments false ⟨nh, h, (Content.key c pk sig).parts⟩ = .ok s ∧
      rerouteSegments true s route = .error .panic ∧
      ∃ s', rerouteSegments false s route = .ok s' ∧ s'.bytes = route ++ h ++ (Content.key c pk sig).unsigned := by
  refine ⟨_, rfl, ?_, _, rfl, ?_⟩
  · have : pk ≠ [] := by intro e; simp [e] at h2
    simp [rerouteSegments, Segments.pushFront, NetParts.segments, Content.parts, Parts.segments, Content.fields,
      Segments.fromArray, List.replicate, Signed.bytes, this]
  · simp [Segments.bytes, Parts.segments, Content.parts, Content.fields, Segments.fromArray, List.replicate,
      Content.unsigned, Content.head, Content.middle, LinkContent.layout, Parts.padding, padding_eq, PointHeader.bytes,
      linksBytes_eq, LinkHead.bytes, List.drop_left' h1]


/-! ### the header mutation option -/

theorem overwrite_slice_same (b v : Bytes) (off : Nat) (h : off + v.length ≤ b.length) :
    ((overwrite b off v).drop off).take v.length = v := by
  rw [overwrite, List.append_assoc, List.drop_left' (by simp; omega), List.take_left' rfl]

theorem overwrite_length (b v : Bytes) (off : Nat) (h : off + v.length ≤ b.length) :
    (overwrite b off v).length = b.length := by simp [overwrite]; omega

theorem overwrite_getElem? (b v : Bytes) (off i : Nat) (h : off + v.length ≤ b.length) :
    (overwrite b off v)[i]? = if i < off then b[i]? else if i < off + v.length then v[i - off]? else b[i]? := by
  rw [overwrite, List.append_assoc, List.getElem?_append]
  have : (b.take off).length = off := by simp; omega
  rw [this]
  split
  · rw [List.getElem?_take_of_lt (by omega)]
  · rw [List.getElem?_append]
    split
    · rw [if_pos (by omega)]
    · rw [if_neg (by omega), List.getElem?_drop]; congr 1; omega

theorem and_255 (x : UInt8) : x &&& 255 = x := by
  apply UInt8.toNat_inj.1
  rw [UInt8.toNat_and]
  exact Nat.and_two_pow_sub_one_of_lt_two_pow (n := 8) x.toNat_lt

/-- The value the last rule for a byte of the header gives it, if any rule covers it. -/
def lastRule (rules : List (RouteField × Bytes)) (i : Nat) : Option UInt8 :=
  rules.foldl (fun acc r => if r.1.range.1 ≤ i ∧ i < r.1.range.1 + r.1.range.2 then r.2[i - r.1.range.1]? else acc) none

theorem range_le (f : RouteField) : f.range.1 + f.range.2 ≤ 32 := by cases f <;> decide

theorem fromRules_inv (rules : List (RouteField × Bytes)) (m0 m : Mutate) (acc : Nat → Option UInt8)
    (hc : m0.clear = List.replicate 32 255) (hl : m0.set.length = 32)
    (ha : ∀ i, i < 32 → m0.set[i]? = some ((acc i).getD 0))
    (h : rules.foldlM (fun m r => m.addRule r.1 r.2) m0 = some m) :
    m.clear = List.replicate 32 255 ∧ m.set.length = 32 ∧
      ∀ i, i < 32 → m.set[i]? = some ((rules.foldl (fun acc r =>
        if r.1.range.1 ≤ i ∧ i < r.1.range.1 + r.1.range.2 then r.2[i - r.1.range.1]? else acc) (acc i)).getD 0) := by
  induction rules generalizing m0 acc with
  | nil =>
    simp only [List.foldlM_nil] at h
    cases h
    exact ⟨hc, hl, ha⟩
  | cons r rules ih =>
    simp only [List.foldlM_cons, Option.bind_eq_bind, Option.bind_eq_some_iff] at h
    obtain ⟨m1, h1, h2⟩ := h
    unfold Mutate.addRule at h1
    split at h1
    · cases h1
    rename_i hv
    have hv : r.2.length = r.1.range.2 := Classical.not_not.1 hv
    cases h1
    have hr := range_le r.1
    refine ih ⟨overwrite m0.clear r.1.range.1 (List.replicate r.2.length 255), overwrite m0.set r.1.range.1 r.2⟩
      (fun i => if r.1.range.1 ≤ i ∧ i < r.1.range.1 + r.1.range.2 then r.2[i - r.1.range.1]? else acc i)
      ?_ ?_ ?_ h2
    · simp only
      rw [hc]
      apply List.ext_getElem?
      intro i
      rw [overwrite_getElem? _ _ _ _ (by simp; omega)]
      simp only [List.length_replicate, List.getElem?_replicate]
      split
      · rfl
      · split
        · rw [if_pos (by omega), if_pos (by omega)]
        · rfl
    · simp only; rw [overwrite_length _ _ _ (by omega), hl]
    · intro i hi
      simp only
      rw [overwrite_getElem? _ _ _ _ (by omega)]
      by_cases h1 : i < r.1.range.1
      · rw [if_pos h1, if_neg (by omega), ha i hi]
      · rw [if_neg h1]
        by_cases h2 : i < r.1.range.1 + r.2.length
        · rw [if_pos h2, if_pos (by omega), List.getElem?_eq_getElem (by omega)]; rfl
        · rw [if_neg h2, if_neg (by omega), ha i hi]

/-- C09, what a list of header mutation rules really does: every byte of the header is or-ed with the value of the
last rule covering it, and kept when no rule does. -/
theorem mutate_eq (rules : List (RouteField × Bytes)) (m : Mutate) (h : Mutate.fromRules rules = some m) (hd : Bytes)
    (hl : hd.length = 32) (i : Nat) (hi : i < 32) :
    (m.apply hd)[i]? = (hd[i]?).map (fun x => x ||| (lastRule rules i).getD 0) := by
  obtain ⟨h1, h2, h3⟩ := fromRules_inv rules Mutate.default m (fun _ => none) rfl (by rfl)
    (by intro i hi; simp only [Mutate.default, Option.getD_none]; rw [List.getElem?_replicate, if_pos hi]) h
  have hc : List.zipWith (fun a b => a &&& b) hd m.clear = hd := by
    rw [h1]
    apply List.ext_getElem?
    intro j
    rw [List.getElem?_zipWith, List.getElem?_replicate]
    by_cases hj : j < 32
    · rw [if_pos hj, List.getElem?_eq_getElem (by omega)]
      simp [and_255]
    · rw [if_neg hj, List.getElem?_eq_none (by omega)]
  unfold Mutate.apply
  rw [hc, List.getElem?_zipWith, h3 i hi, List.getElem?_eq_getElem (by omega)]
  simp [lastRule]

/-- C09, partial: a header mutation sets the bytes its rules cover to the requested value if those bytes were zero
before, and leaves every byte no rule covers alone.  The general claim is `mutate_wrong` below. -/
theorem mutate_partial (rules : List (RouteField × Bytes)) (m : Mutate) (h : Mutate.fromRules rules = some m) (hd : Bytes)
    (hl : hd.length = 32) (i : Nat) (hi : i < 32) :
    (lastRule rules i = none → (m.apply hd)[i]? = hd[i]?) ∧
    (∀ v, lastRule rules i = some v → hd[i]? = some 0 → (m.apply hd)[i]? = some v) := by
  have e := mutate_eq rules m h hd hl i hi
  refine ⟨fun hn => ?_, fun v hv h0 => ?_⟩
  · rw [e, hn]; simp
  · rw [e, hv, h0]; simp

/-- C09 is false in general: asking for hop count 1 on a header with hop count 2 gives hop count 3. -/
theorem mutate_wrong : ∃ m hd, Mutate.fromRules [(.hop, [0, 0, 0, 1])] = some m ∧ hd.length = 32 ∧
    (hd.drop 4).take 4 = [0, 0, 0, 2] ∧ ((m.apply hd).drop 4).take 4 = [0, 0, 0, 3] :=
  ⟨_, List.replicate 7 0 ++ [2] ++ List.replicate 24 0, rfl, by decide, by decide, by decide⟩

/-- Witness for `mutate_eq`: a two-rule mutation whose rules are accepted. -/
example : ∃ m, Mutate.fromRules [(.hop, [0, 0, 0, 1]), (.flags, [128])] = some m := ⟨_, rfl⟩

/-! ## C07 reading never panics -/

theorem check_header_iff (h : PointHeader) : (∃ h', h.check = .ok h') ↔
    h.reserved = 0 ∧ h.uset ≤ 65024 ∧
      (h.ptype = tData ∨ h.ptype = tError ∨ (h.ptype = tLink ∧ 64 ≤ h.uset) ∨ (h.ptype = tKey ∧ 160 ≤ h.uset)) := by
  refine ⟨fun ⟨h', e⟩ => header_check_ok e, fun ⟨h0, h1, h2⟩ => ?_⟩
  unfold PointHeader.check
  rw [if_neg (by rw [h0]; decide)]
  simp only []
  rw [if_neg (by unfold PointHeader.contentSize maxContentSize maxPointSize; omega)]
  rcases h2 with e | e | ⟨e, h3⟩ | ⟨e, h3⟩
  · rw [if_pos e]; exact ⟨_, rfl⟩
  · rw [if_neg (by rw [e]; decide), if_neg (by rw [e]; decide), if_neg (by rw [e]; decide), if_pos e]; exact ⟨_, rfl⟩
  · rw [if_neg (by rw [e]; decide), if_pos e, if_pos (by unfold PointHeader.contentSize; omega)]; exact ⟨_, rfl⟩
  · rw [if_neg (by rw [e]; decide), if_neg (by rw [e]; decide), if_pos e, if_pos (by unfold PointHeader.contentSize; omega)]
    exact ⟨_, rfl⟩

/-- The offsets of a link header allow cutting the tail. -/
def TailFits (lh : LinkHead) (size : Nat) : Prop :=
  64 ≤ lh.offRspace ∧ (lh.offRspace - 64) % 48 = 0 ∧ lh.offRspace ≤ lh.offData ∧ lh.offData ≤ size

theorem final_no_panic (p : Bytes) : (if p.length > 7 then .error (.err .paddingBits)
      else if (!p.all (· == 255)) = true then .error (.err .paddingBits) else .ok () : Res Unit) ≠ .error .panic := by
  split
  · intro h; cases h
  · split <;> (intro h; cases h)

theorem consistent_panic_link (dbg : Bool) (pt : Bytes) (s : Option Signed) (p : Bytes)
    (hlen : (PointHeader.ofBytes pt).uset ≤ pt.length)
    (hck : ∃ h, (PointHeader.ofBytes pt).check = .ok h)
    (hfx : fixed pt = .ok (.link (LinkHead.ofBytes (slice pt 4 64)) s p)) :
    internalConsistent dbg pt = .error .panic ↔ dbg = true ∧ TailFits (LinkHead.ofBytes (slice pt 4 64))
      (if hasSig (PointHeader.ofBytes pt).ptype then (PointHeader.ofBytes pt).uset - 96 else (PointHeader.ofBytes pt).uset) ∧
        Rooted.checkComponents (slice pt (LinkHead.ofBytes (slice pt 4 64)).offRspace
          (LinkHead.ofBytes (slice pt 4 64)).offData) ≠ .ok () := by
  obtain ⟨h', hck'⟩ := hck
  unfold internalConsistent
  simp only [hck', hfx]
  unfold uncheckedTail
  simp only []
  have hle : (if hasSig (PointHeader.ofBytes pt).ptype then (PointHeader.ofBytes pt).uset - 96
      else (PointHeader.ofBytes pt).uset) ≤ pt.length := by split <;> omega
  generalize (if hasSig (PointHeader.ofBytes pt).ptype = true then (PointHeader.ofBytes pt).uset - 96
      else (PointHeader.ofBytes pt).uset) = size at hle ⊢
  generalize LinkHead.ofBytes (slice pt 4 64) = lh
  unfold TailFits
  by_cases c1 : lh.offData > size
  · rw [if_pos c1]; simp; omega
  rw [if_neg c1]
  by_cases c2 : lh.offRspace > lh.offData
  · rw [if_pos c2]; simp; omega
  rw [if_neg c2]
  by_cases c3 : lh.offRspace < 64
  · rw [if_pos c3]; simp; omega
  rw [if_neg c3]
  by_cases c4 : (lh.offRspace - 64) % 48 ≠ 0
  · rw [if_pos c4]; simp; omega
  rw [if_neg c4, if_neg (by intro hx; apply hx; omega)]
  have c4 : (lh.offRspace - 64) % 48 = 0 := Classical.not_not.1 c4
  cases hcc : Rooted.checkComponents (slice pt lh.offRspace lh.offData) with
  | error e =>
    cases dbg with
    | true => simp [Except.isOk, Except.toBool]; omega
    | false => simp [Except.isOk, Except.toBool, hcc]
  | ok u =>
    cases u
    have : (dbg && (Except.ok () : Except Space.SpaceError Unit).isOk == false) = false := by cases dbg <;> rfl
    rw [this]
    simp only [Bool.false_eq_true, if_false, hcc]
    refine ⟨fun h => absurd h (final_no_panic p), fun h => absurd rfl h.2.2⟩

theorem fixed_link_eq (pt : Bytes) (hl : hasLink (PointHeader.ofBytes pt).ptype = true)
    (hlen : 64 + (if hasSig (PointHeader.ofBytes pt).ptype then 96 else 0) + (PointHeader.ofBytes pt).padding ≤ pt.length) :
    ∃ s p, fixed pt = .ok (.link (LinkHead.ofBytes (slice pt 4 64)) s p) := by
  unfold fixed
  have e : LinkHead.ofBytes ((pt.drop 4).take 60) = LinkHead.ofBytes (slice pt 4 64) := rfl
  simp only [hl, e, if_true]
  by_cases hs : hasSig (PointHeader.ofBytes pt).ptype = true
  · simp only [hs, if_true] at hlen ⊢
    rw [if_neg (by omega), if_neg (by simp; omega), if_neg (by simp; omega), if_neg (by simp; omega)]
    exact ⟨_, _, rfl⟩
  · simp only [hs] at hlen ⊢
    simp only [Bool.false_eq_true, if_false] at hlen ⊢
    rw [if_neg (by omega), if_neg (by simp; omega), if_neg (by simp; omega)]
    exact ⟨_, _, rfl⟩

theorem consistent_panic_plain (dbg : Bool) (pt : Bytes) (hlen : pt.length = (PointHeader.ofBytes pt).paddedSize)
    (h4 : 4 ≤ pt.length) (hck : ∃ h, (PointHeader.ofBytes pt).check = .ok h)
    (hl : hasLink (PointHeader.ofBytes pt).ptype = false) :
    internalConsistent dbg pt = .error .panic ↔ (PointHeader.ofBytes pt).uset < 4 := by
  obtain ⟨h', hck'⟩ := hck
  have hps : (PointHeader.ofBytes pt).paddedSize = (PointHeader.ofBytes pt).uset + padTo8 (PointHeader.ofBytes pt).uset :=
    paddedSize_eq _ _ _
  have hpd : (PointHeader.ofBytes pt).padding = padTo8 (PointHeader.ofBytes pt).uset := padding_eq _ _ _
  have hpad8 : (pt.length) % 8 = 0 := by rw [hlen]; unfold PointHeader.paddedSize; omega
  have hk := padTo8_le (PointHeader.ofBytes pt).uset
  unfold internalConsistent
  simp only [hck']
  unfold fixed
  simp only [hl]
  rw [if_neg (by omega)]
  simp only [Bool.false_eq_true, if_false]
  by_cases hu : (PointHeader.ofBytes pt).uset < 4
  · rw [if_pos (by simp; omega)]
    simp [hu]
  · rw [if_neg (by simp; omega)]
    refine ⟨fun h => ?_, fun h => absurd h hu⟩
    exfalso
    revert h
    split
    · rename_i hb; split at hb
      · cases hb
      · split at hb <;> cases hb
    · rename_i b hb
      split at hb
      · cases hb; exact final_no_panic _
      · split at hb
        · cases hb; exact final_no_panic _
        · cases hb; exact final_no_panic _

/-- The type byte, the size and the offsets read at fixed places of the buffer. -/
theorem header_at (b : Bytes) (h : 68 ≤ b.length) :
    PointHeader.ofBytes (b.drop 64) = ⟨b.getD 64 0, b.getD 65 0, beNat ((b.drop 66).take 2)⟩ := by
  simp only [PointHeader.ofBytes, List.getD_eq_getElem?_getD, List.getElem?_drop, List.drop_drop]

theorem getElem?_iff_getD (b : Bytes) (i : Nat) (v : UInt8) (h : i < b.length) : b[i]? = some v ↔ b.getD i 0 = v := by
  rw [List.getD_eq_getElem?_getD, List.getElem?_eq_getElem h]; simp

/-- C07, exactly: reading panics on a buffer with a point shorter than its own header, and, with debug assertions, on
a point whose space bytes are malformed; on no other buffer of any length. -/
theorem read_panic_iff (C : Crypto) (dbg skip : Bool) (b : Bytes) :
    readPkt C dbg b skip = .error .panic ↔ ShortPoint b ∨ (dbg = true ∧ BadSpacePoint b) := by
  unfold readPkt
  by_cases hlen : b.length < 68
  · rw [if_pos (by unfold minNetpktSize; exact hlen)]
    simp only [ShortPoint, BadSpacePoint]
    refine ⟨fun h => by simp at h, fun h => by omega⟩
  rw [if_neg (by unfold minNetpktSize; exact hlen)]
  have h0 := getElem?_iff_getD b 64 0 (by omega)
  have h1 := fun v => getElem?_iff_getD b 65 v (by omega)
  have hh := header_at b (by omega)
  have hck := check_header_iff (PointHeader.ofBytes (b.drop 64))
  have hps : (PointHeader.ofBytes (b.drop 64)).paddedSize = (PointHeader.ofBytes (b.drop 64)).uset +
    padTo8 (PointHeader.ofBytes (b.drop 64)).uset := paddedSize_eq _ _ _
  have hpd : (PointHeader.ofBytes (b.drop 64)).padding = padTo8 (PointHeader.ofBytes (b.drop 64)).uset := padding_eq _ _ _
  have hres : (PointHeader.ofBytes (b.drop 64)).reserved = b.getD 64 0 := by rw [hh]
  have hpt : (PointHeader.ofBytes (b.drop 64)).ptype = b.getD 65 0 := by rw [hh]
  have hus : (PointHeader.ofBytes (b.drop 64)).uset = beNat ((b.drop 66).take 2) := by rw [hh]
  unfold ShortPoint BadSpacePoint
  simp only [h0, h1]
  rw [← hres, ← hpt, ← hus]
  generalize hH : PointHeader.ofBytes (b.drop 64) = H at *
  have hp8 := padTo8_le H.uset
  have hpp : (H.uset + padTo8 H.uset) % 8 = 0 := by unfold padTo8; omega
  cases hc : H.check with
  | error e =>
    refine ⟨fun h => by simp at h, fun h => ?_⟩
    exfalso
    have : ∃ h', H.check = .ok h' := by
      refine hck.2 ?_
      rcases h with ⟨_, a, c, d, _⟩ | ⟨_, _, a, c, _, d, _⟩
      · exact ⟨a, by omega, by rcases c with c | c <;> simp [c, tData, tError]⟩
      · exact ⟨a, by omega, by rcases d with d | d <;> simp [d, tLink, tKey]⟩
    obtain ⟨h', e'⟩ := this
    rw [hc] at e'; cases e'
  | ok h' =>
    simp only []
    obtain ⟨hr, hu, ht⟩ := hck.1 ⟨_, hc⟩
    have hsz : H.size = 64 + (H.uset + padTo8 H.uset) := by rw [PointHeader.size, hps]; omega
    by_cases hbig : H.size > b.length
    · rw [if_pos hbig]
      refine ⟨fun h => by simp at h, fun h => ?_⟩
      exfalso
      rcases h with h | h
      · unfold padTo8 at hsz; omega
      · omega
    rw [if_neg hbig]
    by_cases hsm : H.paddedSize < 4
    · rw [if_pos hsm]
      refine ⟨fun _ => .inl ⟨by omega, hr, ?_, by omega, by omega⟩, fun _ => rfl⟩
      rcases ht with h | h | h | h
      · exact .inl h
      · exact .inr h
      · omega
      · omega
    rw [if_neg hsm]
    have hl1 : ((b.drop 64).take H.paddedSize).length = H.paddedSize := by
      rw [List.length_take, List.length_drop]; omega
    have hof : PointHeader.ofBytes ((b.drop 64).take H.paddedSize) = H := by rw [ofBytes_take (by omega), hH]
    have hcheck : (NetPkt.check C dbg ⟨b.take 32, (b.drop 32).take 32, (b.drop 64).take H.paddedSize⟩ skip = .error .panic) ↔
        internalConsistent dbg ((b.drop 64).take H.paddedSize) = .error .panic := by
      unfold NetPkt.check
      simp only []
      cases hic : internalConsistent dbg ((b.drop 64).take H.paddedSize) with
      | error e => simp
      | ok u =>
        cases u
        refine ⟨fun h => ?_, fun h => by simp at h⟩
        exfalso
        obtain ⟨c, hv, e⟩ := (consistent_iff dbg _ (by rw [hl1, hof])).1 hic
        simp only [e] at h
        split at h
        · cases h
        · rcases checkSignature_layout C hv with ⟨e', _⟩ | ⟨e', _⟩
          · rw [e'] at h; simp only [] at h
            split at h <;> cases h
          · rw [e'] at h; simp at h
    refine Iff.trans (b := internalConsistent dbg ((b.drop 64).take H.paddedSize) = .error .panic) ?_ ?_
    · rw [← hcheck]
      cases NetPkt.check C dbg ⟨b.take 32, (b.drop 32).take 32, (b.drop 64).take H.paddedSize⟩ skip with
      | error e => simp
      | ok u => simp
    generalize hP : (b.drop 64).take H.paddedSize = pt at *
    rcases ht with h | h | ⟨h, hge⟩ | ⟨h, hge⟩
    · rw [consistent_panic_plain dbg pt (by rw [hl1, hof]) (by omega) (by rw [hof]; exact ⟨_, hc⟩) (by rw [hof, h]; rfl), hof]
      refine ⟨fun h' => .inl ⟨by omega, hr, .inl h, h', by omega⟩, fun h' => ?_⟩
      rcases h' with h' | ⟨_, _, _, _, _, h' | h', _⟩
      · omega
      · exact absurd (h.symm.trans h'.1) (by decide)
      · exact absurd (h.symm.trans h'.1) (by decide)
    · rw [consistent_panic_plain dbg pt (by rw [hl1, hof]) (by omega) (by rw [hof]; exact ⟨_, hc⟩) (by rw [hof, h]; rfl), hof]
      refine ⟨fun h' => .inl ⟨by omega, hr, .inr h, h', by omega⟩, fun h' => ?_⟩
      rcases h' with h' | ⟨_, _, _, _, _, h' | h', _⟩
      · omega
      · exact absurd (h.symm.trans h'.1) (by decide)
      · exact absurd (h.symm.trans h'.1) (by decide)
    · have hsig : hasSig H.ptype = false := by rw [h]; rfl
      obtain ⟨s, p, hfx⟩ := fixed_link_eq pt (by rw [hof, h]; rfl) (by rw [hof, hsig, hl1, hps, hpd]; simp; omega)
      rw [consistent_panic_link dbg pt s p (by rw [hof, hl1]; omega) (by rw [hof]; exact ⟨_, hc⟩) hfx, hof, hsig]
      have hr2 : (LinkHead.ofBytes (slice pt 4 64)).offRspace = beNat ((b.drop 68).take 2) := by
        rw [← hP, slice_take _ (by omega)]; simp [LinkHead.ofBytes, slice, List.take_take]
      have hd2 : (LinkHead.ofBytes (slice pt 4 64)).offData = beNat ((b.drop 70).take 2) := by
        rw [← hP, slice_take _ (by omega)]; simp [LinkHead.ofBytes, slice, List.drop_take, List.take_take]
      rw [hr2, hd2]
      unfold TailFits
      rw [hr2, hd2]
      have hsl : ∀ r d, d ≤ H.paddedSize → slice pt r d = ((b.drop 64).drop r).take (d - r) := by
        intro r d hd; rw [← hP, slice_take _ hd]; rfl
      generalize beNat ((b.drop 68).take 2) = r
      generalize beNat ((b.drop 70).take 2) = d
      simp only [Bool.false_eq_true, if_false]
      refine ⟨fun ⟨a1, ⟨a2, a3, a4, a5⟩, a6⟩ => .inr ⟨a1, by omega, hr, hu, by omega, ?_, a2, a3, a4, ?_, ?_⟩, fun hx => ?_⟩
      · exact .inl ⟨h, hge⟩
      · rw [if_neg (by rw [h]; decide)]; exact a5
      · rw [← hsl _ _ (by omega)]; exact a6
      · rcases hx with ⟨_, _, hx | hx, _⟩ | ⟨a1, _, _, _, _, _, a2, a3, a4, a5, a6⟩
        · exact absurd (h.symm.trans hx) (by decide)
        · exact absurd (h.symm.trans hx) (by decide)
        · have a5 : d ≤ H.uset := by rw [if_neg (by rw [h]; decide)] at a5; exact a5
          refine ⟨a1, ⟨a2, a3, a4, a5⟩, ?_⟩
          rw [hsl _ _ (by omega)]; exact a6
    · have hsig : hasSig H.ptype = true := by rw [h]; rfl
      obtain ⟨s, p, hfx⟩ := fixed_link_eq pt (by rw [hof, h]; rfl) (by rw [hof, hsig, hl1, hps, hpd]; simp; omega)
      rw [consistent_panic_link dbg pt s p (by rw [hof, hl1]; omega) (by rw [hof]; exact ⟨_, hc⟩) hfx, hof, hsig]
      have hr2 : (LinkHead.ofBytes (slice pt 4 64)).offRspace = beNat ((b.drop 68).take 2) := by
        rw [← hP, slice_take _ (by omega)]; simp [LinkHead.ofBytes, slice, List.take_take]
      have hd2 : (LinkHead.ofBytes (slice pt 4 64)).offData = beNat ((b.drop 70).take 2) := by
        rw [← hP, slice_take _ (by omega)]; simp [LinkHead.ofBytes, slice, List.drop_take, List.take_take]
      rw [hr2, hd2]
      unfold TailFits
      rw [hr2, hd2]
      have hsl : ∀ r d, d ≤ H.paddedSize → slice pt r d = ((b.drop 64).drop r).take (d - r) := by
        intro r d hd; rw [← hP, slice_take _ hd]; rfl
      generalize beNat ((b.drop 68).take 2) = r
      generalize beNat ((b.drop 70).take 2) = d
      simp only [if_true]
      refine ⟨fun ⟨a1, ⟨a2, a3, a4, a5⟩, a6⟩ => .inr ⟨a1, by omega, hr, hu, by omega, ?_, a2, a3, a4, ?_, ?_⟩, fun hx => ?_⟩
      · exact .inr ⟨h, hge⟩
      · rw [if_pos (by rw [h]; rfl)]; exact a5
      · rw [← hsl _ _ (by omega)]; exact a6
      · rcases hx with ⟨_, _, hx | hx, _⟩ | ⟨a1, _, _, _, _, _, a2, a3, a4, a5, a6⟩
        · exact absurd (h.symm.trans hx) (by decide)
        · exact absurd (h.symm.trans hx) (by decide)
        · have a5 : d ≤ H.uset - 96 := by rw [if_pos (by rw [h]; rfl)] at a5; exact a5
          refine ⟨a1, ⟨a2, a3, a4, a5⟩, ?_⟩
          rw [hsl _ _ (by omega)]; exact a6

/-- C07, partial: no buffer of any length makes the read panic unless it is one of the two kinds above; for a build
without debug assertions only the first kind is left.  The full claim (no panic at all) is false, see
`read_panics`. -/
theorem read_no_panic_partial (C : Crypto) (dbg skip : Bool) (b : Bytes) (h1 : ¬ ShortPoint b)
    (h2 : dbg = true → ¬ BadSpacePoint b) : readPkt C dbg b skip ≠ .error .panic := by
  rw [Ne, read_panic_iff]
  rintro (h | ⟨h, h'⟩)
  · exact h1 h
  · exact h2 h h'

/-- A data point header declaring size 1. -/
def shortWitness : Bytes := List.replicate 64 0 ++ [0, 1, 0, 1, 255, 255, 255, 255]
/-- A link point of 72 bytes whose one space byte says there is a component of length 5. -/
def badSpaceWitness : Bytes :=
  List.replicate 64 0 ++ [0, 3, 0, 65] ++ [0, 64, 0, 65] ++ List.replicate 56 0 ++ [5] ++ List.replicate 7 255

/-- C07 is false: two hostile buffers that panic, one of them in every build. -/
theorem read_panics (C : Crypto) (dbg skip : Bool) :
    readPkt C dbg shortWitness skip = .error .panic ∧ readPkt C true badSpaceWitness skip = .error .panic := by
  refine ⟨(read_panic_iff C dbg skip _).2 (.inl ?_), (read_panic_iff C true skip _).2 (.inr ⟨rfl, ?_⟩)⟩
  · unfold ShortPoint; decide
  · unfold BadSpacePoint; decide +kernel

/-- Witness for `read_no_panic_partial`: the bytes of a real packet are of neither kind. -/
example : ∃ b, 72 ≤ b.length ∧ ¬ ShortPoint b ∧ ¬ BadSpacePoint b := by
  refine ⟨List.replicate 64 0 ++ [0, 1, 0, 5, 7, 255, 255, 255], by decide, ?_, ?_⟩
  · unfold ShortPoint; decide
  · unfold BadSpacePoint; decide

/-- C07: every accessor of a packet that was read succeeds, and so does checking its group. -/
theorem read_accessors (C : Crypto) (dbg skip : Bool) (b : Bytes) (p : NetPkt) (h : readPkt C dbg b skip = .ok p) :
    (∃ ps, p.parts dbg = .ok ps) ∧ (∃ l, linkpointHeader p.point = .ok l) ∧ checkPrivate p.point ≠ .error .panic ∧
      p.size = p.bytes.length := by
  obtain ⟨c, rest, hv, hp, h1, h2, _, _⟩ := (readPkt_ok_iff C dbg skip b p).1 h
  have hlh : ∃ l, linkpointHeader p.point = .ok l := by
    rw [hp]; unfold linkpointHeader
    cases c with
    | data _ => rw [fixed_data hv]; exact ⟨_, rfl⟩
    | error _ => rw [fixed_error hv]; exact ⟨_, rfl⟩
    | link _ => rw [fixed_link hv]; exact ⟨_, rfl⟩
    | key _ _ _ => rw [fixed_key hv]; exact ⟨_, rfl⟩
  refine ⟨⟨_, by rw [NetPkt.parts, hp]; exact parts_layout dbg hv⟩, hlh, ?_, ?_⟩
  · obtain ⟨l, hl⟩ := hlh
    unfold checkPrivate
    rw [hl]
    cases l with
    | none => simp
    | some l => simp only []; split <;> simp
  · rw [NetPkt.size, hp, ofBytes_layout hv, PointHeader.size, paddedSize_eq, ← layout_length hv]
    simp [NetPkt.bytes, hp, h1, h2]; omega

end Verif.Props
