import Verif.Spec.Wrap
import Verif.Props.PyPkt
/-!
# C105: wrapped packets
-/
namespace Verif.Props
open Verif Verif.Spec Verif.Pkt Verif.Ffi

/-! ### segments -/

/-- The first `n` segments are in use, the first begins with the header, and they are the bytes of the packet. -/
def SegInv (s : Segments) (q : NetPkt) (n : Nat) : Prop :=
  ∃ s0 a, s = (s0 :: a) ++ List.replicate (8 - n) [] ∧ a.length + 1 = n ∧ n ≤ 8 ∧ 32 ≤ s0.length ∧ s0 ++ a.flatten = q.bytes ∧
    (a = [] → 32 < s0.length) ∧ ∀ x, a.getLast? = some x → x ≠ []

theorem seg_bytes {s : Segments} {q : NetPkt} {n : Nat} (h : SegInv s q n) : s.bytes = q.bytes := by
  obtain ⟨s0, a, rfl, _, _, _, hb, _⟩ := h
  rw [← hb]
  simp [Segments.bytes]

theorem seg_route {s : Segments} {q : NetPkt} {n : Nat} (h : SegInv s q n) {r : Bytes} (hr : r.length = 32) (hq : q.netHeader.length = 32) :
    (n ≤ 7 → ∃ s', rerouteSegments true s r = .ok s' ∧ SegInv s' { q with netHeader := r } (n + 1)) ∧ (n = 8 → rerouteSegments true s r = .error .panic) := by
  obtain ⟨s0, a, rfl, hl, hn, h32, hb, hne, hlast⟩ := h
  constructor
  · intro h7
    have hg : ((s0.drop 32 :: a ++ List.replicate (8 - n) ([] : Bytes)).getD 7 []) = [] := by
      rw [List.getD_eq_getElem?_getD, List.getElem?_append_right (by simp; omega), List.getElem?_replicate]
      split <;> rfl
    have ht : (s0.drop 32 :: a ++ List.replicate (8 - n) ([] : Bytes)).take 7 = s0.drop 32 :: a ++ List.replicate (8 - (n + 1)) [] := by
      rw [List.take_append, List.take_of_length_le (by simp; omega), List.take_replicate]
      congr 2
      simp; omega
    refine ⟨r :: (s0.drop 32 :: a ++ List.replicate (8 - (n + 1)) []), ?_, r, s0.drop 32 :: a, rfl, by simp; omega, by omega, by omega, ?_, by simp, ?_⟩
    · show Segments.pushFront true (s0.drop 32 :: a ++ List.replicate (8 - n) []) r = _
      unfold Segments.pushFront
      rw [hg, ht]; rfl
    · have : s0.drop 32 ++ a.flatten = q.hash ++ q.point := by
        rw [← List.drop_append_of_le_length h32, hb, NetPkt.bytes, List.append_assoc, List.drop_left' hq]
      simp only [List.flatten_cons, NetPkt.bytes, this, List.append_assoc]
    · intro x hx
      cases a with
      | nil =>
        simp at hx
        have := hne rfl
        intro he
        rw [he] at hx
        have := congrArg List.length hx
        simp at this
        omega
      | cons y a => rw [List.getLast?_cons_cons] at hx; exact hlast x hx
  · intro h8
    subst h8
    show Segments.pushFront true (s0.drop 32 :: a ++ List.replicate 0 []) r = _
    unfold Segments.pushFront
    obtain ⟨b, x, rfl⟩ : ∃ b x, a = b ++ [x] := by
      rcases List.eq_nil_or_concat a with h | ⟨b, x, h⟩
      · rw [h] at hl; simp at hl
      · exact ⟨b, x, by rw [h, List.concat_eq_append]⟩
    have hx := hlast x (by simp)
    simp at hl
    have : ((s0.drop 32 :: (b ++ [x]) ++ List.replicate 0 ([] : Bytes)).getD 7 []) = x := by
      rw [List.getD_eq_getElem?_getD]
      simp [List.getElem?_append_right, hl]
    rw [this]
    cases x with
    | nil => exact absurd rfl hx
    | cons _ _ => rfl

theorem seg_ptr {C : Crypto} {q : NetPkt} {c : Content} (h : Holds C q c) : SegInv q.segments q 1 := by
  have := layout_ge8 h.valid
  have hl : 32 < q.bytes.length := by simp [NetPkt.bytes, h.header, h.hash32]; omega
  exact ⟨q.bytes, [], rfl, rfl, by omega, by omega, by simp, fun _ => hl, by simp⟩

theorem replicate_ne {n : Nat} {x : UInt8} (h : n ≠ 0) : List.replicate n x ≠ [] := by
  cases n with
  | zero => exact absurd rfl h
  | succ n => simp [List.replicate]

/-- Trailing segments that are empty can be left out. -/
theorem seg_of {q : NetPkt} {s0 : Bytes} (a : List Bytes) {n k : Nat} (h0 : 32 ≤ s0.length) (hb : s0 ++ a.flatten = q.bytes) (ha : a ≠ []) (hn : a.length + 1 = n)
    (hk : n + k = 8) (hx : ∀ x, a.getLast? = some x → x ≠ []) : SegInv (s0 :: (a ++ List.replicate k [])) q n :=
  ⟨s0, a, by rw [show 8 - n = k by omega]; rfl, hn, by omega, h0, hb, fun e => absurd e ha, hx⟩

theorem seg_parts {C : Crypto} {nh h : Bytes} {c : Content} (hc : Holds C ⟨nh, h, c.layout⟩ c) :
    ∃ s, NetParts.segments true ⟨nh, h, c.parts⟩ = .ok s ∧ SegInv s ⟨nh, h, c.layout⟩ (placesOf c) := by
  obtain ⟨h7, h8⟩ := segments_take7 c
  have hn : nh.length = 32 := hc.header
  refine ⟨(nh ++ h) :: c.parts.segments.take 7, ?_, ?_⟩
  · simp only [NetParts.segments, Segments.pushFront, h8]; rfl
  have h0 : 32 ≤ (nh ++ h).length := by simp [hn]
  have fl : ∀ a k, c.parts.segments.take 7 = a ++ List.replicate k [] → nh ++ h ++ a.flatten = (NetPkt.mk nh h c.layout).bytes := by
    intro a k e
    have : (a ++ List.replicate k ([] : Bytes)).flatten = c.layout := by rw [← e, h7]
    simp at this
    simp [NetPkt.bytes, this]
  have go : ∀ a k, c.parts.segments.take 7 = a ++ List.replicate k [] → a ≠ [] → a.length + 1 = placesOf c → placesOf c + k = 8 →
      (∀ x, a.getLast? = some x → x ≠ []) → SegInv ((nh ++ h) :: c.parts.segments.take 7) ⟨nh, h, c.layout⟩ (placesOf c) := by
    intro a k e ha hl hk hx
    rw [e]
    exact seg_of a h0 (fl a k e) ha hl hk hx
  have hv := hc.valid
  clear h7 h8 fl hc
  cases c with
  | data b =>
    by_cases hp : padTo8 (4 + b.length) = 0
    · refine go [(Content.data b).parts.header.bytes, b] 5 ?_ (by simp) (by simp [placesOf, hp]) (by simp [placesOf, hp]) ?_
      · simp [Content.parts, Parts.segments, Content.fields, Segments.fromArray, List.replicate, Parts.padding, padding_eq, Content.size, hp]
      · intro x hx e
        simp at hx
        rw [← hx] at e
        rw [e] at hp
        simp [padTo8] at hp
    · refine go [(Content.data b).parts.header.bytes, b, List.replicate (padTo8 (4 + b.length)) 255] 4 ?_ (by simp) (by simp [placesOf, hp]) (by simp [placesOf, hp]) ?_
      · simp [Content.parts, Parts.segments, Content.fields, Segments.fromArray, List.replicate, Parts.padding, padding_eq, Content.size]
      · intro x hx
        simp at hx
        rw [← hx]; exact replicate_ne hp
  | error b =>
    by_cases hp : padTo8 (4 + b.length) = 0
    · refine go [(Content.error b).parts.header.bytes, b] 5 ?_ (by simp) (by simp [placesOf, hp]) (by simp [placesOf, hp]) ?_
      · simp [Content.parts, Parts.segments, Content.fields, Segments.fromArray, List.replicate, Parts.padding, padding_eq, Content.size, hp]
      · intro x hx e
        simp at hx
        rw [← hx] at e
        rw [e] at hp
        simp [padTo8] at hp
    · refine go [(Content.error b).parts.header.bytes, b, List.replicate (padTo8 (4 + b.length)) 255] 4 ?_ (by simp) (by simp [placesOf, hp]) (by simp [placesOf, hp]) ?_
      · simp [Content.parts, Parts.segments, Content.fields, Segments.fromArray, List.replicate, Parts.padding, padding_eq, Content.size]
      · intro x hx
        simp at hx
        rw [← hx]; exact replicate_ne hp
  | link l =>
    let hd := (Content.link l).parts.header.bytes
    let lh : LinkHead := ⟨64 + 48 * l.links.length, 64 + 48 * l.links.length + l.rspace.length, l.stamp, l.group, l.domain⟩
    have e : (Content.link l).parts.segments.take 7 = [hd, lh.bytes, linksBytes l.links, l.rspace, l.data, List.replicate (padTo8 l.len) 255, []] := by
      simp [Content.parts, Parts.segments, Content.fields, Segments.fromArray, List.replicate, Parts.padding, padding_eq, Content.size, hd, lh]
    have hlh : lh.bytes ≠ [] := by simp [lh, LinkHead.bytes, beBytes]
    by_cases hp : padTo8 l.len = 0
    · rw [hp] at e
      by_cases hd' : l.data = []
      · rw [hd'] at e
        by_cases hr : l.rspace = []
        · rw [hr] at e
          by_cases hl : l.links = []
          · rw [hl] at e
            refine go [hd, lh.bytes] 5 e (by simp) (by simp [placesOf, hp, hd', hr, hl]) (by simp [placesOf, hp, hd', hr, hl]) ?_
            intro x hx; simp at hx; rw [← hx]; exact hlh
          · refine go [hd, lh.bytes, linksBytes l.links] 4 e (by simp) (by simp [placesOf, hp, hd', hr, hl]) (by simp [placesOf, hp, hd', hr, hl]) ?_
            intro x hx; simp at hx; rw [← hx]
            intro h0
            have := congrArg List.length h0
            rw [linksBytes_eq, linkBytes_length hv.2.links] at this
            have h1 : l.links.length ≠ 0 := by simpa using hl
            rw [List.length_nil] at this
            omega
        · refine go [hd, lh.bytes, linksBytes l.links, l.rspace] 3 e (by simp) (by simp [placesOf, hp, hd', hr]) (by simp [placesOf, hp, hd', hr]) ?_
          intro x hx; simp at hx; rw [← hx]; exact hr
      · refine go [hd, lh.bytes, linksBytes l.links, l.rspace, l.data] 2 e (by simp) (by simp [placesOf, hp, hd']) (by simp [placesOf, hp, hd']) ?_
        intro x hx; simp at hx; rw [← hx]; exact hd'
    · refine go [hd, lh.bytes, linksBytes l.links, l.rspace, l.data, List.replicate (padTo8 l.len) 255] 1 e (by simp) (by simp [placesOf, hp]) (by simp [placesOf, hp]) ?_
      intro x hx; simp at hx; rw [← hx]; exact replicate_ne hp
  | key l pk sig =>
    refine go ((Content.key l pk sig).parts.segments.take 7) 0 (by simp) ?_ ?_ rfl ?_
    · simp [Content.parts, Parts.segments, Content.fields, Segments.fromArray, List.replicate]
    · simp [Content.parts, Parts.segments, Content.fields, Segments.fromArray, List.replicate, placesOf]
    · intro x hx
      simp [Content.parts, Parts.segments, Content.fields, Segments.fromArray, List.replicate, Signed.bytes] at hx
      intro e
      rw [e] at hx
      have hx := congrArg List.length hx
      have h2 : pk.length = 32 := hv.2.2.1
      simp at hx
      simp [hx.1] at h2

variable {C : Crypto} {w : Wrap} {q : NetPkt} {n : Nat}

theorem wraps_holds (h : Wraps C w q n) : ∃ c, Holds C q c := by
  induction h with
  | ptr h => exact ⟨_, h⟩
  | fat h => exact ⟨_, h⟩
  | arc h => exact ⟨_, h⟩
  | parts h => exact ⟨_, h⟩
  | route hl _ ih => obtain ⟨c, h⟩ := ih; exact ⟨c, h.valid, h.sealed, h.point, hl, h.hash32, h.hash⟩
  | recv _ _ ih => exact ih
  | share _ _ ih => exact ih

theorem wraps_seg (h : Wraps C w q n) : (n ≤ 8 → ∃ s, w.segments true = .ok s ∧ SegInv s q n) ∧ (8 < n → w.segments true = .error .panic) := by
  induction h with
  | ptr h => exact ⟨fun _ => ⟨_, rfl, seg_ptr h⟩, fun h => by omega⟩
  | fat h => exact ⟨fun _ => ⟨_, rfl, seg_ptr h⟩, fun h => by omega⟩
  | arc h => exact ⟨fun _ => ⟨_, rfl, seg_ptr h⟩, fun h => by omega⟩
  | parts h =>
    obtain ⟨s, e, hs⟩ := seg_parts h
    exact ⟨fun _ => ⟨s, e, hs⟩, fun h8 => by have := hs; obtain ⟨_, _, _, _, h, _⟩ := this; omega⟩
  | @route w q n r hl hw ih =>
    obtain ⟨c, hc⟩ := wraps_holds hw
    constructor
    · intro h8
      obtain ⟨s, e, hs⟩ := ih.1 (by omega)
      obtain ⟨s', e', hs'⟩ := (seg_route hs hl hc.header).1 (by omega)
      exact ⟨s', by rw [Wrap.segments, e]; exact e', hs'⟩
    · intro h8
      by_cases h : n ≤ 8
      · obtain ⟨s, e, hs⟩ := ih.1 h
        rw [Wrap.segments, e]
        exact (seg_route hs hl hc.header).2 (by omega)
      · rw [Wrap.segments, ih.2 (by omega)]
  | recv _ _ ih => exact ih
  | share _ _ ih => exact ih

/-! ### the properties -/

/-- Every correct packet in byte form and every built packet is such a packet. -/
theorem built_wraps (L : C.Laws) {p : NetParts} (h : Built C p) : ∃ c, p.parts = c.parts ∧ Wraps C (.parts p) ⟨p.netHeader, p.hash, c.layout⟩ (placesOf c) := by
  obtain ⟨c, hv, hs, hn, hh, hp⟩ := built_content L h
  refine ⟨c, hp, ?_⟩
  obtain ⟨nh, hash, parts⟩ := p
  simp only at *
  subst hp
  exact .parts ⟨hv, hs, rfl, hn, by rw [hh]; exact L.hash_len _, hh⟩

/-- **C105**: a wrapped packet has the routing header, the hash and the point of the packet it is. -/
theorem wrap_fields (h : Wraps C w q n) : w.netHeader = q.netHeader ∧ w.hash = q.hash ∧ w.pointSegments.bytes = q.point ∧ w.pointHeader = q.point.take 4 := by
  induction h with
  | ptr h => exact ⟨rfl, rfl, by simp [Wrap.pointSegments, Segments.fromArray, Segments.bytes], rfl⟩
  | fat h => exact ⟨rfl, rfl, by simp [Wrap.pointSegments, Segments.fromArray, Segments.bytes], rfl⟩
  | arc h => exact ⟨rfl, rfl, by simp [Wrap.pointSegments, Segments.fromArray, Segments.bytes], rfl⟩
  | @parts nh h c hc =>
    refine ⟨rfl, rfl, segments_layout c, ?_⟩
    show c.parts.header.bytes = c.layout.take 4
    rw [← PointHeader.bytes_ofBytes (by have := layout_ge8 hc.valid; omega), ofBytes_layout hc.valid]
    rfl
  | route hl _ ih => exact ⟨rfl, ih.2⟩
  | recv _ _ ih => exact ih
  | share _ _ ih => exact ih

/-- **C105**: its bytes are written as those of the packet, as long as the headers around it and the parts of the packet inside have room in the eight segments;
otherwise writing it is a panic. -/
theorem wrap_bytes_partial (h : Wraps C w q n) :
    (n ≤ 8 → ∃ s, w.segments true = .ok s ∧ s.bytes = q.netHeader ++ q.hash ++ q.point) ∧ (8 < n → w.segments true = .error .panic) := by
  refine ⟨fun hn => ?_, (wraps_seg h).2⟩
  obtain ⟨s, e, hs⟩ := (wraps_seg h).1 hn
  exact ⟨s, e, seg_bytes hs⟩

theorem check_holds {c : Content} (dbg skip : Bool) (h : Holds C q c) : q.check C dbg skip = .ok () := by
  obtain ⟨nh, hash, pt⟩ := q
  obtain rfl : pt = c.layout := h.point
  exact (check_layout h.valid).2 fun _ => ⟨h.sealed, h.hash⟩

theorem box_seg {s : Segments} {c : Content} (hs : SegInv s q n) (h : Holds C q c) : Wrap.boxOf C true (.ok s) = .ok q := by
  have hb : s.bytes = q.netHeader ++ q.hash ++ q.point := seg_bytes hs
  have e1 : s.bytes.take 32 = q.netHeader := by rw [hb, List.append_assoc, List.take_left' h.header]
  have e2 : (s.bytes.drop 32).take 32 = q.hash := by rw [hb, List.append_assoc, List.drop_left' h.header, List.take_left' h.hash32]
  have e3 : s.bytes.drop 64 = q.point := by rw [hb, List.drop_left' (by simp [h.header, h.hash32])]
  unfold Wrap.boxOf
  simp only [e1, e2, e3]
  rw [show NetPkt.mk q.netHeader q.hash q.point = q from rfl, check_holds true false h]
  rfl

/-- **C105**: its boxed copy is the packet if there is room in the segments; for a packet with a header put around it, if the one inside has a boxed copy, so that
headers on the outside need no room. -/
theorem wrap_box_partial (h : Wraps C w q n) : (n ≤ 8 → w.asNetbox C true = .ok q) ∧
    (∀ b, w.asNetbox C true = .ok b → b = q) ∧
    (∀ r, w.asNetbox C true = .ok q → (Wrap.route r w).asNetbox C true = .ok { q with netHeader := r }) := by
  have base : ∀ {w : Wrap} {q : NetPkt} {n : Nat}, Wraps C w q n → w.asNetbox C true = Wrap.boxOf C true (w.segments true) →
      (n ≤ 8 → w.asNetbox C true = .ok q) ∧ ∀ b, w.asNetbox C true = .ok b → b = q := by
    intro w q n h e
    obtain ⟨c, hc⟩ := wraps_holds h
    rw [e]
    by_cases hn : n ≤ 8
    · obtain ⟨s, e, hs⟩ := (wraps_seg h).1 hn
      rw [e, box_seg hs hc]
      exact ⟨fun _ => rfl, fun b hb => by cases hb; rfl⟩
    · rw [(wraps_seg h).2 (by omega)]
      exact ⟨fun h => absurd h hn, fun b hb => by cases hb⟩
  have key : (n ≤ 8 → w.asNetbox C true = .ok q) ∧ ∀ b, w.asNetbox C true = .ok b → b = q := by
    induction h with
    | ptr h => exact base (.ptr h) rfl
    | fat h => exact base (.fat h) rfl
    | arc h => exact base (.arc h) rfl
    | parts h => exact base (.parts h) rfl
    | @route w q n r hl hw ih =>
      constructor
      · intro hn
        rw [Wrap.asNetbox, ih.1 (by omega)]
      · intro b hb
        rw [Wrap.asNetbox] at hb
        cases hx : w.asNetbox C true with
        | error e => rw [hx] at hb; cases hb
        | ok x => rw [hx] at hb; rw [← ih.2 x hx]; cases hb; rfl
    | recv t hw => exact base (.recv t hw) rfl
    | share ha hw => exact base (.share ha hw) rfl
  exact ⟨key.1, key.2, fun r hr => by rw [Wrap.asNetbox, hr]⟩

theorem arc_default (dbg : Bool) (h : Wraps C w q n) : Wrap.arcDefault C dbg w = .ok q := by
  obtain ⟨c, hc⟩ := wraps_holds h
  obtain ⟨f1, f2, f3, f4⟩ := wrap_fields h
  have h8 := layout_ge8 hc.valid
  have hseg : ∃ s0 rest, w.pointSegments = s0 :: rest ∧ 4 ≤ s0.length := by
    clear f1 f2 f3 f4 hc h8
    induction h with
    | ptr h => exact ⟨_, _, rfl, by have := layout_ge8 h.valid; rw [h.point]; omega⟩
    | fat h => exact ⟨_, _, rfl, by have := layout_ge8 h.valid; rw [h.point]; omega⟩
    | arc h => exact ⟨_, _, rfl, by have := layout_ge8 h.valid; rw [h.point]; omega⟩
    | @parts nh h c hc => cases c <;> exact ⟨_, _, rfl, by simp [PointHeader.bytes]⟩
    | route _ _ ih => exact ih
    | recv _ _ ih => exact ih
    | share _ _ ih => exact ih
  obtain ⟨s0, rest, e, hs⟩ := hseg
  unfold Wrap.arcDefault
  rw [e]
  rw [e] at f3
  have hb : Segments.bytes (s0.drop 4 :: rest) = q.point.drop 4 := by
    rw [← f3]
    simp only [Segments.bytes, List.flatten_cons]
    rw [List.drop_append_of_le_length hs]
  simp only
  rw [hb, f1, f2, f4, copy_layout dbg hc.valid (c := c) (by rw [List.take_append_drop, hc.point]) (by rw [hc.point]; simp; omega)]
  have := check_holds dbg false hc
  obtain ⟨nh, hash, pt⟩ := q
  obtain rfl : pt = c.layout := hc.point
  rw [this]
  rfl

/-- **C105**: its shared copy is the packet, however deep it is wrapped. -/
theorem wrap_arc (dbg : Bool) (h : Wraps C w q n) : w.asNetarc C dbg = .ok q := by
  induction h with
  | @ptr q c h =>
    have h8 := layout_ge8 h.valid
    rw [Wrap.asNetarc, copy_layout dbg h.valid (c := c) (by rw [List.take_append_drop, h.point]) (by rw [h.point]; simp; omega)]
    have := check_holds dbg true h
    obtain ⟨nh, hash, pt⟩ := q
    obtain rfl : pt = c.layout := h.point
    rw [this]
    rfl
  | fat h => exact arc_default dbg (.fat h)
  | arc h => rfl
  | parts h => exact arc_default dbg (.parts h)
  | route hl hw => exact arc_default dbg (.route hl hw)
  | recv t hw => exact arc_default dbg (.recv t hw)
  | @share w q n a ha hw ih =>
    rcases ha with rfl | rfl
    · exact ih
    · rfl

/-- **C105**: keeping the shared copy leaves it the same packet. -/
theorem wrap_keep (dbg : Bool) (h : Wraps C w q n) : ∃ w', w.keepArc C dbg = .ok w' ∧ Wraps C w' q n := by
  cases h with
  | @share w q n a ha hw =>
    rcases ha with rfl | rfl
    · exact ⟨.share (some q) w, by rw [Wrap.keepArc, wrap_arc dbg hw], .share (.inr rfl) hw⟩
    · exact ⟨_, rfl, .share (.inr rfl) hw⟩
  | ptr h => exact ⟨_, rfl, .ptr h⟩
  | fat h => exact ⟨_, rfl, .fat h⟩
  | arc h => exact ⟨_, rfl, .arc h⟩
  | parts h => exact ⟨_, rfl, .parts h⟩
  | route hl hw => exact ⟨_, rfl, .route hl hw⟩
  | recv t hw => exact ⟨_, rfl, .recv t hw⟩

/-- **C105**: the stamp of receipt is that of the outermost wrapper that has one. -/
theorem wrap_recv (t : Nat) (w : Wrap) (outer : List (Bytes ⊕ Option NetPkt)) :
    (outer.foldr (fun (o : Bytes ⊕ Option NetPkt) (w : Wrap) => match o with | .inl h => Wrap.route h w | .inr a => Wrap.share a w) (Wrap.recv t w)).received = some t := by
  induction outer with
  | nil => rfl
  | cons o outer ih => cases o <;> exact ih

/-! ### where it is false -/

/-- **C105 is false** of packets with many headers around them: a packet in byte form takes seven, with the eighth writing it is a panic, while both copies can be made. -/
theorem wrap_deep {c : Content} (h : Holds C q c) {r : Bytes} (hr : r.length = 32) :
    let around (k : Nat) : Wrap := (List.range k).foldr (fun _ w => Wrap.route r w) (.ptr q)
    (∃ s, (around 7).segments true = .ok s ∧ s.bytes = r ++ q.hash ++ q.point) ∧ (around 8).segments true = .error .panic ∧
      (around 8).asNetbox C true = .ok { q with netHeader := r } ∧ (around 8).asNetarc C true = .ok { q with netHeader := r } := by
  have h1 : ∀ {w : Wrap} {n : Nat} {q' : NetPkt}, Wraps C w q' n → q' = q ∨ q' = { q with netHeader := r } → Wraps C (.route r w) { q with netHeader := r } (n + 1) := by
    intro w n q' hw hq
    have := Wraps.route hr hw
    rcases hq with rfl | rfl <;> exact this
  have w1 := h1 (.ptr h) (.inl rfl)
  have w7 := h1 (h1 (h1 (h1 (h1 (h1 w1 (.inr rfl)) (.inr rfl)) (.inr rfl)) (.inr rfl)) (.inr rfl)) (.inr rfl)
  have w8 := h1 w7 (.inr rfl)
  exact ⟨(wrap_bytes_partial w7).1 (by omega), (wrap_bytes_partial w8).2 (by omega), (wrap_box_partial w7).2.2 r ((wrap_box_partial w7).1 (by omega)), wrap_arc true w8⟩

/-- **C105 is false** of a shared packet whose header is set after its copy was made: its bytes have the new header, its copy the old one. -/
theorem wrap_stale {c : Content} (h : Holds C q c) {r r' : Bytes} (hr : r.length = 32) (hr' : r'.length = 32) :
    ∃ w, (Wrap.share none (.route r (.ptr q))).keepArc C true = .ok w ∧ (w.setHeader r').asNetarc C true = .ok { q with netHeader := r } ∧
      ∃ s, (w.setHeader r').segments true = .ok s ∧ s.bytes = r' ++ q.hash ++ q.point := by
  have w1 : Wraps C (.route r (.ptr q)) { q with netHeader := r } 2 := .route hr (.ptr h)
  refine ⟨.share (some { q with netHeader := r }) (.route r (.ptr q)), by rw [Wrap.keepArc, wrap_arc true w1], rfl, ?_⟩
  exact (wrap_bytes_partial (Wraps.route hr' (Wraps.ptr h))).1 (by omega)

/-! ### a case -/

/-- The hypotheses are met by the signed point `witnessPoint`; it can be boxed with another header but not written with one. -/
theorem wrap_example : ∃ p, witnessPoint = .ok p ∧ ∃ q, Wraps toyCrypto (.parts p) q 8 ∧ ∀ r : Bytes, r.length = 32 →
    (Wrap.route r (.parts p)).segments true = .error .panic ∧ (Wrap.route r (.parts p)).asNetbox toyCrypto true = .ok { q with netHeader := r } := by
  obtain ⟨p, hp, hb⟩ := witness_built
  obtain ⟨c, hc, hw⟩ := built_wraps toyCrypto_laws hb
  have h8 : placesOf c = 8 := by
    have h := tryPoint_eq (C := toyCrypto) witness_sized (some (9 : UInt8)) (List.replicate 32 0)
    rw [if_pos (by show LinkContent.len _ + 96 ≤ 65024; decide)] at h
    rw [show witnessPoint = _ from h] at hp
    cases hp
    cases c with
    | key _ _ _ => rfl
    | data _ => simp [Content.parts, Content.fields, contentOf] at hc
    | error _ => simp [Content.parts, Content.fields, contentOf] at hc
    | link _ => simp [Content.parts, Content.fields, contentOf] at hc
  rw [h8] at hw
  exact ⟨p, hp, _, hw, fun r hr => ⟨(wrap_bytes_partial (.route hr hw)).2 (by omega), (wrap_box_partial hw).2.2 r ((wrap_box_partial hw).1 (by omega))⟩⟩

end Verif.Props
