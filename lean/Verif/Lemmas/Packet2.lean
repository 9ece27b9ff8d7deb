import Verif.Lemmas.Packet
import Verif.Lemmas.Rooted
/-!
Lemmas about building and reading packets.
-/
namespace Verif.Pkt
open Verif Verif.Spec

/-! ### builders -/

theorem newContentLen_eq {c : Content} (h : c.Valid) {n : Nat} (hn : n + 4 = c.size) :
    newContentLen c.type n = .ok ⟨0, c.type, c.size⟩ := by
  unfold newContentLen newPointSize
  rw [if_neg (by have := h.1; unfold maxPointSize; omega), hn]
  exact header_check h

theorem newPointSize_big {k : UInt8} {n : Nat} (h : n > 65024) : newPointSize k n = .error .contentLen := by
  unfold newPointSize; rw [if_pos (by unfold maxPointSize; omega)]

def tailOf (c : LinkContent) : Tail := ⟨c.links, c.data, c.rspace⟩

theorem byteLen_tailOf {c : LinkContent} (h : c.Sized) : (tailOf c).byteLen + 64 = c.len := by
  simp only [Tail.byteLen, tailOf, linksBytes_eq, linkBytes_length h.links, LinkContent.len]; omega

theorem linkp_eq {c : LinkContent} (h : c.Sized) :
    linkp c.group c.domain c.rspace c.links c.data c.stamp =
      if c.len ≤ 65024 then .ok (⟨0, 3, c.len⟩, headOf c, tailOf c) else .error (.err .contentLen) := by
  have hb := byteLen_tailOf h
  have hle : c.len = 64 + 48 * c.links.length + c.rspace.length + c.data.length := rfl
  unfold linkp
  rw [h.rspace]
  simp only []
  have ht : Tail.byteLen ⟨c.links, c.data, c.rspace⟩ = (tailOf c).byteLen := rfl
  rw [ht]
  by_cases hs : c.len ≤ 65024
  · rw [if_pos hs, if_neg (by omega), if_neg (by omega)]
    have := newContentLen_eq (c := .link c) ⟨hs, h⟩ (n := 60 + (tailOf c).byteLen) (by simp only [Content.size]; omega)
    simp only [Content.type, Content.size] at this
    simp only [tLink, this]
    rfl
  · rw [if_neg hs]
    split
    · rfl
    · split
      · rfl
      · rw [newContentLen, newPointSize_big (by omega)]

/-- What `try_point` is asked to build. -/
def contentOf (C : Crypto) (c : LinkContent) : Option C.Key → Content
  | none => .link c
  | some k => .key c (C.pubkey k) (C.sign k (C.hash (Content.key c [] []).unsigned))

theorem unsigned_key (c : LinkContent) (pk sig : Bytes) :
    (Content.key c pk sig).unsigned = (Content.key c [] []).unsigned := rfl

theorem link_parts_bytes (c : LinkContent) :
    (Parts.mk ⟨0, 7, c.len + 96⟩ (.link (headOf c) (tailOf c))).segments.bytes = (Content.key c [] []).unsigned := by
  simp [Parts.segments, Segments.fromArray, Segments.bytes, Content.unsigned, Content.middle, Content.head, Parts.padding,
    padding_eq, PointHeader.bytes, linksBytes_eq, LinkContent.layout, LinkHead.bytes, List.replicate, headOf, tailOf,
    Content.size, Content.type]

theorem contentOf_valid {C : Crypto} (L : C.Laws) {c : LinkContent} (h : c.Sized) (k : Option C.Key)
    (hs : (contentOf C c k).size ≤ 65024) : (contentOf C c k).Valid := by
  cases k with
  | none => exact ⟨hs, h⟩
  | some k => exact ⟨hs, h, L.pub_len _, L.sign_len _ _⟩

theorem contentOf_sealed {C : Crypto} (L : C.Laws) (c : LinkContent) (k : Option C.Key) : (contentOf C c k).Sealed C := by
  cases k with
  | none => trivial
  | some k => exact L.verify_sign _ _

theorem tryPoint_eq {C : Crypto} {c : LinkContent} (h : c.Sized) (k : Option C.Key) (nh : Bytes) :
    tryPoint C c.group c.domain c.rspace c.links c.data c.stamp k nh =
      if (contentOf C c k).size ≤ 65024 then
        .ok ⟨nh, C.hash (contentOf C c k).layout, (contentOf C c k).parts⟩
      else .error (.err .contentLen) := by
  have e0 : (contentOf C c none).size = c.len := rfl
  have e1 : ∀ k, (contentOf C c (some k)).size = c.len + 96 := fun _ => rfl
  cases k with
  | none =>
    simp only [tryPoint, tryLinkpoint, linkp_eq h]
    by_cases h1 : c.len ≤ 65024
    · rw [if_pos h1, if_pos (by rw [e0]; exact h1)]
      simp only [Parts.computeHash]
      rw [← segments_layout]; rfl
    · rw [if_neg h1, if_neg (by rw [e0]; exact h1)]
  | some k =>
    simp only [tryPoint, tryKeypoint, linkp_eq h]
    by_cases h1 : c.len ≤ 65024
    · rw [if_pos h1]
      simp only [show (3 : UInt8) ||| 4 = 7 by decide]
      by_cases h2 : c.len + 96 ≤ 65024
      · rw [if_pos (by rw [e1]; exact h2)]
        have hh : newPointSize 7 (c.len + 96) = .ok ⟨0, 7, c.len + 96⟩ := by
          unfold newPointSize
          rw [if_neg (by unfold maxPointSize; omega)]
          exact header_check (c := .key c (List.replicate 32 0) (List.replicate 64 0))
            ⟨h2, h, List.length_replicate, List.length_replicate⟩
        simp only [hh, Parts.computeHash, link_parts_bytes]
        rw [← segments_layout]; rfl
      · rw [if_neg (by rw [e1]; exact h2), newPointSize_big (by omega)]
    · rw [if_neg h1, if_neg (by rw [e1]; omega)]

/-! ### reading -/

theorem checkSignature_layout (C : Crypto) {c : Content} (h : c.Valid) :
    checkSignature C c.layout = .ok () ∧ c.Sealed C ∨
      checkSignature C c.layout = .error (.err .invalidSignature) ∧ ¬ c.Sealed C := by
  unfold checkSignature
  cases c with
  | data b => rw [fixed_data h]; exact .inl ⟨rfl, trivial⟩
  | error b => rw [fixed_error h]; exact .inl ⟨rfl, trivial⟩
  | link c => rw [fixed_link h]; exact .inl ⟨rfl, trivial⟩
  | key c pk sig =>
    rw [fixed_key h]
    simp only []
    have e : (Content.key c pk sig).layout.take ((Content.key c pk sig).layout.length - 96) = (Content.key c pk sig).unsigned := by
      have hp : (pk ++ sig).length = 96 := by simp [h.2.2.1, h.2.2.2]
      rw [Content.layout]
      simp only [Content.seal]
      rw [List.take_left' (by rw [List.length_append (bs := pk ++ sig), hp]; omega)]
    rw [e]
    simp only [Content.Sealed]
    split
    · exact .inl ⟨rfl, ‹_›⟩
    · exact .inr ⟨rfl, ‹_›⟩

theorem check_layout {C : Crypto} {dbg skip : Bool} {nh h : Bytes} {c : Content} (hv : c.Valid) :
    (NetPkt.mk nh h c.layout).check C dbg skip = .ok () ↔ (skip = false → c.Sealed C ∧ h = C.hash c.layout) := by
  unfold NetPkt.check
  simp only [consistent_layout dbg hv]
  cases skip with
  | true => simp
  | false =>
    simp only [Bool.false_eq_true, if_false]
    rcases checkSignature_layout C hv with ⟨e, hs⟩ | ⟨e, hs⟩
    · rw [e]; simp only []
      by_cases hh : h = C.hash c.layout
      · simp [hh, hs]
      · simp [hh]
    · rw [e]; simp [hs]

theorem padded_of_layout {c : Content} (h : c.Valid) :
    c.layout.length = (PointHeader.ofBytes c.layout).paddedSize := by
  rw [ofBytes_layout h, paddedSize_eq, layout_length h]

theorem layout_ge8 {c : Content} (h : c.Valid) : 8 ≤ c.layout.length := by
  have := layout_length h
  have h2 : 4 ≤ c.size := by cases c <;> simp only [Content.size, LinkContent.len] <;> omega
  simp only [padTo8] at this; omega

theorem ofBytes_append {a b : Bytes} (h : 4 ≤ a.length) : PointHeader.ofBytes (a ++ b) = PointHeader.ofBytes a := by
  match a, h with
  | r :: t :: x :: y :: rest, _ => simp [PointHeader.ofBytes]

theorem ofBytes_take {a : Bytes} {n : Nat} (h : 4 ≤ n) : PointHeader.ofBytes (a.take n) = PointHeader.ofBytes a := by
  match n, h with
  | n+4, _ =>
    match a with
    | [] => simp
    | [a] => simp
    | [a, b] => simp
    | [a, b, c] => simp
    | a :: b :: c :: d :: r => simp [PointHeader.ofBytes]

/-- Reading a buffer that starts with 64 arbitrary bytes and a point. -/
theorem readPkt_append (C : Crypto) (dbg skip : Bool) {nh h rest : Bytes} {c : Content} (hv : c.Valid)
    (h1 : nh.length = 32) (h2 : h.length = 32) :
    readPkt C dbg (nh ++ h ++ c.layout ++ rest) skip =
      match (NetPkt.mk nh h c.layout).check C dbg skip with
      | .error e => .error e
      | .ok () => .ok ⟨nh, h, c.layout⟩ := by
  have h8 := layout_ge8 hv
  have hlen : (nh ++ h).length = 64 := by simp [h1, h2]
  have hd : (nh ++ h ++ c.layout ++ rest).drop 64 = c.layout ++ rest := by
    rw [List.append_assoc, List.drop_left' hlen]
  have hd2 : (nh ++ h ++ c.layout ++ rest).drop 32 = h ++ (c.layout ++ rest) := by
    rw [List.append_assoc, List.append_assoc, List.drop_left' h1]
  have ht : (nh ++ h ++ c.layout ++ rest).take 32 = nh := by
    rw [List.append_assoc, List.append_assoc, List.take_left' h1]
  unfold readPkt
  rw [if_neg (by unfold minNetpktSize; simp only [List.length_append] at hlen ⊢; omega)]
  simp only [hd, hd2, ht, ofBytes_append (a := c.layout) (b := rest) (by omega), ofBytes_layout hv, header_check hv,
    PointHeader.size, paddedSize_eq]
  rw [← layout_length hv, if_neg (by simp only [List.length_append] at hlen ⊢; omega), if_neg (by omega), List.take_left' h2, List.take_left' rfl]
  split <;> rename_i hx <;> simp [hx]

theorem readPkt_ok_iff (C : Crypto) (dbg skip : Bool) (bytes : Bytes) (p : NetPkt) :
    readPkt C dbg bytes skip = .ok p ↔
      ∃ (c : Content) (rest : Bytes), c.Valid ∧ p.point = c.layout ∧ p.netHeader.length = 32 ∧ p.hash.length = 32 ∧
        bytes = p.netHeader ++ p.hash ++ p.point ++ rest ∧
        (skip = false → c.Sealed C ∧ p.hash = C.hash p.point) := by
  constructor
  · intro h
    unfold readPkt at h
    split at h
    · cases h
    rename_i hl
    simp only [minNetpktSize] at hl
    simp only [] at h
    split at h
    · cases h
    rename_i hd hck
    obtain ⟨hr, hu, ht⟩ := header_check_ok hck
    split at h
    · cases h
    rename_i hsz
    split at h
    · cases h
    rename_i hp4
    split at h
    · cases h
    rename_i hchk
    cases h
    simp only [PointHeader.size] at hsz
    have hl1 : ((bytes.drop 64).take (PointHeader.ofBytes (bytes.drop 64)).paddedSize).length
        = (PointHeader.ofBytes (bytes.drop 64)).paddedSize := by simp; omega
    have hic : internalConsistent dbg ((bytes.drop 64).take (PointHeader.ofBytes (bytes.drop 64)).paddedSize) = .ok () := by
      unfold NetPkt.check at hchk
      split at hchk
      · cases hchk
      · assumption
    have hp4 : 4 ≤ (PointHeader.ofBytes (bytes.drop 64)).paddedSize := by omega
    have hof := ofBytes_take (a := bytes.drop 64) hp4
    obtain ⟨c, hv, hlay⟩ := (consistent_iff dbg _ (by rw [hl1, hof])).1 hic
    refine ⟨c, bytes.drop (64 + (PointHeader.ofBytes (bytes.drop 64)).paddedSize), hv, hlay, by simp; omega, by simp; omega, ?_, ?_⟩
    · simp only []
      rw [← List.drop_drop, List.append_assoc, List.append_assoc, List.take_append_drop, show bytes.drop 64 = (bytes.drop 32).drop 32 by
        rw [List.drop_drop], List.take_append_drop, List.take_append_drop]
    · simp only []
      rw [hlay] at hchk ⊢
      exact (check_layout hv).1 hchk
  · rintro ⟨c, rest, hv, hp, h1, h2, hb, hs⟩
    rcases p with ⟨nh, h, pt⟩
    simp only at hp h1 h2 hb hs
    subst hp
    rw [hb, readPkt_append C dbg skip hv h1 h2, (check_layout hv).2 hs]

end Verif.Pkt
