import Verif.Spec.Packet
import Verif.Lemmas.Bytes
/-!
Lemmas about the packet model.
-/
namespace Verif.Pkt
open Verif Verif.Spec

theorem slice_eq {pt x y z : Bytes} {a b : Nat} (h : pt = x ++ (y ++ z)) (hx : x.length = a)
    (hy : a + y.length = b) : slice pt a b = y := by
  subst h hx hy
  simp [slice]

theorem slice_append (pt : Bytes) {a b c : Nat} (h1 : a ≤ b) (h2 : b ≤ c) :
    slice pt a b ++ slice pt b c = slice pt a c := by
  simp only [slice]
  have : pt.drop b = (pt.drop a).drop (b - a) := by rw [List.drop_drop]; congr 1; omega
  rw [this, show c - a = (b - a) + (c - b) by omega, List.take_add]

theorem slice_all (pt : Bytes) {n : Nat} (h : pt.length = n) : slice pt 0 n = pt := by
  subst h; simp [slice]

theorem slice_length (pt : Bytes) {a b : Nat} (h : b ≤ pt.length) : (slice pt a b).length = b - a := by
  simp [slice]; omega

theorem linksBytes_eq (ls : List Link) : linksBytes ls = linkBytes ls := by
  simp [linksBytes, linkBytes, Link.bytes, List.flatMap_def]
  rfl

theorem linkBytes_length {ls : List Link} (h : LinksSized ls) : (linkBytes ls).length = 48 * ls.length := by
  induction ls with
  | nil => rfl
  | cons l ls ih =>
    have h1 := h l (by simp)
    have h2 := ih (fun x hx => h x (by simp [hx]))
    simp only [linkBytes, List.map_cons, List.flatten_cons, List.length_append, List.length_cons] at h2 ⊢
    omega

theorem readLinks_linkBytes {ls : List Link} (h : LinksSized ls) : readLinks ls.length (linkBytes ls) = ls := by
  induction ls with
  | nil => rfl
  | cons l ls ih =>
    have h1 := h l (by simp)
    have h2 := ih (fun x hx => h x (by simp [hx]))
    have e : linkBytes (l :: ls) = l.tag ++ (l.ptr ++ linkBytes ls) := by simp [linkBytes]
    simp only [List.length_cons, readLinks]
    rw [e]
    rw [List.take_left' h1.1, List.drop_left' h1.1, List.take_left' h1.2]
    rw [show l.tag ++ (l.ptr ++ linkBytes ls) = (l.tag ++ l.ptr) ++ linkBytes ls by simp,
      List.drop_left' (by simp; omega), h2]

theorem readLinks_length (n : Nat) (b : Bytes) : (readLinks n b).length = n := by
  induction n generalizing b with
  | zero => rfl
  | succ n ih => simp [readLinks, ih]

theorem readLinks_sized {n : Nat} {b : Bytes} (h : b.length = 48 * n) :
    LinksSized (readLinks n b) ∧ linkBytes (readLinks n b) = b := by
  induction n generalizing b with
  | zero =>
    have : b = [] := List.eq_nil_of_length_eq_zero (by omega)
    subst this
    exact ⟨fun l hl => (by simp [readLinks] at hl), rfl⟩
  | succ n ih =>
    obtain ⟨h1, h2⟩ := ih (b := b.drop 48) (by simp; omega)
    refine ⟨?_, ?_⟩
    · intro l hl
      simp only [readLinks, List.mem_cons] at hl
      rcases hl with rfl | hl
      · simp; omega
      · exact h1 l hl
    · have e : linkBytes (readLinks (n+1) b) = b.take 16 ++ ((b.drop 16).take 32 ++ linkBytes (readLinks n (b.drop 48))) := by
        simp [linkBytes, readLinks]
      rw [e, h2, show b.drop 48 = (b.drop 16).drop 32 by rw [List.drop_drop],
        List.take_append_drop, List.take_append_drop]

/-- The link point header of a content. -/
def headOf (c : LinkContent) : LinkHead :=
  ⟨64 + 48 * c.links.length, 64 + 48 * c.links.length + c.rspace.length, c.stamp, c.group, c.domain⟩

theorem headOf_bytes_length {c : LinkContent} (h : c.Sized) : (headOf c).bytes.length = 60 := by
  simp [headOf, LinkHead.bytes, h.group, h.domain]

theorem LinkHead.ofBytes_bytes {h : LinkHead} (h1 : h.offRspace < 65536) (h2 : h.offData < 65536)
    (h3 : h.stamp < 2 ^ 64) (h4 : h.group.length = 32) (h5 : h.domain.length = 16) :
    LinkHead.ofBytes h.bytes = h := by
  rcases h with ⟨a, b, s, g, d⟩
  simp only at h1 h2 h3 h4 h5
  have ea : beNat (beBytes 2 a) = a := beNat_beBytes 2 a (by simpa using h1)
  have eb : beNat (beBytes 2 b) = b := beNat_beBytes 2 b (by simpa using h2)
  have es : beNat (beBytes 8 s) = s := beNat_beBytes 8 s (by simpa using h3)
  simp only [LinkHead.ofBytes, LinkHead.bytes, List.append_assoc]
  have l1 : (beBytes 2 a).length = 2 := by simp
  have l2 : (beBytes 2 a ++ beBytes 2 b).length = 4 := by simp
  have l3 : (beBytes 2 a ++ (beBytes 2 b ++ beBytes 8 s)).length = 12 := by simp
  have l4 : (beBytes 2 a ++ (beBytes 2 b ++ (beBytes 8 s ++ g))).length = 44 := by simp [h4]
  have d2 : (beBytes 2 a ++ (beBytes 2 b ++ (beBytes 8 s ++ (g ++ d)))).drop 4 = beBytes 8 s ++ (g ++ d) := by
    rw [show beBytes 2 a ++ (beBytes 2 b ++ (beBytes 8 s ++ (g ++ d)))
      = (beBytes 2 a ++ beBytes 2 b) ++ (beBytes 8 s ++ (g ++ d)) by simp, List.drop_left' l2]
  have d3 : (beBytes 2 a ++ (beBytes 2 b ++ (beBytes 8 s ++ (g ++ d)))).drop 12 = g ++ d := by
    rw [show beBytes 2 a ++ (beBytes 2 b ++ (beBytes 8 s ++ (g ++ d)))
      = (beBytes 2 a ++ (beBytes 2 b ++ beBytes 8 s)) ++ (g ++ d) by simp, List.drop_left' l3]
  have d4 : (beBytes 2 a ++ (beBytes 2 b ++ (beBytes 8 s ++ (g ++ d)))).drop 44 = d := by
    rw [show beBytes 2 a ++ (beBytes 2 b ++ (beBytes 8 s ++ (g ++ d)))
      = (beBytes 2 a ++ (beBytes 2 b ++ (beBytes 8 s ++ g))) ++ d by simp, List.drop_left' l4]
  rw [d2, d3, d4, List.drop_left' l1, List.take_left' l1, List.take_left' (by simp),
    List.take_left' (by simp), List.take_left' h4, List.take_of_length_le (by omega), ea, eb, es]

theorem LinkHead.bytes_ofBytes {b : Bytes} (h : b.length = 60) : (LinkHead.ofBytes b).bytes = b := by
  have e1 : beBytes 2 (beNat (b.take 2)) = b.take 2 := by
    have := beBytes_beNat (b.take 2); simp [h] at this; exact this
  have e2 : beBytes 2 (beNat ((b.drop 2).take 2)) = (b.drop 2).take 2 := by
    have := beBytes_beNat ((b.drop 2).take 2); simp [h] at this; exact this
  have e3 : beBytes 8 (beNat ((b.drop 4).take 8)) = (b.drop 4).take 8 := by
    have := beBytes_beNat ((b.drop 4).take 8); simp [h] at this; exact this
  simp only [LinkHead.ofBytes, LinkHead.bytes, e1, e2, e3, List.append_assoc]
  rw [List.take_of_length_le (l := b.drop 44) (by simp; omega)]
  rw [show b.drop 44 = (b.drop 12).drop 32 by rw [List.drop_drop], List.take_append_drop,
    show b.drop 12 = (b.drop 4).drop 8 by rw [List.drop_drop], List.take_append_drop,
    show b.drop 4 = (b.drop 2).drop 2 by rw [List.drop_drop], List.take_append_drop, List.take_append_drop]

theorem PointHeader.ofBytes_cons (r t : UInt8) (n : Nat) (rest : Bytes) (hn : n < 65536) :
    PointHeader.ofBytes ([r, t] ++ beBytes 2 n ++ rest) = ⟨r, t, n⟩ := by
  simp only [PointHeader.ofBytes]
  simp only [List.cons_append, List.nil_append, List.getD_cons_zero, List.getD_cons_succ,
    List.drop_succ_cons, List.drop_zero]
  rw [List.take_left' (by simp), beNat_beBytes 2 n (by simpa using hn)]

theorem PointHeader.bytes_ofBytes {b : Bytes} (h : 4 ≤ b.length) : (PointHeader.ofBytes b).bytes = b.take 4 := by
  match b, h with
  | r :: t :: x :: y :: rest, _ =>
    have := beBytes_beNat [x, y]
    simp [PointHeader.ofBytes, PointHeader.bytes]
    simpa using this

theorem content_head_length (c : Content) : c.head.length = 4 := by simp [Content.head]

theorem ofBytes_layout {c : Content} (h : c.Valid) : PointHeader.ofBytes c.layout = ⟨0, c.type, c.size⟩ := by
  rw [show c.layout = [0, c.type] ++ beBytes 2 c.size ++ (c.middle ++ List.replicate (padTo8 c.size) 255 ++ c.seal) by
    simp [Content.layout, Content.unsigned, Content.head]]
  exact PointHeader.ofBytes_cons _ _ _ _ (by have := h.1; omega)

theorem padding_eq (r t : UInt8) (n : Nat) : (PointHeader.mk r t n).padding = padTo8 n := by
  simp only [PointHeader.padding, PointHeader.paddedSize, padTo8]; omega

theorem paddedSize_eq (r t : UInt8) (n : Nat) : (PointHeader.mk r t n).paddedSize = n + padTo8 n := by
  simp only [PointHeader.paddedSize, padTo8]; omega

theorem link_layout_eq (c : LinkContent) :
    c.layout = (headOf c).bytes ++ (linkBytes c.links ++ (c.rspace ++ c.data)) := by
  simp [LinkContent.layout, headOf, LinkHead.bytes]

theorem link_layout_length {c : LinkContent} (h : c.Sized) : 4 + c.layout.length = c.len := by
  rw [link_layout_eq]
  simp only [List.length_append, headOf_bytes_length h, linkBytes_length h.links, LinkContent.len]
  omega

theorem layout_length {c : Content} (h : c.Valid) : c.layout.length = c.size + padTo8 c.size := by
  simp only [Content.layout, Content.unsigned, List.length_append, content_head_length, List.length_replicate]
  cases c with
  | data b => simp [Content.middle, Content.seal, Content.size]
  | error b => simp [Content.middle, Content.seal, Content.size]
  | link c =>
    have := link_layout_length h.2
    simp only [Content.middle, Content.seal, Content.size, List.length_nil]; omega
  | key c pk sig =>
    have := link_layout_length h.2.1
    simp only [Content.middle, Content.seal, Content.size, List.length_append, h.2.2.1, h.2.2.2]; omega

theorem header_check {c : Content} (h : c.Valid) :
    PointHeader.check ⟨0, c.type, c.size⟩ = .ok ⟨0, c.type, c.size⟩ := by
  have h1 := h.1
  unfold PointHeader.check
  rw [if_neg (by simp)]
  simp only []
  rw [if_neg (by simp only [PointHeader.contentSize, maxContentSize, maxPointSize]; omega)]
  cases c with
  | data b => rfl
  | error b => rfl
  | link c =>
    rw [if_neg (by simp only [Content.type]; decide), if_pos (by rfl), if_pos]
    simp only [PointHeader.contentSize, Content.size, LinkContent.len]; omega
  | key c pk sig =>
    rw [if_neg (by simp only [Content.type]; decide), if_neg (by simp only [Content.type]; decide), if_pos (by rfl), if_pos]
    simp only [PointHeader.contentSize, Content.size, LinkContent.len]; omega

theorem fixed_link {c : LinkContent} (h : (Content.link c).Valid) :
    fixed (Content.link c).layout = .ok (.link (headOf c) none (List.replicate (padTo8 c.len) 255)) := by
  have hl := layout_length h
  have ho := ofBytes_layout h
  simp only [Content.size, Content.type] at hl ho
  have hs := link_layout_length h.2
  have hh := headOf_bytes_length h.2
  have hle : c.len = 64 + 48 * c.links.length + c.rspace.length + c.data.length := rfl
  have h1 := h.1
  simp only [Content.size] at h1
  unfold fixed
  rw [ho]
  rw [if_neg (by omega)]
  have e : (Content.link c).layout.drop 4 = (headOf c).bytes ++ ((linkBytes c.links ++ (c.rspace ++ c.data)) ++ List.replicate (padTo8 c.len) 255) := by
    rw [show (Content.link c).layout = (Content.link c).head ++ ((headOf c).bytes ++ ((linkBytes c.links ++ (c.rspace ++ c.data)) ++ List.replicate (padTo8 c.len) 255)) by
      simp [Content.layout, Content.unsigned, Content.seal, Content.middle, Content.size, link_layout_eq],
      List.drop_left' (content_head_length _)]
  simp only [e, padding_eq]
  rw [if_pos (by decide), if_neg (by simp; omega), if_neg (by decide)]
  rw [List.take_left' hh, List.drop_left' hh]
  rw [if_neg (by simp; omega)]
  rw [List.drop_left' (by simp; omega), LinkHead.ofBytes_bytes (by simp [headOf]; omega) (by simp [headOf]; omega) h.2.stamp h.2.group h.2.domain]

theorem fixed_key {c : LinkContent} {pk sig : Bytes} (h : (Content.key c pk sig).Valid) :
    fixed (Content.key c pk sig).layout
      = .ok (.link (headOf c) (some ⟨pk, sig⟩) (List.replicate (padTo8 (c.len + 96)) 255)) := by
  have hl := layout_length h
  have ho := ofBytes_layout h
  simp only [Content.size, Content.type] at hl ho
  have hs := link_layout_length h.2.1
  have hh := headOf_bytes_length h.2.1
  have hle : c.len = 64 + 48 * c.links.length + c.rspace.length + c.data.length := rfl
  have h1 := h.1
  simp only [Content.size] at h1
  unfold fixed
  rw [ho]
  rw [if_neg (by omega)]
  have e : (Content.key c pk sig).layout.drop 4 = (headOf c).bytes ++ (((linkBytes c.links ++ (c.rspace ++ c.data)) ++ List.replicate (padTo8 (c.len + 96)) 255) ++ (pk ++ sig)) := by
    rw [show (Content.key c pk sig).layout = (Content.key c pk sig).head ++ ((headOf c).bytes ++ (((linkBytes c.links ++ (c.rspace ++ c.data)) ++ List.replicate (padTo8 (c.len + 96)) 255) ++ (pk ++ sig))) by
      simp [Content.layout, Content.unsigned, Content.seal, Content.middle, Content.size, link_layout_eq],
      List.drop_left' (content_head_length _)]
  have hp : (pk ++ sig).length = 96 := by simp [h.2.2.1, h.2.2.2]
  simp only [e, padding_eq]
  rw [if_pos (by decide), if_neg (by simp; omega), if_pos (by decide)]
  rw [List.take_left' hh, List.drop_left' hh]
  rw [if_neg (by rw [List.length_append (bs := pk ++ sig), hp]; omega)]
  rw [List.take_left' (by rw [List.length_append (bs := pk ++ sig), hp]; omega)]
  rw [List.drop_left' (l₁ := (linkBytes c.links ++ (c.rspace ++ c.data)) ++ List.replicate (padTo8 (c.len + 96)) 255) (by rw [List.length_append (bs := pk ++ sig), hp]; omega)]
  rw [if_neg (by simp; omega)]
  rw [List.drop_left' (by simp; omega), LinkHead.ofBytes_bytes (by simp [headOf]; omega) (by simp [headOf]; omega) h.2.1.stamp h.2.1.group h.2.1.domain]
  rw [Signed.ofBytes, List.take_left' h.2.2.1, List.drop_left' h.2.2.1]

theorem tail_aux (dbg : Bool) {c : LinkContent} (h : c.Sized) {pt rest : Bytes} {t : UInt8} {n : Nat}
    (ho : PointHeader.ofBytes pt = ⟨0, t, n⟩) (hlen : c.len < 65536)
    (hd : Bytes) (hhd : hd.length = 4)
    (hpt : pt = hd ++ (c.layout ++ rest))
    (hn : (if hasSig t then n - 96 else n) = c.len) :
    uncheckedTail dbg pt = .ok ⟨c.links, c.data, c.rspace⟩ := by
  have hh := headOf_bytes_length h
  have hle : c.len = 64 + 48 * c.links.length + c.rspace.length + c.data.length := rfl
  have hll := linkBytes_length h.links
  have e1 : slice pt 4 64 = (headOf c).bytes := by
    refine slice_eq (x := hd) (z := linkBytes c.links ++ (c.rspace ++ c.data) ++ rest) ?_ hhd (by omega)
    rw [hpt, link_layout_eq]; simp
  have e2 : LinkHead.ofBytes (slice pt 4 64) = headOf c := by
    rw [e1, LinkHead.ofBytes_bytes (by simp [headOf]; omega) (by simp [headOf]; omega) h.stamp h.group h.domain]
  have e3 : slice pt 64 (64 + 48 * c.links.length) = linkBytes c.links := by
    refine slice_eq (x := hd ++ (headOf c).bytes) (z := (c.rspace ++ c.data) ++ rest) ?_ (by simp; omega) (by omega)
    rw [hpt, link_layout_eq]; simp
  have e4 : slice pt (64 + 48 * c.links.length) (64 + 48 * c.links.length + c.rspace.length) = c.rspace := by
    refine slice_eq (x := hd ++ (headOf c).bytes ++ linkBytes c.links) (z := c.data ++ rest) ?_ (by simp; omega) (by omega)
    rw [hpt, link_layout_eq]; simp
  have e5 : slice pt (64 + 48 * c.links.length + c.rspace.length) c.len = c.data := by
    refine slice_eq (x := hd ++ (headOf c).bytes ++ linkBytes c.links ++ c.rspace) (z := rest) ?_ (by simp; omega) (by omega)
    rw [hpt, link_layout_eq]; simp
  have hptl : c.len ≤ pt.length := by
    have := link_layout_length h
    rw [hpt]; simp; omega
  unfold uncheckedTail
  rw [ho, e2]
  simp only [hn]
  simp only [headOf, e3, e4, e5]
  rw [if_neg (by simp only [Classical.not_not]; omega), h.rspace]
  rw [show (64 + 48 * c.links.length - 64) / 48 = c.links.length by omega, readLinks_linkBytes h.links]
  simp [Except.isOk, Except.toBool]

theorem fixed_data {b : Bytes} (h : (Content.data b).Valid) :
    fixed (Content.data b).layout = .ok (.data b (List.replicate (padTo8 (4 + b.length)) 255)) := by
  have hl := layout_length h
  have ho := ofBytes_layout h
  simp only [Content.size, Content.type] at hl ho
  have e : (Content.data b).layout.drop 4 = b ++ List.replicate (padTo8 (4 + b.length)) 255 := by
    rw [show (Content.data b).layout = (Content.data b).head ++ (b ++ List.replicate (padTo8 (4 + b.length)) 255) by
      simp [Content.layout, Content.unsigned, Content.seal, Content.middle, Content.size],
      List.drop_left' (content_head_length _)]
  unfold fixed
  rw [ho, if_neg (by omega)]
  simp only [e, padding_eq]
  rw [if_neg (by decide), if_neg (by simp), if_pos (by rfl)]
  rw [List.take_left' (by simp), List.drop_left' (by simp)]

theorem fixed_error {b : Bytes} (h : (Content.error b).Valid) :
    fixed (Content.error b).layout = .ok (.error b (List.replicate (padTo8 (4 + b.length)) 255)) := by
  have hl := layout_length h
  have ho := ofBytes_layout h
  simp only [Content.size, Content.type] at hl ho
  have e : (Content.error b).layout.drop 4 = b ++ List.replicate (padTo8 (4 + b.length)) 255 := by
    rw [show (Content.error b).layout = (Content.error b).head ++ (b ++ List.replicate (padTo8 (4 + b.length)) 255) by
      simp [Content.layout, Content.unsigned, Content.seal, Content.middle, Content.size],
      List.drop_left' (content_head_length _)]
  unfold fixed
  rw [ho, if_neg (by omega)]
  simp only [e, padding_eq]
  rw [if_neg (by decide), if_neg (by simp), if_neg (by decide), if_pos (by rfl)]
  rw [List.take_left' (by simp), List.drop_left' (by simp)]

theorem tail_link (dbg : Bool) {c : LinkContent} (h : (Content.link c).Valid) :
    uncheckedTail dbg (Content.link c).layout = .ok ⟨c.links, c.data, c.rspace⟩ := by
  have ho := ofBytes_layout h
  have h1 := h.1
  simp only [Content.size, Content.type] at ho h1
  exact tail_aux dbg h.2 ho (by omega) (Content.link c).head (content_head_length _)
      (rest := List.replicate (padTo8 c.len) 255)
      (by simp [Content.layout, Content.unsigned, Content.seal, Content.middle, Content.size])
      (by rw [if_neg (by decide)])

theorem tail_key (dbg : Bool) {c : LinkContent} {pk sig : Bytes} (h : (Content.key c pk sig).Valid) :
    uncheckedTail dbg (Content.key c pk sig).layout = .ok ⟨c.links, c.data, c.rspace⟩ := by
  have ho := ofBytes_layout h
  have h1 := h.1
  simp only [Content.size, Content.type] at ho h1
  exact tail_aux dbg h.2.1 ho (by omega) (Content.key c pk sig).head (content_head_length _)
      (rest := List.replicate (padTo8 (c.len + 96)) 255 ++ (pk ++ sig))
      (by simp [Content.layout, Content.unsigned, Content.seal, Content.middle, Content.size])
      (by rw [if_pos (by decide)]; omega)

theorem parts_layout (dbg : Bool) {c : Content} (h : c.Valid) : parts dbg c.layout = .ok c.parts := by
  have ho := ofBytes_layout h
  unfold parts
  cases c with
  | data b => simp only [fixed_data h, ho]; rfl
  | error b => simp only [fixed_error h, ho]; rfl
  | link c => simp only [fixed_link h, ho, tail_link dbg h]; rfl
  | key c pk sig => simp only [fixed_key h, ho, tail_key dbg h]; rfl

theorem padTo8_le (n : Nat) : padTo8 n ≤ 7 := by simp only [padTo8]; omega

theorem consistent_layout (dbg : Bool) {c : Content} (h : c.Valid) : internalConsistent dbg c.layout = .ok () := by
  have ho := ofBytes_layout h
  have hpad : ∀ n, ¬ (List.replicate (padTo8 n) (255 : UInt8)).length > 7 := by
    intro n; rw [List.length_replicate]; have := padTo8_le n; omega
  have hall : ∀ n, (List.replicate n (255 : UInt8)).all (· == 255) = true := by simp
  have h1 := h.1
  unfold internalConsistent
  simp only [ho, header_check h]
  cases c with
  | data b =>
    simp only [fixed_data h]
    rw [if_neg (hpad _), hall]; rfl
  | error b =>
    simp only [fixed_error h]
    rw [if_neg (hpad _), hall]; rfl
  | link c =>
    have hle : c.len = 64 + 48 * c.links.length + c.rspace.length + c.data.length := rfl
    simp only [fixed_link h, tail_link dbg h, h.2.rspace]
    rw [if_neg (by rw [if_neg (by simp only [Content.type]; decide)]; simp only [headOf, Content.size]; omega),
      if_neg (by simp only [headOf]; omega), if_neg (by simp only [headOf]; omega),
      if_neg (by simp only [headOf]; omega)]
    simp only []
    rw [if_neg (hpad _), hall]; rfl
  | key c pk sig =>
    have hle : c.len = 64 + 48 * c.links.length + c.rspace.length + c.data.length := rfl
    simp only [fixed_key h, tail_key dbg h, h.2.1.rspace]
    rw [if_neg (by rw [if_pos (by simp only [Content.type]; decide)]; simp only [headOf, Content.size]; omega),
      if_neg (by simp only [headOf]; omega), if_neg (by simp only [headOf]; omega),
      if_neg (by simp only [headOf]; omega)]
    simp only []
    rw [if_neg (hpad _), hall]; rfl

theorem segments_layout (c : Content) : c.parts.segments.bytes = c.layout := by
  cases c <;> simp [Content.parts, Parts.segments, Content.fields, Segments.fromArray, Segments.bytes, Content.layout,
    Content.unsigned, Content.seal, Content.middle, Content.head, Parts.padding, padding_eq, PointHeader.bytes,
    linksBytes_eq, LinkContent.layout, LinkHead.bytes, Signed.bytes, List.replicate]

end Verif.Pkt

namespace Verif.Pkt
open Verif Verif.Spec

/-- Cutting a link point's middle bytes at accepted offsets gives a content with exactly this layout. -/
theorem link_of_slices {pt : Bytes} {n : Nat} {lh : LinkHead} (hlh : lh = LinkHead.ofBytes (slice pt 4 64))
    (h64 : 64 ≤ lh.offRspace) (h48 : (lh.offRspace - 64) % 48 = 0) (hod : lh.offRspace ≤ lh.offData)
    (hn : lh.offData ≤ n) (hpt : n ≤ pt.length)
    (hrs : Rooted.checkComponents (slice pt lh.offRspace lh.offData) = .ok ()) :
    ∃ c : LinkContent, c.Sized ∧ c.len = n ∧ headOf c = lh ∧ c.layout = slice pt 4 n ∧
      c.links = readLinks ((lh.offRspace - 64) / 48) (slice pt 64 lh.offRspace) ∧
      c.rspace = slice pt lh.offRspace lh.offData ∧ c.data = slice pt lh.offData n := by
  let c : LinkContent := ⟨lh.group, lh.domain, lh.stamp,
    readLinks ((lh.offRspace - 64) / 48) (slice pt 64 lh.offRspace), slice pt lh.offRspace lh.offData,
    slice pt lh.offData n⟩
  have hlen : (slice pt 4 64).length = 60 := by rw [slice_length _ (by omega)]
  have hll : (slice pt 64 lh.offRspace).length = 48 * ((lh.offRspace - 64) / 48) := by
    rw [slice_length _ (by omega)]; omega
  obtain ⟨s1, s2⟩ := readLinks_sized hll
  have hnl := readLinks_length ((lh.offRspace - 64) / 48) (slice pt 64 lh.offRspace)
  have hrl : (slice pt lh.offRspace lh.offData).length = lh.offData - lh.offRspace := slice_length _ (by omega)
  have hdl : (slice pt lh.offData n).length = n - lh.offData := slice_length _ hpt
  have hh : headOf c = lh := by
    simp only [headOf, c, hnl, hrl]
    cases lh with | mk a b s g d => ?_
    simp only [LinkHead.mk.injEq, and_self, and_true] at *
    omega
  refine ⟨c, ?_, ?_, hh, ?_, rfl, rfl, rfl⟩
  · refine ⟨?_, ?_, ?_, s1, hrs⟩
    · simp [c, hlh, LinkHead.ofBytes, hlen]
    · simp [c, hlh, LinkHead.ofBytes, hlen]
    · simp only [c, hlh, LinkHead.ofBytes]
      have := beNat_lt (((slice pt 4 64).drop 4).take 8)
      simpa [hlen] using this
  · simp only [LinkContent.len, c, hnl, hrl, hdl]; omega
  · rw [link_layout_eq, hh]
    simp only [c, s2]
    rw [hlh, LinkHead.bytes_ofBytes hlen, ← hlh, slice_append pt hod hn, slice_append pt h64 (by omega),
      slice_append pt (by omega) (by omega)]

theorem header_check_ok {h h' : PointHeader} (e : h.check = .ok h') :
    h.reserved = 0 ∧ h.uset ≤ 65024 ∧
      (h.ptype = tData ∨ h.ptype = tError ∨ (h.ptype = tLink ∧ 64 ≤ h.uset) ∨ (h.ptype = tKey ∧ 160 ≤ h.uset)) := by
  unfold PointHeader.check at e
  split at e
  · cases e
  · rename_i h0
    simp only [] at e
    split at e
    · cases e
    · rename_i h1
      simp only [PointHeader.contentSize, maxContentSize, maxPointSize] at h1
      refine ⟨Classical.not_not.1 h0, by omega, ?_⟩
      split at e
      · exact .inl ‹_›
      · split at e
        · split at e
          · rename_i h2; simp only [PointHeader.contentSize] at h2
            exact .inr (.inr (.inl ⟨‹_›, by omega⟩))
          · cases e
        · split at e
          · split at e
            · rename_i h2; simp only [PointHeader.contentSize] at h2
              exact .inr (.inr (.inr ⟨‹_›, by omega⟩))
            · cases e
          · split at e
            · exact .inr (.inl ‹_›)
            · cases e

theorem ofBytes_uset_lt (b : Bytes) : (PointHeader.ofBytes b).uset < 65536 := by
  simp only [PointHeader.ofBytes]
  have h := beNat_lt ((b.drop 2).take 2)
  have h2 : ((b.drop 2).take 2).length ≤ 2 := by simp; omega
  have : 256 ^ ((b.drop 2).take 2).length ≤ 256 ^ 2 := Nat.pow_le_pow_right (by omega) h2
  omega

theorem eq_replicate_of_all {l : Bytes} (h : l.all (· == 255) = true) : l = List.replicate l.length 255 := by
  induction l with
  | nil => rfl
  | cons x l ih =>
    simp only [List.all_cons, Bool.and_eq_true, beq_iff_eq] at h
    rw [List.length_cons, List.replicate_succ, ← ih h.2, h.1]

/-- the point starts with its header bytes -/
theorem take4_head {pt : Bytes} (h : 4 ≤ pt.length) (h0 : (PointHeader.ofBytes pt).reserved = 0) :
    pt.take 4 = [0, (PointHeader.ofBytes pt).ptype] ++ beBytes 2 (PointHeader.ofBytes pt).uset := by
  rw [← PointHeader.bytes_ofBytes h, PointHeader.bytes, h0]; rfl

theorem drop_eq_slice (pt : Bytes) {a n : Nat} (h : pt.length = n) : pt.drop a = slice pt a n := by
  subst h; rw [slice, List.take_of_length_le (by simp)]

theorem slice_take (pt : Bytes) {a b c : Nat} (h : b ≤ c) : slice (pt.take c) a b = slice pt a b := by
  simp only [slice, List.drop_take, List.take_take]
  congr 1; omega

theorem uncheckedTail_rspace {dbg : Bool} {pt : Bytes} {t : Tail} (h : uncheckedTail dbg pt = .ok t) :
    t.rspace = slice pt (LinkHead.ofBytes (slice pt 4 64)).offRspace (LinkHead.ofBytes (slice pt 4 64)).offData := by
  unfold uncheckedTail at h
  simp only [] at h
  generalize (if hasSig (PointHeader.ofBytes pt).ptype = true then (PointHeader.ofBytes pt).uset - 96
    else (PointHeader.ofBytes pt).uset) = size at h
  split at h
  · cases h
  · split at h
    · cases h
    · cases h; rfl

/-- Acceptance of a point of the right length is exactly being the layout of an allowed content. -/
theorem consistent_iff (dbg : Bool) (pt : Bytes) (hlen : pt.length = (PointHeader.ofBytes pt).paddedSize) :
    internalConsistent dbg pt = .ok () ↔ ∃ c : Content, c.Valid ∧ pt = c.layout := by
  refine ⟨?_, fun ⟨c, hv, e⟩ => e ▸ consistent_layout dbg hv⟩
  intro hc
  unfold internalConsistent at hc
  simp only [] at hc
  split at hc
  · cases hc
  rename_i hd hck
  obtain ⟨hr, hu, ht⟩ := header_check_ok hck
  have hps : (PointHeader.ofBytes pt).paddedSize = (PointHeader.ofBytes pt).uset + padTo8 (PointHeader.ofBytes pt).uset :=
    paddedSize_eq _ _ _
  have hpd : (PointHeader.ofBytes pt).padding = padTo8 (PointHeader.ofBytes pt).uset := padding_eq _ _ _
  split at hc
  · cases hc
  rename_i bare hfx
  have h4 : 4 ≤ pt.length := by
    unfold fixed at hfx
    simp only [] at hfx
    split at hfx
    · cases hfx
    · omega
  have ht4 := take4_head h4 hr
  generalize hn : (PointHeader.ofBytes pt).uset = n at *
  generalize hty : (PointHeader.ofBytes pt).ptype = ty at *
  generalize hpn : padTo8 n = k at *
  have hlen' : pt.length = n + k := by omega
  unfold fixed at hfx
  simp only [hty, hpd] at hfx
  rw [if_neg (by omega)] at hfx
  have key : ∀ c : Content, c.type = ty → c.size = n → c.Valid →
      pt = pt.take 4 ++ (c.middle ++ List.replicate k 255 ++ c.seal) → ∃ c : Content, c.Valid ∧ pt = c.layout := by
    intro c e1 e2 hv hp
    refine ⟨c, hv, ?_⟩
    rw [hp, ht4]
    simp only [Content.layout, Content.unsigned, Content.head, e1, e2, hpn, List.append_assoc]
  rcases ht with e | e | ⟨e, hge⟩ | ⟨e, hge⟩
  · -- data
    rw [if_neg (by rw [e]; decide)] at hfx
    split at hfx
    · cases hfx
    rename_i hk
    cases hfx
    simp only [] at hc
    split at hc
    · cases hc
    split at hc
    · cases hc
    rename_i _ hall
    simp only [Bool.not_eq_true', Bool.not_eq_false] at hall
    have hr := eq_replicate_of_all hall
    have hl : ((pt.drop 4).drop ((pt.drop 4).length - k)).length = k := by simp at hk ⊢; omega
    have hk' : k ≤ pt.length - 4 := by simpa using hk
    refine key (.data ((pt.drop 4).take ((pt.drop 4).length - k))) e.symm ?_ ⟨?_, trivial⟩ ?_
    · simp only [Content.size, List.length_take, List.length_drop]; omega
    · simp only [Content.size, List.length_take, List.length_drop]; omega
    · simp only [Content.middle, Content.seal, List.append_nil]
      rw [hl] at hr
      rw [← hr, List.take_append_drop, List.take_append_drop]
  · rw [if_neg (by rw [e]; decide)] at hfx
    split at hfx
    · cases hfx
    rename_i hk
    rw [if_neg (by rw [e]; decide)] at hfx
    cases hfx
    simp only [] at hc
    split at hc
    · cases hc
    split at hc
    · cases hc
    rename_i _ hall
    simp only [Bool.not_eq_true', Bool.not_eq_false] at hall
    have hr := eq_replicate_of_all hall
    have hl : ((pt.drop 4).drop ((pt.drop 4).length - k)).length = k := by simp at hk ⊢; omega
    have hk' : k ≤ pt.length - 4 := by simpa using hk
    refine key (.error ((pt.drop 4).take ((pt.drop 4).length - k))) e.symm ?_ ⟨?_, trivial⟩ ?_
    · simp only [Content.size, List.length_take, List.length_drop]; omega
    · simp only [Content.size, List.length_take, List.length_drop]; omega
    · simp only [Content.middle, Content.seal, List.append_nil]
      rw [hl] at hr
      rw [← hr, List.take_append_drop, List.take_append_drop]
  · -- link
    rw [if_pos (by rw [e]; decide), if_neg (by simp; omega), if_neg (by rw [e]; decide)] at hfx
    split at hfx
    · cases hfx
    cases hfx
    simp only [] at hc
    have hs : hasSig ty = false := by rw [e]; decide
    have hlhe : LinkHead.ofBytes ((pt.drop 4).take 60) = LinkHead.ofBytes (slice pt 4 64) := rfl
    rw [hlhe] at hc
    generalize hlh : LinkHead.ofBytes (slice pt 4 64) = lh at hc
    simp only [hs, hn, hty, Bool.false_eq_true, if_false] at hc
    split at hc
    · rename_i x; split at x <;> first | cases x | skip
      all_goals cases hc
    rename_i pad hpad
    split at hpad
    · cases hpad
    split at hpad
    · cases hpad
    split at hpad
    · cases hpad
    split at hpad
    · cases hpad
    split at hpad
    · cases hpad
    rename_i t htl
    split at hpad
    · cases hpad
    rename_i hrs
    cases hpad
    split at hc
    · cases hc
    split at hc
    · cases hc
    rename_i _ hall
    simp only [Bool.not_eq_true', Bool.not_eq_false] at hall
    have htr : t.rspace = slice pt lh.offRspace lh.offData := by
      rw [uncheckedTail_rspace htl, hlh]
    rw [htr] at hrs
    obtain ⟨c, hsz, hcl, hhd, hlay, _, _, _⟩ := link_of_slices (n := n) hlh.symm (by omega) (by omega) (by omega)
      (by omega) (by omega) hrs
    refine key (.link c) e.symm hcl ⟨by simp only [Content.size]; omega, hsz⟩ ?_
    simp only [Content.middle, Content.seal, List.append_nil, hlay]
    have hr := eq_replicate_of_all hall
    have hpadslice : (((pt.drop 4).drop 60).drop (((pt.drop 4).drop 60).length - k)) = slice pt n (n+k) := by
      rw [List.drop_drop, List.drop_drop, drop_eq_slice pt hlen']
      congr 1; simp; omega
    rw [hpadslice, slice_length _ (by omega), show n + k - n = k by omega] at hr
    rw [← hr, slice_append pt (by omega) (by omega), ← drop_eq_slice pt hlen', List.take_append_drop]
  · -- key
    rw [if_pos (by rw [e]; decide), if_neg (by simp; omega), if_pos (by rw [e]; decide),
      if_neg (by simp; omega)] at hfx
    split at hfx
    · cases hfx
    cases hfx
    simp only [] at hc
    have hs : hasSig ty = true := by rw [e]; decide
    have hlhe : LinkHead.ofBytes ((pt.drop 4).take 60) = LinkHead.ofBytes (slice pt 4 64) := rfl
    rw [hlhe] at hc
    generalize hlh : LinkHead.ofBytes (slice pt 4 64) = lh at hc
    simp only [hs, hn, hty, if_true] at hc
    split at hc
    · rename_i x; split at x <;> first | cases x | skip
      all_goals cases hc
    rename_i pad hpad
    split at hpad
    · cases hpad
    split at hpad
    · cases hpad
    split at hpad
    · cases hpad
    split at hpad
    · cases hpad
    split at hpad
    · cases hpad
    rename_i t htl
    split at hpad
    · cases hpad
    rename_i hrs
    cases hpad
    split at hc
    · cases hc
    split at hc
    · cases hc
    rename_i _ hall
    simp only [Bool.not_eq_true', Bool.not_eq_false] at hall
    have htr : t.rspace = slice pt lh.offRspace lh.offData := by
      rw [uncheckedTail_rspace htl, hlh]
    rw [htr] at hrs
    obtain ⟨c, hsz, hcl, hhd, hlay, _, _, _⟩ := link_of_slices (n := n - 96) hlh.symm (by omega) (by omega) (by omega)
      (by omega) (by omega) hrs
    have hd1 : (slice pt (n + k - 96) (n + k)).length = 96 := by rw [slice_length _ (by omega)]; omega
    refine key (.key c ((slice pt (n + k - 96) (n + k)).take 32) ((slice pt (n + k - 96) (n + k)).drop 32)) e.symm
      (by simp only [Content.size]; omega)
      ⟨by simp only [Content.size]; omega, hsz, by rw [List.length_take]; omega, by rw [List.length_drop]; omega⟩ ?_
    simp only [Content.middle, Content.seal, hlay, List.take_append_drop]
    have hr := eq_replicate_of_all hall
    have h64 : ((pt.drop 4).drop 60).length = n + k - 64 := by simp; omega
    have hpadslice : ((((pt.drop 4).drop 60).take (((pt.drop 4).drop 60).length - 96)).drop
        ((((pt.drop 4).drop 60).take (((pt.drop 4).drop 60).length - 96)).length - k)) = slice pt (n - 96) (n + k - 96) := by
      rw [List.length_take, h64, List.drop_take, List.drop_drop, List.drop_drop]
      simp only [slice]
      have e1 : 4 + (60 + (min (n + k - 64 - 96) (n + k - 64) - k)) = n - 96 := by omega
      have e2 : n + k - 64 - 96 - (min (n + k - 64 - 96) (n + k - 64) - k) = n + k - 96 - (n - 96) := by omega
      rw [e1, e2]
    rw [hpadslice, slice_length _ (by omega), show n + k - 96 - (n - 96) = k by omega] at hr
    rw [← hr, slice_append pt (by omega) (by omega), slice_append pt (by omega) (by omega),
      ← drop_eq_slice pt hlen', List.take_append_drop]

end Verif.Pkt
