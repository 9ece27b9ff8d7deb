import Verif.Model.Handshake
import Verif.Spec.Handshake
import Verif.Lemmas.Packet2
import Verif.Props.Packet
/-!
# C49 the handshake, C50 pairwise groups
-/
namespace Verif.Props
open Verif Verif.Pkt Verif.Spec Verif.Shake

/-! ## C50 -/

theorem xor32_length {a b : Bytes} (ha : a.length = 32) (hb : b.length = 32) : (xor32 a b).length = 32 := by
  rw [xor32, List.length_zipWith, ha, hb]; rfl

theorem unicast_symmetric (a b : Bytes) : unicastGroup a b = unicastGroup b a := by
  show List.zipWith _ a b = List.zipWith _ b a
  rw [List.zipWith_comm]
  congr 1
  funext x y
  exact UInt8.xor_comm _ _

/-- What the group is: byte for byte the exclusive or of the keys. -/
theorem unicast_is_pair {a b : Bytes} (ha : a.length = 32) (hb : b.length = 32) (g : Bytes) : IsPair g a b ↔ g = unicastGroup a b := by
  constructor
  · rintro ⟨hl, h⟩
    apply List.ext_getElem?
    intro i
    unfold unicastGroup xor32
    rw [List.getElem?_zipWith]
    by_cases hi : i < 32
    · have h1 : a[i]? = some a[i] := List.getElem?_eq_getElem (by omega)
      have h2 : b[i]? = some b[i] := List.getElem?_eq_getElem (by omega)
      rw [h i _ _ h1 h2, h1, h2]
    · rw [List.getElem?_eq_none (by omega), List.getElem?_eq_none (l := a) (by omega)]
  · rintro rfl
    refine ⟨xor32_length ha hb, fun i x y hx hy => ?_⟩
    unfold unicastGroup xor32
    rw [List.getElem?_zipWith, hx, hy]

theorem xor_cancel : ∀ (a b : Bytes), a.length = b.length → xor32 a (xor32 a b) = b
  | [], [], _ => rfl
  | x :: a, y :: b, h => by
    have ih := xor_cancel a b (by simpa using h)
    unfold xor32 at ih ⊢
    rw [List.zipWith_cons_cons, List.zipWith_cons_cons, ih, ← UInt8.xor_assoc, UInt8.xor_self, UInt8.zero_xor]

theorem xor_self (a : Bytes) : xor32 a a = List.replicate a.length 0 := by
  induction a with
  | nil => rfl
  | cons x a ih =>
    unfold xor32 at ih ⊢
    rw [List.zipWith_cons_cons, ih, UInt8.xor_self]; rfl

/-- **C50**: for a fixed own key, different peers give different groups. -/
theorem unicast_injective {a b c : Bytes} (hb : a.length = b.length) (hc : a.length = c.length) (h : unicastGroup a b = unicastGroup a c) :
    b = c := by
  have h1 := xor_cancel a b hb
  have h2 := xor_cancel a c hc
  unfold unicastGroup at h
  rw [← h1, h, h2]

/-- **C50**: the group is the private group exactly for a key with itself. -/
theorem unicast_private_iff {a b : Bytes} (ha : a.length = 32) (hb : b.length = 32) : unicastGroup a b = List.replicate 32 0 ↔ a = b := by
  have hs : unicastGroup a a = List.replicate 32 0 := by rw [unicastGroup, xor_self, ha]
  constructor
  · intro h
    exact unicast_injective (by rw [ha]) (by rw [ha, hb]) (hs.trans h.symm)
  · rintro rfl; exact hs

/-! ## C49 -/

theorem near_iff (now t : Nat) (m : Option Nat) : validStampRange now t m = .ok () ↔ Near (m.getD 15) now t := by
  unfold validStampRange Stamp.stampAge Stamp.asDuration Near maxDiffSeconds
  generalize m.getD 15 = s
  by_cases h : now < t
  · rw [if_pos h]
    simp only
    by_cases h2 : (t - now) * 1000 < s * 1000000000
    · rw [if_pos h2]; simp only [true_iff]; omega
    · rw [if_neg h2]; constructor
      · nofun
      · omega
  · rw [if_neg h]
    simp only
    by_cases h2 : (now - t) * 1000 < s * 1000000000
    · rw [if_pos h2]; simp only [true_iff]; omega
    · rw [if_neg h2]; constructor
      · nofun
      · omega

theorem near_error {now t : Nat} {m : Option Nat} (h : ¬ Near (m.getD 15) now t) : validStampRange now t m = .error (.err ()) := by
  rw [← near_iff] at h
  unfold validStampRange at h ⊢
  generalize Stamp.stampAge now t = a at *
  cases a with
  | ok d => simp only at h ⊢; split <;> simp_all
  | error d => simp only at h ⊢; split <;> simp_all

/-- The content of a message. -/
def msg (C : Crypto) (g : Bytes) (links : List Link) (t : Nat) (k : C.Key) : Content :=
  contentOf C ⟨g, handshakeD, t, links, sentinal, []⟩ (some k)

theorem keypoint_msg {C : Crypto} (L : C.Laws) (nh g : Bytes) (links : List Link) (t : Nat) (k : C.Key) (hg : g.length = 32) (ht : t < 2 ^ 64)
    (hl : LinksSized links) (hn : links.length ≤ 1) :
    keypoint C nh g handshakeD sentinal links [] t k = .ok ⟨nh, C.hash (msg C g links t k).layout, (msg C g links t k).parts⟩ ∧
      (msg C g links t k).Valid ∧ (msg C g links t k).Sealed C := by
  have hs : LinkContent.Sized ⟨g, handshakeD, t, links, sentinal, []⟩ := ⟨hg, show handshakeD.length = 16 by decide, ht, hl, show Rooted.checkComponents sentinal = .ok () by decide⟩
  have hsize : (contentOf C ⟨g, handshakeD, t, links, sentinal, []⟩ (some k)).size ≤ 65024 := by
    show LinkContent.len _ + 96 ≤ 65024
    unfold LinkContent.len
    simp only
    have : sentinal.length = 17 := by decide
    rw [this, List.length_nil]; omega
  have h := tryPoint_eq (C := C) hs (some k) nh
  rw [if_pos hsize] at h
  simp only [tryPoint] at h
  refine ⟨by rw [keypoint, h]; rfl, ⟨hsize, hs, L.pub_len _, L.sign_len _ _⟩, L.verify_sign _ _⟩

theorem one_sized {t h : Bytes} (ht : t.length = 16) (hh : h.length = 32) : LinksSized [⟨t, h⟩] := by
  intro l hl
  rw [List.mem_singleton] at hl
  rw [hl]
  exact ⟨ht, hh⟩

theorem key_of {C : Crypto} {p : NetParts} {c : Content} (h : WellMade C p c) {k : Bytes} (hk : pubkey? p = some k) :
    ∃ lc sig, c = .key lc k sig ∧ p.getLinks = lc.links ∧ domain? p = some lc.domain ∧ group? p = some lc.group ∧ getRspace p = lc.rspace ∧
      p.getCreate = lc.stamp := by
  have hp := h.parts
  cases c with
  | key lc pk sig =>
    refine ⟨lc, sig, ?_, ?_, ?_, ?_, ?_, ?_⟩
    · have : pk = k := by unfold pubkey? at hk; rw [hp] at hk; exact Option.some.inj hk
      rw [this]
    · rw [NetParts.getLinks, hp]; rfl
    · rw [domain?, hp]; rfl
    · rw [group?, hp]; rfl
    · rw [getRspace, hp]; rfl
    · rw [NetParts.getCreate, hp]; rfl
  | data b => unfold pubkey? at hk; rw [hp] at hk; cases hk
  | error b => unfold pubkey? at hk; rw [hp] at hk; cases hk
  | link b => unfold pubkey? at hk; rw [hp] at hk; cases hk

theorem names_iff {C : Crypto} (L : C.Laws) {lc : LinkContent} {k : Bytes} (hk : k.length = 32) (id : C.Key) (h : Bytes) : Names lc (C.pubkey id) k h ↔
    lc.links.any (fun l => l.ptr == h) = true ∧ lc.domain = handshakeD ∧ lc.group = unicastGroup (C.pubkey id) k ∧ lc.rspace = sentinal := by
  rw [List.any_eq_true, ← unicast_is_pair (L.pub_len id) hk]
  constructor
  · rintro ⟨h1, h2, h3, l, hl, h4⟩
    exact ⟨⟨l, hl, by rw [h4]; exact beq_self_eq_true _⟩, h1, h3, h2⟩
  · rintro ⟨⟨l, hl, h4⟩, h1, h3, h2⟩
    exact ⟨h1, h2, h3, l, hl, eq_of_beq h4⟩

/-- **C49**, what the server requires of the first message: only that it is signed by another key, recent and went over the wire.  It
answers with a message that names it. -/
theorem server_reply_iff {C : Crypto} (L : C.Laws) {p : NetParts} {c : Content} (hp : WellMade C p c) (nh : Bytes) (seen now : Nat) (hnow : now < 2 ^ 64)
    (id : C.Key) (m : Option Nat) (r : NetParts) : phase1 C nh seen now p id m = .ok r ↔
      ∃ lc k sig, 0 < hopOf p ∧ c = .key lc k sig ∧ Near (m.getD 15) seen lc.stamp ∧ k ≠ C.pubkey id ∧
        r = ⟨nh, C.hash (msg C (unicastGroup k (C.pubkey id)) [⟨authTag, p.hash⟩] now id).layout,
          (msg C (unicastGroup k (C.pubkey id)) [⟨authTag, p.hash⟩] now id).parts⟩ := by
  have hlen : p.hash.length = 32 := by rw [hp.hash]; exact L.hash_len _
  unfold phase1
  by_cases hh : hopOf p > 0
  · rw [if_neg (fun h => h hh)]
    cases hk : pubkey? p with
    | none =>
      simp only
      constructor
      · nofun
      · rintro ⟨lc, k, sig, _, hc, _⟩
        unfold pubkey? at hk
        rw [hp.parts, hc] at hk
        cases hk
    | some k =>
      obtain ⟨lc, sig, rfl, _, _, _, _, hst⟩ := key_of hp hk
      have hkl : k.length = 32 := hp.valid.2.2.1
      simp only
      by_cases hn : Near (m.getD 15) seen lc.stamp
      · rw [hst, (near_iff _ _ _).2 hn]
        simp only
        by_cases hg : unicastGroup k (C.pubkey id) = privateGroup
        · rw [if_pos hg]
          constructor
          · nofun
          · rintro ⟨_, _, _, _, h1, _, h2, _⟩
            injection h1 with _ h1
            exact absurd ((unicast_private_iff hkl (L.pub_len _)).1 hg) (by rw [h1]; exact h2)
        · rw [if_neg hg, (keypoint_msg L nh (unicastGroup _ _) _ now id (xor32_length hkl (L.pub_len _)) hnow
            (one_sized (by decide) hlen) (by simp)).1]
          have hne : k ≠ C.pubkey id := fun h => hg ((unicast_private_iff hkl (L.pub_len _)).2 h)
          constructor
          · intro h; injection h with h
            exact ⟨lc, k, sig, hh, rfl, hn, hne, h.symm⟩
          · rintro ⟨lc', k', sig', _, h1, _, _, h2⟩
            injection h1 with _ h1
            rw [h2, h1]
      · rw [hst, near_error hn]
        simp only
        constructor
        · nofun
        · rintro ⟨lc', k', sig', _, h1, h2, _⟩
          injection h1 with h1
          rw [h1] at hn
          exact absurd h2 hn
  · rw [if_pos hh]
    constructor
    · nofun
    · rintro ⟨_, _, _, h, _⟩; exact absurd h hh

/-- **C49**, what the client requires of the answer: a recent message between the two keys, signed by the key it then learns, that
names the point the client made itself.  For every packet, whoever made it. -/
theorem client_accepts_iff {C : Crypto} (L : C.Laws) {mine p : NetParts} {c : Content} (hp : WellMade C p c) (nh : Bytes) (seen now : Nat)
    (hnow : now < 2 ^ 64) (id : C.Key) (m : Option Nat) (key : Bytes) (r : NetParts) : phase2 C nh seen now mine p id m = .ok (r, key) ↔
      ∃ lc sig, pubkey? mine = some (C.pubkey id) ∧ 0 < hopOf p ∧ c = .key lc key sig ∧ Near (m.getD 15) seen lc.stamp ∧
        Names lc (C.pubkey id) key mine.hash ∧
        r = ⟨nh, C.hash (msg C (unicastGroup (C.pubkey id) key) [⟨signedTag, p.hash⟩] now id).layout,
          (msg C (unicastGroup (C.pubkey id) key) [⟨signedTag, p.hash⟩] now id).parts⟩ := by
  have hlen : p.hash.length = 32 := by rw [hp.hash]; exact L.hash_len _
  unfold phase2
  by_cases hm : pubkey? mine = some (C.pubkey id)
  · rw [if_neg (by simpa using hm)]
    by_cases hh : hopOf p > 0
    · rw [if_neg (fun h => h hh)]
      cases hk : pubkey? p with
      | none =>
        simp only
        constructor
        · nofun
        · rintro ⟨lc, sig, _, _, hc, _⟩
          unfold pubkey? at hk
          rw [hp.parts, hc] at hk
          cases hk
      | some k =>
        obtain ⟨lc, sig, rfl, hl, hd, hg, hs, hst⟩ := key_of hp hk
        have hkl : k.length = 32 := hp.valid.2.2.1
        have hnames := names_iff L (lc := lc) hkl id mine.hash
        simp only
        by_cases hn : Near (m.getD 15) seen lc.stamp
        · rw [hst, (near_iff _ _ _).2 hn, hl, hd, hg, hs]
          simp only
          by_cases hN : Names lc (C.pubkey id) k mine.hash
          · obtain ⟨h1, h2, h3, h4⟩ := hnames.1 hN
            rw [if_neg (by rw [h1]; decide), if_neg (by rw [h2]; simp), if_neg (by rw [h3]; simp), if_neg (by rw [h4]; simp),
              (keypoint_msg L nh (unicastGroup _ _) _ now id (xor32_length (L.pub_len _) hkl) hnow
                (one_sized (by decide) hlen) (by simp)).1]
            constructor
            · intro h
              injection h with h
              injection h with h5 h6
              subst h6
              exact ⟨lc, sig, hm, hh, rfl, hn, hN, h5.symm⟩
            · rintro ⟨lc', sig', _, _, h1, _, _, h2⟩
              injection h1 with _ h1
              rw [h2, h1]
          · have hno : ¬ ∃ lc' sig', pubkey? mine = some (C.pubkey id) ∧ 0 < hopOf p ∧ Content.key lc k sig = .key lc' key sig' ∧
                Near (m.getD 15) seen lc'.stamp ∧ Names lc' (C.pubkey id) key mine.hash ∧
                r = ⟨nh, C.hash (msg C (unicastGroup (C.pubkey id) key) [⟨signedTag, p.hash⟩] now id).layout,
                  (msg C (unicastGroup (C.pubkey id) key) [⟨signedTag, p.hash⟩] now id).parts⟩ := by
              rintro ⟨lc', sig', _, _, h1, _, h2, _⟩
              injection h1 with h3 h4
              rw [h3, h4] at hN
              exact hN h2
            rw [hnames] at hN
            constructor
            · intro h
              split at h
              · cases h
              · rename_i h1
                split at h
                · cases h
                · rename_i h2
                  split at h
                  · cases h
                  · rename_i h3
                    split at h
                    · cases h
                    · rename_i h4
                      simp only [Bool.not_eq_true', Bool.not_eq_false, ne_eq, Classical.not_not, Option.some.injEq] at h1 h2 h3 h4
                      exact absurd ⟨h1, h2, h3, h4⟩ hN
            · intro h; exact absurd h hno
        · rw [hst, near_error hn]
          simp only
          constructor
          · nofun
          · rintro ⟨lc', sig', _, _, h1, h2, _⟩
            injection h1 with h1
            rw [h1] at hn
            exact absurd h2 hn
    · rw [if_pos hh]
      constructor
      · nofun
      · rintro ⟨_, _, _, h, _⟩; exact absurd h hh
  · rw [if_pos hm]
    constructor
    · nofun
    · rintro ⟨_, _, h, _⟩; exact absurd h hm

/-- **C49**, what the server requires of the last message: a message between the two keys, signed by the key of the first message, that
names the point the server made itself.  For every packet, whoever made it. -/
theorem server_accepts_iff {C : Crypto} (L : C.Laws) {init mine p : NetParts} {c : Content} (hp : WellMade C p c) (id : C.Key) (key : Bytes) :
    phase3 C init mine p id = .ok key ↔
      ∃ lc sig, pubkey? mine = some (C.pubkey id) ∧ c = .key lc key sig ∧ pubkey? init = some key ∧ Names lc (C.pubkey id) key mine.hash := by
  unfold phase3
  by_cases hm : pubkey? mine = some (C.pubkey id)
  · rw [if_neg (by simpa using hm)]
    cases hk : pubkey? p with
    | none =>
      simp only
      constructor
      · nofun
      · rintro ⟨lc, sig, _, hc, _⟩
        unfold pubkey? at hk
        rw [hp.parts, hc] at hk
        cases hk
    | some k =>
      obtain ⟨lc, sig, rfl, hl, hd, hg, hs, hst⟩ := key_of hp hk
      have hkl : k.length = 32 := hp.valid.2.2.1
      have hnames := names_iff L (lc := lc) hkl id mine.hash
      simp only
      by_cases hi : pubkey? init = some k
      · rw [if_neg (by rw [hi]; simp), hl, hd, hg, hs]
        by_cases hN : Names lc (C.pubkey id) k mine.hash
        · obtain ⟨h1, h2, h3, h4⟩ := hnames.1 hN
          rw [if_neg (by rw [h1]; decide), if_neg (by rw [h4]; simp), if_neg (by rw [h2]; simp), if_neg (by rw [h3]; simp)]
          constructor
          · intro h
            injection h with h
            subst h
            exact ⟨lc, sig, hm, rfl, hi, hN⟩
          · rintro ⟨lc', sig', _, h1, _⟩
            injection h1 with _ h1
            rw [h1]
        · have hno : ¬ ∃ lc' sig', pubkey? mine = some (C.pubkey id) ∧ Content.key lc k sig = .key lc' key sig' ∧ pubkey? init = some key ∧
              Names lc' (C.pubkey id) key mine.hash := by
            rintro ⟨lc', sig', _, h1, _, h2⟩
            injection h1 with h3 h4
            rw [h3, h4] at hN
            exact hN h2
          rw [hnames] at hN
          constructor
          · intro h
            split at h
            · cases h
            · rename_i h1
              split at h
              · cases h
              · rename_i h2
                split at h
                · cases h
                · rename_i h3
                  split at h
                  · cases h
                  · rename_i h4
                    simp only [Bool.not_eq_true', Bool.not_eq_false, ne_eq, Classical.not_not, Option.some.injEq] at h1 h2 h3 h4
                    exact absurd ⟨h1, h3, h4, h2⟩ hN
          · intro h; exact absurd h hno
      · rw [if_pos (fun h => hi h.symm)]
        constructor
        · nofun
        · rintro ⟨lc', sig', _, h1, h2, _⟩
          injection h1 with _ h1
          rw [h1] at hi
          exact absurd h2 hi
  · rw [if_pos hm]
    constructor
    · nofun
    · rintro ⟨_, _, h, _⟩; exact absurd h hm

theorem hop_received (p : NetParts) (h : 8 ≤ p.netHeader.length) : 0 < hopOf (received p) := by
  unfold hopOf received hopHeader
  simp only
  have h1 : ((p.netHeader.take 3 ++ [p.netHeader.getD 3 0 &&& 0x7f] ++ beBytes 4 (min (beNat ((p.netHeader.drop 4).take 4) + 1) (2 ^ 32 - 1)) ++
      p.netHeader.drop 8).drop 4).take 4 = beBytes 4 (min (beNat ((p.netHeader.drop 4).take 4) + 1) (2 ^ 32 - 1)) := by
    rw [List.append_assoc, List.drop_left' (by rw [List.length_append, List.length_take]; simp; omega), List.take_left' (beBytes_length _ _)]
  rw [h1, beNat_beBytes 4 _ (by omega)]
  omega

theorem received_packet {C : Crypto} {p : NetParts} {c : Content} (h : WellMade C p c) : WellMade C (received p) c := ⟨h.valid, h.sig, h.hash, h.parts⟩

theorem msg_packet {C : Crypto} (L : C.Laws) (nh g : Bytes) (links : List Link) (t : Nat) (k : C.Key) (hg : g.length = 32) (ht : t < 2 ^ 64)
    (hl : LinksSized links) (hn : links.length ≤ 1) : WellMade C ⟨nh, C.hash (msg C g links t k).layout, (msg C g links t k).parts⟩ (msg C g links t k) :=
  have h := keypoint_msg L nh g links t k hg ht hl hn
  ⟨h.2.1, h.2.2, rfl, rfl⟩

theorem names_reply {C : Crypto} (L : C.Laws) {k : Bytes} (hk : k.length = 32) (id : C.Key) (t : Nat) (tag h g : Bytes)
    (hg : g = unicastGroup (C.pubkey id) k) : Names ⟨g, handshakeD, t, [⟨tag, h⟩], sentinal, []⟩ (C.pubkey id) k h := by
  rw [names_iff L hk]
  exact ⟨by simp, rfl, hg, rfl⟩

/-- **C49**: two parties with different keys that follow the protocol, with clocks that are near enough whenever a stamp is checked,
complete the handshake and learn each other's key. -/
theorem handshake_completes {C : Crypto} (L : C.Laws) (a b : C.Key) (hab : C.pubkey a ≠ C.pubkey b) (na nb : Bytes) (hna : 8 ≤ na.length) (hnb : 8 ≤ nb.length)
    (ma mb : Option Nat) {t0 s1 t1 s2 t2 : Nat} (h0 : t0 < 2 ^ 64) (h1 : t1 < 2 ^ 64) (h2 : t2 < 2 ^ 64) (n1 : Near (mb.getD 15) s1 t0)
    (n2 : Near (ma.getD 15) s2 t1) : ∃ p0 p1 p2, phase0 C na t0 a = .ok p0 ∧ phase1 C nb s1 t1 (received p0) b mb = .ok p1 ∧
      phase2 C na s2 t2 p0 (received p1) a ma = .ok (p2, C.pubkey b) ∧ phase3 C (received p0) p1 (received p2) b = .ok (C.pubkey a) := by
  have hnil : LinksSized [] := nofun
  have e0 := (keypoint_msg L na (C.pubkey a) [] t0 a (L.pub_len a) h0 hnil (by simp)).1
  have i0 := msg_packet L na (C.pubkey a) [] t0 a (L.pub_len a) h0 hnil (by simp)
  generalize hc0 : msg C (C.pubkey a) [] t0 a = c0 at e0 i0
  generalize hp0 : NetParts.mk na (C.hash c0.layout) c0.parts = p0 at e0 i0
  have hk0 : pubkey? p0 = some (C.pubkey a) := by rw [← hp0, ← hc0]; rfl
  have hl0 : p0.hash.length = 32 := by rw [i0.hash]; exact L.hash_len _
  have hg1 : (unicastGroup (C.pubkey a) (C.pubkey b)).length = 32 := xor32_length (L.pub_len _) (L.pub_len _)
  have e1 := (server_reply_iff L (received_packet i0) nb s1 t1 h1 b mb _).2
    ⟨_, _, _, hop_received p0 (by rw [← hp0]; exact hna), hc0.symm, n1, hab, rfl⟩
  have i1 := msg_packet L nb (unicastGroup (C.pubkey a) (C.pubkey b)) [⟨authTag, p0.hash⟩] t1 b hg1 h1 (one_sized (by decide) hl0) (by simp)
  change phase1 C nb s1 t1 (received p0) b mb = .ok ⟨nb, C.hash (msg C (unicastGroup (C.pubkey a) (C.pubkey b)) [⟨authTag, p0.hash⟩] t1 b).layout,
    (msg C (unicastGroup (C.pubkey a) (C.pubkey b)) [⟨authTag, p0.hash⟩] t1 b).parts⟩ at e1
  generalize hc1 : msg C (unicastGroup (C.pubkey a) (C.pubkey b)) [⟨authTag, p0.hash⟩] t1 b = c1 at e1 i1
  generalize hp1 : NetParts.mk nb (C.hash c1.layout) c1.parts = p1 at e1 i1
  have hk1 : pubkey? p1 = some (C.pubkey b) := by rw [← hp1, ← hc1]; rfl
  have hl1 : p1.hash.length = 32 := by rw [i1.hash]; exact L.hash_len _
  have e2 := (client_accepts_iff L (mine := p0) (received_packet i1) na s2 t2 h2 a ma (C.pubkey b) _).2
    ⟨_, _, hk0, hop_received p1 (by rw [← hp1]; exact hnb), hc1.symm, n2, names_reply L (L.pub_len b) a t1 _ _ _ rfl, rfl⟩
  have i2 := msg_packet L na (unicastGroup (C.pubkey a) (C.pubkey b)) [⟨signedTag, p1.hash⟩] t2 a hg1 h2 (one_sized (by decide) hl1) (by simp)
  change phase2 C na s2 t2 p0 (received p1) a ma = .ok (⟨na, C.hash (msg C (unicastGroup (C.pubkey a) (C.pubkey b)) [⟨signedTag, p1.hash⟩] t2 a).layout,
    (msg C (unicastGroup (C.pubkey a) (C.pubkey b)) [⟨signedTag, p1.hash⟩] t2 a).parts⟩, _) at e2
  generalize hc2 : msg C (unicastGroup (C.pubkey a) (C.pubkey b)) [⟨signedTag, p1.hash⟩] t2 a = c2 at e2 i2
  generalize hp2 : NetParts.mk na (C.hash c2.layout) c2.parts = p2 at e2 i2
  have e3 := (server_accepts_iff L (init := received p0) (mine := p1) (received_packet i2) b (C.pubkey a)).2
    ⟨_, _, hk1, hc2.symm, hk0, names_reply L (L.pub_len a) b t2 _ _ _ (unicast_symmetric _ _)⟩
  exact ⟨p0, p1, p2, e0, e1, e2, e3⟩

/-- **C49**, replays towards a client: an answer that a server made for some first message is accepted only by the client that sent it,
or the hash function has collided. -/
theorem client_rejects_replay_partial {C : Crypto} (L : C.Laws) {mine q : NetParts} {cm cq : Content} (hm : WellMade C mine cm) (hq : WellMade C q cq)
    {nb na : Bytes} {s1 t1 s2 t2 : Nat} (h1 : t1 < 2 ^ 64) (h2 : t2 < 2 ^ 64) {a b : C.Key} {ma mb : Option Nat} {p1 p2 : NetParts} {key : Bytes}
    (e1 : phase1 C nb s1 t1 q b mb = .ok p1) (e2 : phase2 C na s2 t2 mine (received p1) a ma = .ok (p2, key)) :
    key = C.pubkey b ∧ (cq = cm ∨ (cq.layout ≠ cm.layout ∧ C.hash cq.layout = C.hash cm.layout)) := by
  obtain ⟨lc, k, sig, _, hc, _, _, hr⟩ := (server_reply_iff L hq nb s1 t1 h1 b mb p1).1 e1
  have hkl : k.length = 32 := by have := hq.valid; rw [hc] at this; exact this.2.2.1
  have hql : q.hash.length = 32 := by rw [hq.hash]; exact L.hash_len _
  have i1 := msg_packet L nb (unicastGroup k (C.pubkey b)) [⟨authTag, q.hash⟩] t1 b (xor32_length hkl (L.pub_len _)) h1 (one_sized (by decide) hql) (by simp)
  rw [← hr] at i1
  obtain ⟨lc2, sig2, _, _, hc2, _, hN, _⟩ := (client_accepts_iff L (received_packet i1) na s2 t2 h2 a ma key p2).1 e2
  unfold msg contentOf at hc2
  injection hc2 with h3 h4
  refine ⟨h4.symm, ?_⟩
  obtain ⟨l, hl, hp⟩ := hN.link
  rw [← h3] at hl
  rw [List.mem_singleton] at hl
  rw [hl] at hp
  simp only at hp
  rw [hq.hash, hm.hash] at hp
  by_cases he : cq.layout = cm.layout
  · exact .inl (layout_injective hq.valid hm.valid he)
  · exact .inr ⟨he, hp⟩

/-- **C49**, replays towards a server: a last message that a client made in answer to some server is accepted only by the server that
sent this answer, or the hash function has collided. -/
theorem server_rejects_replay_partial {C : Crypto} (L : C.Laws) {init mine q p0 : NetParts} {cm cq : Content} (hm : WellMade C mine cm) (hq : WellMade C q cq)
    {na : Bytes} {s2 t2 : Nat} (h2 : t2 < 2 ^ 64) {a b : C.Key} {ma : Option Nat} {p2 : NetParts} {key key' : Bytes}
    (e2 : phase2 C na s2 t2 p0 q a ma = .ok (p2, key)) (e3 : phase3 C init mine (received p2) b = .ok key') :
    key' = C.pubkey a ∧ (cq = cm ∨ (cq.layout ≠ cm.layout ∧ C.hash cq.layout = C.hash cm.layout)) := by
  obtain ⟨lc, sig, _, _, hc, _, _, hr⟩ := (client_accepts_iff L hq na s2 t2 h2 a ma key p2).1 e2
  have hkl : key.length = 32 := by have := hq.valid; rw [hc] at this; exact this.2.2.1
  have hql : q.hash.length = 32 := by rw [hq.hash]; exact L.hash_len _
  have i1 := msg_packet L na (unicastGroup (C.pubkey a) key) [⟨signedTag, q.hash⟩] t2 a (xor32_length (L.pub_len _) hkl) h2 (one_sized (by decide) hql) (by simp)
  rw [← hr] at i1
  obtain ⟨lc2, sig2, _, hc2, _, hN⟩ := (server_accepts_iff L (received_packet i1) b key').1 e3
  unfold msg contentOf at hc2
  injection hc2 with h3 h4
  refine ⟨h4.symm, ?_⟩
  obtain ⟨l, hl, hp⟩ := hN.link
  rw [← h3] at hl
  rw [List.mem_singleton] at hl
  rw [hl] at hp
  simp only at hp
  rw [hq.hash, hm.hash] at hp
  by_cases he : cq.layout = cm.layout
  · exact .inl (layout_injective hq.valid hm.valid he)
  · exact .inr ⟨he, hp⟩

/-- **C49** is false: the answer of one server is a valid last message for another.  From any recent packet `x` signed by `b` - of any
domain, group and space - one obtains the answer of the server `a`, hands it to the server `b` as a first message, and `a` accepts the
answer of `b` as the last message of a handshake that `b` never started.  The same again makes `b` accept `a`. -/
theorem servers_confused {C : Crypto} (L : C.Laws) (a b : C.Key) (hab : C.pubkey a ≠ C.pubkey b) (na nb : Bytes) (hna : 8 ≤ na.length) (hnb : 8 ≤ nb.length)
    (ma mb : Option Nat) {x : NetParts} {lc : LinkContent} {sig : Bytes} (hx : WellMade C x (.key lc (C.pubkey b) sig)) (hop : 0 < hopOf x)
    {s1 t1 s2 t2 s3 t3 : Nat} (h1 : t1 < 2 ^ 64) (h2 : t2 < 2 ^ 64) (h3 : t3 < 2 ^ 64)
    (n1 : Near (ma.getD 15) s1 lc.stamp) (n2 : Near (mb.getD 15) s2 t1) (n3 : Near (ma.getD 15) s3 t2) :
    ∃ p1 p2 p3, phase1 C na s1 t1 x a ma = .ok p1 ∧ phase1 C nb s2 t2 (received p1) b mb = .ok p2 ∧
      phase3 C x p1 (received p2) a = .ok (C.pubkey b) ∧
      phase1 C na s3 t3 (received p2) a ma = .ok p3 ∧ phase3 C (received p1) p2 (received p3) b = .ok (C.pubkey a) := by
  have hl0 : x.hash.length = 32 := by rw [hx.hash]; exact L.hash_len _
  have hg1 : ∀ j k : C.Key, (unicastGroup (C.pubkey j) (C.pubkey k)).length = 32 := fun _ _ => xor32_length (L.pub_len _) (L.pub_len _)
  have e1 := (server_reply_iff L hx na s1 t1 h1 a ma _).2 ⟨_, _, _, hop, rfl, n1, fun h => hab h.symm, rfl⟩
  have i1 := msg_packet L na _ [⟨authTag, x.hash⟩] t1 a (hg1 b a) h1 (one_sized (by decide) hl0) (by simp)
  generalize hc1 : msg C (unicastGroup (C.pubkey b) (C.pubkey a)) [⟨authTag, x.hash⟩] t1 a = c1 at e1 i1
  generalize hp1 : NetParts.mk na (C.hash c1.layout) c1.parts = p1 at e1 i1
  have hk1 : pubkey? p1 = some (C.pubkey a) := by rw [← hp1, ← hc1]; rfl
  have hl1 : p1.hash.length = 32 := by rw [i1.hash]; exact L.hash_len _
  have e2 := (server_reply_iff L (received_packet i1) nb s2 t2 h2 b mb _).2
    ⟨_, _, _, hop_received p1 (by rw [← hp1]; exact hna), hc1.symm, n2, hab, rfl⟩
  change phase1 C nb s2 t2 (received p1) b mb = .ok ⟨nb, C.hash (msg C (unicastGroup (C.pubkey a) (C.pubkey b)) [⟨authTag, p1.hash⟩] t2 b).layout,
    (msg C (unicastGroup (C.pubkey a) (C.pubkey b)) [⟨authTag, p1.hash⟩] t2 b).parts⟩ at e2
  have i2 := msg_packet L nb _ [⟨authTag, p1.hash⟩] t2 b (hg1 a b) h2 (one_sized (by decide) hl1) (by simp)
  generalize hc2 : msg C (unicastGroup (C.pubkey a) (C.pubkey b)) [⟨authTag, p1.hash⟩] t2 b = c2 at e2 i2
  generalize hp2 : NetParts.mk nb (C.hash c2.layout) c2.parts = p2 at e2 i2
  have hk2 : pubkey? p2 = some (C.pubkey b) := by rw [← hp2, ← hc2]; rfl
  have hl2 : p2.hash.length = 32 := by rw [i2.hash]; exact L.hash_len _
  have hkx : pubkey? x = some (C.pubkey b) := by unfold pubkey?; rw [hx.parts]; rfl
  have f1 := (server_accepts_iff L (init := x) (mine := p1) (received_packet i2) a (C.pubkey b)).2
    ⟨_, _, hk1, hc2.symm, hkx, names_reply L (L.pub_len b) a t2 _ _ _ rfl⟩
  have e3 := (server_reply_iff L (received_packet i2) na s3 t3 h3 a ma _).2
    ⟨_, _, _, hop_received p2 (by rw [← hp2]; exact hnb), hc2.symm, n3, fun h => hab h.symm, rfl⟩
  change phase1 C na s3 t3 (received p2) a ma = .ok ⟨na, C.hash (msg C (unicastGroup (C.pubkey b) (C.pubkey a)) [⟨authTag, p2.hash⟩] t3 a).layout,
    (msg C (unicastGroup (C.pubkey b) (C.pubkey a)) [⟨authTag, p2.hash⟩] t3 a).parts⟩ at e3
  have i3 := msg_packet L na _ [⟨authTag, p2.hash⟩] t3 a (hg1 b a) h3 (one_sized (by decide) hl2) (by simp)
  generalize hc3 : msg C (unicastGroup (C.pubkey b) (C.pubkey a)) [⟨authTag, p2.hash⟩] t3 a = c3 at e3 i3
  generalize hp3 : NetParts.mk na (C.hash c3.layout) c3.parts = p3 at e3 i3
  have f2 := (server_accepts_iff L (init := received p1) (mine := p2) (received_packet i3) b (C.pubkey a)).2
    ⟨_, _, hk2, hc3.symm, hk1, names_reply L (L.pub_len a) b t3 _ _ _ rfl⟩
  exact ⟨p1, p2, p3, e1, e2, f1, e3, f2⟩

/-- Two different toy keys, clocks five seconds apart. -/
example : ∃ p0 p1 p2, phase0 toyCrypto (List.replicate 32 0) 10000000 (1 : UInt8) = .ok p0 ∧
    phase1 toyCrypto (List.replicate 32 0) 15000000 15000001 (received p0) (2 : UInt8) none = .ok p1 ∧
    phase2 toyCrypto (List.replicate 32 0) 10500000 10500001 p0 (received p1) (1 : UInt8) (some 6) = .ok (p2, List.replicate 32 2) ∧
    phase3 toyCrypto (received p0) p1 (received p2) (2 : UInt8) = .ok (List.replicate 32 1) :=
  handshake_completes toyCrypto_laws (1 : UInt8) (2 : UInt8) (by decide) _ _ (by decide) (by decide) (some 6) none
    (by decide) (by decide) (by decide) (by unfold Near; decide) (by unfold Near; decide)

end Verif.Props
