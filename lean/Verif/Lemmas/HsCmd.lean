import Verif.Model.HsCmd
import Verif.Spec.HsCmd
import Verif.Props.Reads
import Verif.Props.Handshake
import Verif.Lemmas.Collect
/-!
Lemmas about the handshake program.
-/
namespace Verif.HsCmd
open Verif Verif.Pkt Verif.Spec Verif.Cmd Verif.Pred Verif.Multi Verif.Props Verif.Shake

/-- With more written. -/
def more (w : World) (l : List (Bytes × Bytes)) : World := { w with outs := w.outs ++ l }

theorem more_more (w : World) (a b : List (Bytes × Bytes)) : more (more w a) b = more w (a ++ b) := by
  simp [more, List.append_assoc]

theorem more_nil (w : World) : more w [] = w := by simp [more]

variable {C : Crypto}

theorem send_ok (dbg : Bool) (y : Sys) (o : Opts C) {W : Sent → List (Bytes × Bytes)} (hW : ∀ s, Lines o.write s (W s)) (hf : ¬ Forbids o.io) (s : Sent) (w : World) :
    send dbg y o s.parts w = (more w (passed o.io W s), .ok ()) := by
  unfold send
  rw [ofParts_sent]
  simp only [Left.get]
  rw [writeMulti_lines y (hW s) (fun _ => hf)]
  rfl

theorem need_cons (dbg : Bool) (y : Sys) (o : Opts C) {F : Sent → List (Bytes × Bytes)} (hF : ∀ s, Lines o.forward s (F s)) (hf : ¬ Forbids o.io) (s : Sent)
    (w : World) (qs : List NetPkt) (e : Option DecError) (k : World → Inp → NetParts → Left World) :
    need dbg y o w (net s :: qs, e) k = k (more w (passed o.io F s)) (qs, e) s.parts := by
  unfold need
  simp only [ofPkt_net, Left.get]
  rw [writeMulti_lines y (hF s) (fun _ => hf)]
  rfl

/-- Nothing is left to read. -/
def endOf (e : Option DecError) : Fault Unit := if e = some (.pkt .panic) then .panic else .err ()

theorem need_nil (dbg : Bool) (y : Sys) (o : Opts C) (w : World) (e : Option DecError) (k : World → Inp → NetParts → Left World) :
    need dbg y o w ([], e) k = (w, .error (endOf e)) := by
  unfold need endOf
  cases e with
  | none => rfl
  | some e =>
    cases e with
    | io => rfl
    | pkt e => cases e <;> rfl

theorem wellMade {s : Sent} (h : s.Genuine C) : WellMade C s.parts s.c := ⟨s.valid, h.1, h.2, rfl⟩

/-! ### the phases -/

theorem phase1_panic (nh : Bytes) (L : C.Laws) {p : NetParts} {c : Content} (hp : WellMade C p c) (seen now : Nat) (hnow : now < 2 ^ 64) (id : C.Key)
    (m : Option Nat) (hop : 0 < hopOf p) : phase1 C nh seen now p id m ≠ .error .panic := by
  have hlen : p.hash.length = 32 := by rw [hp.hash]; exact L.hash_len _
  unfold phase1
  rw [if_neg (fun h => h hop)]
  cases hk : pubkey? p with
  | none => nofun
  | some k =>
    obtain ⟨lc, sig, hc, _⟩ := key_of hp hk
    have hkl : k.length = 32 := by have := hp.valid; rw [hc] at this; exact this.2.2.1
    simp only
    by_cases hn : Near (m.getD 15) seen p.getCreate
    · rw [(near_iff _ _ _).2 hn]
      simp only
      split
      · nofun
      · rw [(keypoint_msg L nh (unicastGroup k (C.pubkey id)) [⟨authTag, p.hash⟩] now id (xor32_length hkl (L.pub_len _)) hnow (one_sized (by decide) hlen) (by simp)).1]
        nofun
    · rw [near_error hn]; nofun

theorem phase2_panic (nh : Bytes) (L : C.Laws) {mine p : NetParts} {c : Content} (hp : WellMade C p c) (seen now : Nat) (hnow : now < 2 ^ 64) (id : C.Key)
    (m : Option Nat) (hop : 0 < hopOf p) : phase2 C nh seen now mine p id m ≠ .error .panic := by
  have hlen : p.hash.length = 32 := by rw [hp.hash]; exact L.hash_len _
  unfold phase2
  split
  · nofun
  cases hk : pubkey? p with
  | none => nofun
  | some k =>
    obtain ⟨lc, sig, hc, _⟩ := key_of hp hk
    have hkl : k.length = 32 := by have := hp.valid; rw [hc] at this; exact this.2.2.1
    simp only
    by_cases hn : Near (m.getD 15) seen p.getCreate
    · rw [(near_iff _ _ _).2 hn]
      simp only
      split
      · nofun
      split
      · nofun
      split
      · nofun
      split
      · nofun
      rw [(keypoint_msg L nh (unicastGroup (C.pubkey id) k) [⟨signedTag, p.hash⟩] now id (xor32_length (L.pub_len _) hkl) hnow (one_sized (by decide) hlen) (by simp)).1]
      nofun
    · rw [near_error hn]; nofun

theorem phase3_panic {a b c : NetParts} {id : C.Key} : phase3 C a b c id ≠ .error .panic := by
  unfold phase3
  split
  · nofun
  split
  · nofun
  split
  · nofun
  simp only
  repeat' split
  all_goals nofun

/-- A message as a packet. -/
theorem message_sent (L : C.Laws) {nh : Bytes} (hn : nh.length = 32) {g : Bytes} {links : List Link} {t : Nat} (id : C.Key) (hg : g.length = 32) (ht : t < 2 ^ 64)
    (hl : LinksSized links) (h1 : links.length ≤ 1) : ∃ s : Sent, Message C id nh t g links s ∧ s.Genuine C ∧
      s.parts = ⟨nh, C.hash (msg C g links t id).layout, (msg C g links t id).parts⟩ := by
  obtain ⟨_, hv, hs⟩ := keypoint_msg L nh g links t id hg ht hl h1
  exact ⟨⟨nh, C.hash (msg C g links t id).layout, msg C g links t id, hn, L.hash_len _, hv⟩, ⟨rfl, rfl, rfl⟩, ⟨hs, rfl⟩, rfl⟩

theorem message_unique {id : C.Key} {nh : Bytes} {t : Nat} {g : Bytes} {links : List Link} {s s' : Sent} (h : Message C id nh t g links s)
    (h' : Message C id nh t g links s') : s = s' := by
  have e1 : s.nh = s'.nh := h.head.trans h'.head.symm
  have e2 : s.c = s'.c := h.content.trans h'.content.symm
  have e3 : s.hash = s'.hash := by rw [h.hash, h'.hash, e2]
  obtain ⟨a, b, c, _, _, _⟩ := s
  obtain ⟨a', b', c', _, _, _⟩ := s'
  cases e1; cases e2; cases e3
  rfl

theorem pubkey_sent {s : Sent} {k : Bytes} : pubkey? s.parts = some k ↔ SignedBy k s := by
  obtain ⟨nh, h, c, h1, h2, h3⟩ := s
  unfold SignedBy pubkey? Sent.parts
  simp only
  cases c with
  | data b => exact ⟨nofun, by rintro ⟨_, _, h⟩; cases h⟩
  | error b => exact ⟨nofun, by rintro ⟨_, _, h⟩; cases h⟩
  | link l => exact ⟨nofun, by rintro ⟨_, _, h⟩; cases h⟩
  | key l pk sig =>
    constructor
    · intro h; cases h; exact ⟨l, sig, rfl⟩
    · rintro ⟨_, _, h⟩; cases h; rfl

theorem key_len {s : Sent} {lc : LinkContent} {k sig : Bytes} (h : s.c = .key lc k sig) : k.length = 32 := by
  have := s.valid; rw [h] at this; exact this.2.2.1

theorem hop_arrive (s : Sent) : 0 < hopOf (arrive true s).parts := by
  have : (arrive true s).parts = Shake.received s.parts := rfl
  rw [this]
  exact hop_received _ (by show 8 ≤ s.nh.length; rw [s.nhLen]; omega)

theorem genuine_arrive {s : Sent} (h : s.Genuine C) (hop : Bool) : (arrive hop s).Genuine C := by cases hop <;> exact h

theorem answer_sent (L : C.Laws) {nh : Bytes} (hn : nh.length = 32) {t : Nat} (ht : t < 2 ^ 64) (id : C.Key) {tag k : Bytes} (htag : tag.length = 16) (hk : k.length = 32) (to : Sent) :
    ∃ s : Sent, Answer C id nh t tag k to s ∧ s.Genuine C ∧
      s.parts = ⟨nh, C.hash (msg C (unicastGroup (C.pubkey id) k) [⟨tag, to.hash⟩] t id).layout, (msg C (unicastGroup (C.pubkey id) k) [⟨tag, to.hash⟩] t id).parts⟩ := by
  obtain ⟨s, h1, h2, h3⟩ := message_sent L hn id (xor32_length (L.pub_len id) hk) ht (one_sized htag to.hashLen) (by simp)
  exact ⟨s, ⟨_, (unicast_is_pair (L.pub_len id) hk _).2 rfl, h1⟩, h2, h3⟩

theorem answer_unique (L : C.Laws) {nh : Bytes} {t : Nat} {id : C.Key} {tag k : Bytes} (hk : k.length = 32) {to s s' : Sent} (h : Answer C id nh t tag k to s)
    (h' : Answer C id nh t tag k to s') : s = s' := by
  obtain ⟨g, h1, h2⟩ := h
  obtain ⟨g', h1', h2'⟩ := h'
  rw [unicast_is_pair (L.pub_len id) hk] at h1 h1'
  subst h1 h1'
  exact message_unique h2 h2'

theorem phase1_opening (L : C.Laws) {nh : Bytes} (hn : nh.length = 32) {s0 : Sent} (hg : s0.Genuine C) (hop : 0 < hopOf s0.parts) (seen : Nat) {sign : Nat}
    (ht : sign < 2 ^ 64) (id : C.Key) (m : Option Nat) {k : Bytes} (h : Opening (m.getD 15) seen (C.pubkey id) k s0) :
    ∃ s1 : Sent, Answer C id nh sign tagAuth k s0 s1 ∧ s1.Genuine C ∧ phase1 C nh seen sign s0.parts id m = .ok s1.parts := by
  obtain ⟨lc, sig, hc, hnear, hne⟩ := h
  obtain ⟨s1, h1, h2, h3⟩ := answer_sent L hn ht id (tag := tagAuth) (by decide) (key_len hc) s0
  refine ⟨s1, h1, h2, (server_reply_iff L (wellMade hg) nh seen sign ht id m _).2 ⟨lc, k, sig, hop, hc, hnear, hne, ?_⟩⟩
  rw [h3, unicast_symmetric]; rfl

theorem phase1_refused (L : C.Laws) {nh : Bytes} {s0 : Sent} (hg : s0.Genuine C) (hop : 0 < hopOf s0.parts) (seen : Nat) {sign : Nat}
    (ht : sign < 2 ^ 64) (id : C.Key) (m : Option Nat) (h : ∀ k, ¬ Opening (m.getD 15) seen (C.pubkey id) k s0) :
    phase1 C nh seen sign s0.parts id m = .error (.err ()) := by
  cases hp : phase1 C nh seen sign s0.parts id m with
  | ok r =>
    obtain ⟨lc, k, sig, _, hc, hnear, hne, _⟩ := (server_reply_iff L (wellMade hg) nh seen sign ht id m _).1 hp
    exact absurd ⟨lc, sig, hc, hnear, hne⟩ (h k)
  | error e =>
    cases e with
    | err u => rfl
    | panic => exact absurd hp (phase1_panic nh L (wellMade hg) seen sign ht id m hop)

theorem phase2_accepted (L : C.Laws) {id : C.Key} {nh : Bytes} (hn : nh.length = 32) {s0 s1 : Sent} (hm : SignedBy (C.pubkey id) s0) (hg : s1.Genuine C) (hop : 0 < hopOf s1.parts)
    (seen : Nat) {sign : Nat} (ht : sign < 2 ^ 64) (m : Option Nat) {k : Bytes} (h : Accepted (m.getD 15) seen (C.pubkey id) k s0.hash s1) :
    ∃ s2 : Sent, Answer C id nh sign tagSigned k s1 s2 ∧ s2.Genuine C ∧ phase2 C nh seen sign s0.parts s1.parts id m = .ok (s2.parts, k) := by
  obtain ⟨lc, sig, hc, hnear, hN⟩ := h
  obtain ⟨s2, h1, h2, h3⟩ := answer_sent L hn ht id (tag := tagSigned) (by decide) (key_len hc) s1
  refine ⟨s2, h1, h2, (client_accepts_iff L (wellMade hg) nh seen sign ht id m _ _).2 ⟨lc, sig, pubkey_sent.2 hm, hop, hc, hnear, hN, ?_⟩⟩
  rw [h3]; rfl

theorem phase2_refused (L : C.Laws) {id : C.Key} {nh : Bytes} {s0 s1 : Sent} (hg : s1.Genuine C) (hop : 0 < hopOf s1.parts)
    (seen : Nat) {sign : Nat} (ht : sign < 2 ^ 64) (m : Option Nat)
    (h : ¬ (SignedBy (C.pubkey id) s0 ∧ ∃ k, Accepted (m.getD 15) seen (C.pubkey id) k s0.hash s1)) :
    phase2 C nh seen sign s0.parts s1.parts id m = .error (.err ()) := by
  cases hp : phase2 C nh seen sign s0.parts s1.parts id m with
  | ok r =>
    obtain ⟨r, k⟩ := r
    obtain ⟨lc, sig, hm, _, hc, hnear, hN, _⟩ := (client_accepts_iff L (wellMade hg) nh seen sign ht id m _ _).1 hp
    exact absurd ⟨pubkey_sent.1 hm, k, lc, sig, hc, hnear, hN⟩ h
  | error e =>
    cases e with
    | err u => rfl
    | panic => exact absurd hp (phase2_panic nh L (wellMade hg) seen sign ht id m hop)

theorem phase3_confirmed (L : C.Laws) {s0 s1 s2 : Sent} (hg : s2.Genuine C) {id : C.Key} {k : Bytes} (h0 : SignedBy k s0) (h1 : SignedBy (C.pubkey id) s1)
    (h2 : Confirms (C.pubkey id) k s1.hash s2) : phase3 C s0.parts s1.parts s2.parts id = .ok k := by
  obtain ⟨lc, sig, hc, hN⟩ := h2
  exact (server_accepts_iff L (wellMade hg) id k).2 ⟨lc, sig, pubkey_sent.2 h1, hc, pubkey_sent.2 h0, hN⟩

theorem phase3_refused (L : C.Laws) {s0 s1 s2 : Sent} (hg : s2.Genuine C) {id : C.Key}
    (h : ¬ ∃ k, SignedBy k s0 ∧ SignedBy (C.pubkey id) s1 ∧ Confirms (C.pubkey id) k s1.hash s2) : phase3 C s0.parts s1.parts s2.parts id = .error (.err ()) := by
  cases hp : phase3 C s0.parts s1.parts s2.parts id with
  | ok k =>
    obtain ⟨lc, sig, h1, hc, h0, hN⟩ := (server_accepts_iff L (wellMade hg) id k).1 hp
    exact absurd ⟨k, pubkey_sent.1 h0, pubkey_sent.1 h1, lc, sig, hc, hN⟩ h
  | error e =>
    cases e with
    | err u => rfl
    | panic => exact absurd hp phase3_panic

theorem message_signed {id : C.Key} {nh : Bytes} {t : Nat} {g : Bytes} {links : List Link} {s : Sent} (h : Message C id nh t g links s) : SignedBy (C.pubkey id) s :=
  ⟨_, _, h.content⟩
theorem answer_signed {id : C.Key} {nh : Bytes} {t : Nat} {tag k : Bytes} {to s : Sent} (h : Answer C id nh t tag k to s) : SignedBy (C.pubkey id) s :=
  h.elim fun _ h => message_signed h.2
theorem signed_unique {k k' : Bytes} {s : Sent} (h : SignedBy k s) (h' : SignedBy k' s) : k = k' := by
  obtain ⟨_, _, h⟩ := h
  obtain ⟨_, _, h'⟩ := h'
  rw [h] at h'; cases h'; rfl

theorem hello_sent (L : C.Laws) {nh : Bytes} (hn : nh.length = 32) {t : Nat} (ht : t < 2 ^ 64) (id : C.Key) :
    ∃ s : Sent, Hello C id nh t s ∧ s.Genuine C ∧ phase0 C nh t id = .ok s.parts := by
  obtain ⟨s, h1, h2, h3⟩ := message_sent L hn id (L.pub_len id) ht (links := []) nofun (by simp)
  refine ⟨s, h1, h2, ?_⟩
  rw [h3]
  exact (keypoint_msg L nh (C.pubkey id) [] t id (L.pub_len id) ht nofun (by simp)).1

end Verif.HsCmd
