import Verif.Model.Keys
import Verif.Spec.Keys
import Verif.Props.Setup
import Verif.Props.Identity
/-!
# C64 named keys
-/
namespace Verif.Props
open Verif Verif.Abe Verif.Num Verif.Pkt Verif.Tree Verif.Env Verif.Spec Verif.Query Verif.Lns Verif.Shake Verif.Ident

theorem first_part (l : Bytes) : FirstLine l ((Eval.splitBy (· == 0x0a) (l.take 130)).headD []) ∧
    ∀ line, FirstLine l line → line = (Eval.splitBy (· == 0x0a) (l.take 130)).headD [] := by
  unfold FirstLine
  generalize l.take 130 = d
  induction d with
  | nil =>
    refine ⟨⟨by simp [Eval.splitBy], [], by simp [Eval.splitBy], .inl rfl⟩, ?_⟩
    rintro line ⟨-, rest, h, -⟩
    have := List.append_eq_nil_iff.1 h.symm
    rw [this.1]; rfl
  | cons x d ih =>
    by_cases hx : (x == (0x0a : UInt8)) = true
    · rw [Eval.splitBy, if_pos hx]
      have hx' := eq_of_beq hx
      refine ⟨⟨by simp, x :: d, rfl, .inr (by rw [hx']; rfl)⟩, ?_⟩
      rintro line ⟨hn, rest, h, -⟩
      cases line with
      | nil => rfl
      | cons y line =>
        rw [List.cons_append] at h
        have := (List.cons.inj h).1
        exact absurd (by rw [← this, hx']; exact List.mem_cons_self) hn
    · obtain ⟨⟨h1, rest, h2, h3⟩, hu⟩ := ih
      have hne : x ≠ 0x0a := fun h => hx (by rw [h]; rfl)
      rw [Eval.splitBy, if_neg hx]
      cases hs : Eval.splitBy (· == (0x0a : UInt8)) d with
      | nil =>
        rw [hs] at h1 h2 hu
        simp only [List.headD_nil, List.headD_cons] at *
        refine ⟨⟨by simp [hne.symm], rest, by rw [h2]; rfl, h3⟩, ?_⟩
        rintro line ⟨hn, rest', h, h'⟩
        cases line with
        | nil =>
          rcases h' with rfl | h'
          · cases h
          · rw [List.nil_append] at h
            rw [← h] at h'
            exact absurd (Option.some.inj h') hne
        | cons y line =>
          rw [List.cons_append] at h
          obtain ⟨e1, e2⟩ := List.cons.inj h
          rw [e1, hu line ⟨fun hm => hn (List.mem_cons_of_mem _ hm), rest', e2, h'⟩]
      | cons a as =>
        rw [hs] at h1 h2 hu
        simp only [List.headD_cons] at *
        refine ⟨⟨by simp [hne.symm, h1], rest, by rw [h2]; rfl, h3⟩, ?_⟩
        rintro line ⟨hn, rest', h, h'⟩
        cases line with
        | nil =>
          rcases h' with rfl | h'
          · cases h
          · rw [List.nil_append] at h
            rw [← h] at h'
            exact absurd (Option.some.inj h') hne
        | cons y line =>
          rw [List.cons_append] at h
          obtain ⟨e1, e2⟩ := List.cons.inj h
          rw [e1, hu line ⟨fun hm => hn (List.mem_cons_of_mem _ hm), rest', e2, h'⟩]

/-- **C64**: the encrypted key in some data is its first line, within 130 bytes, if that line is a string in the right form. -/
theorem read_enckey_iff (utf8 : Bytes → Bool) (data pk line : Bytes) :
    readEnckey utf8 data = some (pk, line) ↔ FirstLine data line ∧ utf8 line = true ∧ pubkeyOf line = .ok pk := by
  obtain ⟨h1, h2⟩ := first_part data
  unfold readEnckey
  simp only
  generalize (Eval.splitBy (· == (0x0a : UInt8)) (data.take 130)).headD [] = l at *
  constructor
  · intro h
    by_cases hu : utf8 l = true
    · rw [if_neg (Classical.not_not.2 hu)] at h
      cases hp : pubkeyOf l with
      | error e => rw [hp] at h; cases h
      | ok k => rw [hp] at h; cases h; exact ⟨h1, hu, hp⟩
    · rw [if_pos hu] at h; cases h
  · rintro ⟨h, hu, hp⟩
    have := h2 line h
    subst this
    rw [if_neg (Classical.not_not.2 hu), hp]

/-- What is assumed of the check for strings. -/
def AsciiOkay (utf8 : Bytes → Bool) : Prop := ∀ b : Bytes, (∀ x ∈ b, x.toNat < 128) → utf8 b = true

theorem b64_plain {b : Bytes} {x : UInt8} (hx : x ∈ b64Enc standard b) : x ≠ 0x0a ∧ x.toNat < 128 := by
  rw [b64Enc_sext] at hx
  obtain ⟨d, hd, rfl⟩ := List.mem_map.1 hx
  have : ∀ d, d < 64 → standard.char d ≠ 0x0a ∧ (standard.char d).toNat < 128 := by decide +kernel
  exact this d (sext_lt b d hd)

theorem enckeyText_plain (c : Costs) (salt body : Bytes) : ∀ x ∈ enckeyText c salt body, x ≠ 0x0a ∧ x.toNat < 128 := by
  have hw : ∀ w : Bytes, (w.all fun x => decide (x ≠ 0x0a ∧ x.toNat < 128)) = true → ∀ x ∈ w, x ≠ 0x0a ∧ x.toNat < 128 := by
    intro w h x hx
    exact of_decide_eq_true (List.all_eq_true.1 h x hx)
  have hd : ∀ n, ∀ x ∈ dec n, x ≠ 0x0a ∧ x.toNat < 128 := by
    intro n x hx
    have := mem_dec hx
    exact ⟨by rintro rfl; revert this; decide, by omega⟩
  intro x hx
  unfold enckeyText at hx
  simp only [List.mem_append] at hx
  rcases hx with (((((((( hx | hx) | hx) | hx) | hx) | hx) | hx) | hx) | hx) | hx
  · exact hw _ (by decide) x hx
  · exact hd _ x hx
  · exact hw _ (by decide) x hx
  · exact hd _ x hx
  · exact hw _ (by decide) x hx
  · exact hd _ x hx
  · exact hw _ (by decide) x hx
  · exact b64_plain hx
  · exact hw _ (by decide) x hx
  · exact b64_plain hx

theorem pubkeyOf_text (c : Costs) (hc : CostsOk c) {salt body : Bytes} (hs : salt.length = 32) (hb : body.length = 32) :
    pubkeyOf (enckeyText c salt body) = .ok salt := by
  unfold pubkeyOf
  rw [decode_text c hc.1 hc.2.1 hc.2.2 salt body hb]
  simp only
  rw [if_neg (by rw [hs]; decide), if_neg (by rw [hb]; decide)]

/-- **C64**: a text of up to 130 bytes is found in the data it makes up. -/
theorem enckey_line {utf8 : Bytes → Bool} (hu : AsciiOkay utf8) (c : Costs) (hc : CostsOk c) {salt body : Bytes} (hs : salt.length = 32) (hb : body.length = 32)
    (hl : (enckeyText c salt body).length ≤ 130) : readEnckey utf8 (enckeyText c salt body) = some (salt, enckeyText c salt body) := by
  refine (read_enckey_iff _ _ _ _).2 ⟨⟨?_, [], ?_, .inl rfl⟩, hu _ fun x hx => (enckeyText_plain c salt body x hx).2, pubkeyOf_text c hc hs hb⟩
  · exact fun h => (enckeyText_plain c salt body _ h).1 rfl
  · rw [List.take_of_length_le hl, List.append_nil]

theorem std_length (b : Bytes) : (b64Enc standard b).length = (4 * b.length + 2) / 3 := by rw [b64Enc_sext, List.length_map, sext_length]

theorem enckeyText_length (c : Costs) {salt body : Bytes} (hs : salt.length = 32) (hb : body.length = 32) :
    (enckeyText c salt body).length = 110 + (dec c.mem).length + (dec c.times).length + (dec c.parallelism).length := by
  unfold enckeyText
  simp only [List.length_append, std_length, hs, hb, show (ascii "$argon2d$v=19$m=").length = 16 from by decide, show (ascii ",t=").length = 3 from by decide,
    show (ascii ",p=").length = 3 from by decide, show (ascii "$").length = 1 from by decide]
  omega

theorem opts_plain (c : Costs) : ∀ x ∈ ascii "m=" ++ dec c.mem ++ ascii ",t=" ++ dec c.times ++ ascii ",p=" ++ dec c.parallelism, (x == (0x24 : UInt8)) = false := by
  have hw : ∀ w : Bytes, (w.all fun x => decide ((x == (0x24 : UInt8)) = false)) = true → ∀ x ∈ w, (x == (0x24 : UInt8)) = false := by
    intro w h x hx
    exact of_decide_eq_true (List.all_eq_true.1 h x hx)
  intro x hx
  simp only [List.mem_append] at hx
  rcases hx with ((((hx | hx) | hx) | hx) | hx) | hx
  · exact hw _ (by decide) x hx
  · exact beq_false_of_ne (dec_ne hx (by decide))
  · exact hw _ (by decide) x hx
  · exact beq_false_of_ne (dec_ne hx (by decide))
  · exact hw _ (by decide) x hx
  · exact beq_false_of_ne (dec_ne hx (by decide))

/-- A text cut off in the last of its parts is in no right form. -/
theorem cut_text (c : Costs) {salt body : Bytes} (hb : body.length = 32) {k : Nat} (h1 : (enckeyText c salt body).length ≤ k + 42)
    (h2 : k < (enckeyText c salt body).length) : decodeString ((enckeyText c salt body).take k) = none := by
  have e : enckeyText c salt body = (ascii "$argon2d$v=19$" ++
      ((ascii "m=" ++ dec c.mem ++ ascii ",t=" ++ dec c.times ++ ascii ",p=" ++ dec c.parallelism) ++ 0x24 :: (b64Enc standard salt ++ [0x24]))) ++ b64Enc standard body := by
    unfold enckeyText
    rw [show ascii "$argon2d$v=19$m=" = ascii "$argon2d$v=19$" ++ ascii "m=" by decide, show ascii "$" = [0x24] by decide]
    simp only [List.append_assoc, List.cons_append, List.nil_append]
  have hbl : (b64Enc standard body).length = 43 := by rw [std_length, hb]
  rw [e] at h1 h2 ⊢
  rw [List.take_append]
  rw [List.length_append, hbl] at h1 h2
  rw [List.take_of_length_le (by omega)]
  have hj : ((b64Enc standard body).take (k - (ascii "$argon2d$v=19$" ++
      ((ascii "m=" ++ dec c.mem ++ ascii ",t=" ++ dec c.times ++ ascii ",p=" ++ dec c.parallelism) ++ 0x24 :: (b64Enc standard salt ++ [0x24]))).length)).length < 43 := by
    rw [List.length_take, hbl]; omega
  have hp : ∀ x ∈ (b64Enc standard body).take (k - (ascii "$argon2d$v=19$" ++
      ((ascii "m=" ++ dec c.mem ++ ascii ",t=" ++ dec c.times ++ ascii ",p=" ++ dec c.parallelism) ++ 0x24 :: (b64Enc standard salt ++ [0x24]))).length),
      (x == (0x24 : UInt8)) = false := fun x hx => beq_false_of_ne (b64_ne_dollar (List.mem_of_mem_take hx))
  generalize (b64Enc standard body).take _ = t at hj hp
  have e2 : (ascii "$argon2d$v=19$" ++
      ((ascii "m=" ++ dec c.mem ++ ascii ",t=" ++ dec c.times ++ ascii ",p=" ++ dec c.parallelism) ++ 0x24 :: (b64Enc standard salt ++ [0x24]))) ++ t =
      ascii "$argon2d$v=19$" ++ ((ascii "m=" ++ dec c.mem ++ ascii ",t=" ++ dec c.times ++ ascii ",p=" ++ dec c.parallelism) ++ 0x24 :: (b64Enc standard salt ++ 0x24 :: t)) := by
    simp only [List.append_assoc, List.cons_append, List.nil_append]
  rw [e2]
  unfold decodeString
  simp only
  rw [if_neg (by simp [List.isPrefixOf_iff_prefix]), List.drop_left, splitBy_at _ _ _ _ (opts_plain c) (by decide),
    splitBy_at _ _ _ _ (fun x hx => beq_false_of_ne (b64_ne_dollar hx)) (by decide), splitBy_none _ _ hp]
  simp only [std_roundtrip]
  cases hd : stdDecode t with
  | none => rfl
  | some h =>
    have : b64Enc standard h = t := ((decode_iff standard (.inr rfl) _ _).1 hd).symm
    have hl : h.length ≠ 32 := by
      intro hh
      rw [← this, std_length, hh] at hj
      omega
    simp only
    rw [if_pos hl]

/-- **C64**: the text of an encrypted key is found in the data it makes up exactly if the numbers of its costs have at most 20 digits together. -/
theorem enckey_found_iff {utf8 : Bytes → Bool} (hu : AsciiOkay utf8) (c : Costs) (hc : CostsOk c) {salt body : Bytes} (hs : salt.length = 32) (hb : body.length = 32) :
    readEnckey utf8 (enckeyText c salt body) = some (salt, enckeyText c salt body) ↔ (dec c.mem).length + (dec c.times).length + (dec c.parallelism).length ≤ 20 := by
  have hlen := enckeyText_length c hs hb
  constructor
  · intro h
    apply Classical.byContradiction
    intro hlt
    have h' := ((read_enckey_iff _ _ _ _).1 h).1
    obtain ⟨-, rest, hr, -⟩ := h'
    have := congrArg List.length hr
    rw [List.length_take, List.length_append] at this
    omega
  · intro h
    exact enckey_line hu c hc hs hb (by omega)

theorem dec_length_le (n k : Nat) (h : n < 10 ^ k) (hk : 1 ≤ k) : (dec n).length ≤ k := by
  induction k generalizing n with
  | zero => omega
  | succ k ih =>
    rw [dec]
    split
    · simp
    · rename_i h10
      rw [List.length_append, List.length_singleton]
      have : 1 ≤ k := by
        rcases Nat.eq_zero_or_pos k with rfl | h'
        · omega
        · exact h'
      have := ih (n / 10) (by rw [Nat.pow_succ] at h; exact Nat.div_lt_of_lt_mul (by omega)) this
      omega

/-- **C64**: of a longer text nothing is found. -/
theorem enckey_lost {utf8 : Bytes → Bool} (c : Costs) (hc : CostsOk c) {salt body : Bytes} (hs : salt.length = 32) (hb : body.length = 32)
    (h : 20 < (dec c.mem).length + (dec c.times).length + (dec c.parallelism).length) : readEnckey utf8 (enckeyText c salt body) = none := by
  have hlen := enckeyText_length c hs hb
  have h1 := dec_length_le c.mem 10 (Nat.lt_trans hc.1 (by decide)) (by decide)
  have h2 := dec_length_le c.times 10 (Nat.lt_trans hc.2.1 (by decide)) (by decide)
  have h3 := dec_length_le c.parallelism 10 (Nat.lt_trans hc.2.2 (by decide)) (by decide)
  cases hr : readEnckey utf8 (enckeyText c salt body) with
  | none => rfl
  | some r =>
    obtain ⟨pk, line⟩ := r
    obtain ⟨⟨hn, rest, he, hor⟩, -, hp⟩ := (read_enckey_iff _ _ _ _).1 hr
    have hline : line = (enckeyText c salt body).take 130 := by
      rcases hor with rfl | hor
      · rw [List.append_nil] at he; exact he.symm
      · have : (0x0a : UInt8) ∈ enckeyText c salt body := by
          have hm : (0x0a : UInt8) ∈ (enckeyText c salt body).take 130 := by
            rw [he]
            cases rest with
            | nil => cases hor
            | cons x r => cases hor; simp
          exact List.mem_of_mem_take hm
        exact absurd rfl (enckeyText_plain c salt body _ this).1
    rw [hline] at hp
    unfold pubkeyOf at hp
    rw [cut_text c hb (by omega) (by omega)] at hp
    cases hp

/-! ### claiming a name succeeds -/

section
variable {C : Crypto} {nh : Bytes} {db db' : Db} {now : Nat} {iter : List Tally → List Tally} {comps : List Bytes} {n : Name} {pk enckey k : Bytes}
  {io : Nat → Call} {ow : Bool}

theorem entryLinks_length (links : List Link) (remove : Option Bytes) (add : Option (Bool × Link)) (now : Nat) :
    (entryLinks links remove add now).length ≤ links.length + 1 := by
  have hk : ((links.filter fun l => decide (some l.ptr ≠ remove)).filter fun l => decide ((asStampTag l.tag).1 > now)).length ≤ links.length :=
    Nat.le_trans (List.length_filter_le _ _) (List.length_filter_le _ _)
  unfold entryLinks
  simp only
  split
  · rw [List.length_cons]; omega
  · rw [List.length_append, List.length_singleton]; omega
  · omega

theorem key_claim_ok (hn : Name.ofComps comps = .ok n) (hl : IsLocal comps) (hpk : pk.length = 32) (hsz : enckey.length ≤ 64000) :
    Claim.new C nh n (u64End - 1) [⟨List.replicate 9 0 ++ pubkeyTag, pk⟩] enckey = .ok ⟨packet C nh (keyClaim comps pk enckey), n⟩ := by
  have hz := rooted_size (claims_valid ((name_of_iff _ _).1 hn).1).1
  obtain ⟨cl, g, h, _⟩ := claim_new (C := C) nh hn (until_ := u64End - 1) (by decide) (by decide)
    (l := ⟨List.replicate 9 0 ++ pubkeyTag, pk⟩) (ls := []) (by
      intro l hl
      rw [List.mem_singleton.1 hl]
      exact ⟨(by decide : (List.replicate 9 (0 : UInt8) ++ pubkeyTag).length = 16), hpk⟩) (.inl (by decide : beNat ((List.replicate 9 (0 : UInt8) ++ pubkeyTag).take 8) = 0)) enckey
    (by simp only [List.length_nil]; omega)
  rw [h, (key_claim hn hl hpk h).1]

theorem mut_entry_ok {links : List Link} (hls : LinksSized links) {r : Bytes}
    (hck : Rooted.checkComponents r = .ok ()) {remove : Option Bytes} {add : Option (Bool × Link)}
    (ha : ∀ b l, add = some (b, l) → l.tag.length = 16 ∧ l.ptr.length = 32) (hnow : now < 2 ^ 64) (hrl : r.length ≤ 1000) (hll : links.length ≤ 1000) :
    ∃ p, mutEntry C nh links r remove add none now = .ok p := by
  have hs : LinkContent.Sized ⟨privateGroup, lnsDomain, now, entryLinks links remove add now, r, []⟩ :=
    ⟨(by decide : privateGroup.length = 32), (by decide : lnsDomain.length = 16), hnow, entryLinks_sized hls remove ha now, hck⟩
  have e := tryPoint_eq (C := C) hs none nh
  have hel := entryLinks_length links remove add now
  rw [if_pos (by
    show LinkContent.len _ ≤ 65024
    unfold LinkContent.len
    simp only [List.length_nil]
    omega)] at e
  have : tryLinkpoint C privateGroup lnsDomain r (entryLinks links remove add now) [] now nh = _ := e
  unfold mutEntry
  simp only [this]
  exact ⟨_, rfl⟩

/-- **C63**: a name of at most two components that has no claim can be given a key: if the writes succeed, the clock does not show the stamp of
the last packet and is not near its end, and the index of the key is not full. -/
theorem setup_succeeds_partial (hC : C.Laws) (hn : Name.ofComps comps = .ok n) (hl : IsLocal comps) (hlen : comps.length ≤ 2) (hpk : pk.length = 32)
    (hsz : enckey.length ≤ 64000)
    (h1 : 1 < now) (h2 : now + 2 < 2 ^ 64) (hc : Consistent db) (hw : AllShow db) (hff : NoOnesKey db)
    (hfresh : ∀ e ∈ db.log, ¬ MadeAt (List.replicate 32 0) (List.replicate 13 0 ++ ascii "lns") (claimsOf comps) none now e.2)
    (hidx : ∀ e ∈ db.log, MadeAt (List.replicate 32 0) (List.replicate 13 0 ++ ascii "lns") [ascii "by-tag", ascii "pubkey@", pk] none now e.2 → e.2.getLinks.length ≤ 1000)
    (hio : ∀ i, io i = .ok) (hclock : ∀ e ∈ db.log, e.1 ≠ now ∧ e.1 + 3 < 2 ^ 64) :
    ∃ db', setupKeyclaim C nh db iter io now n enckey (some pk) ow = (db', .ok pk) := by
  have hnl : n.isLocal = true := ((name_of_iff _ _).1 hn).2.2.2 hl
  have hlk := (local_none_iff_partial C nh iter hn hl h1 (by omega) hc hw hff).2 hfresh
  have hg := ((name_of_iff _ _).1 hn).1
  have hs := ((name_of_iff _ _).1 hn).2.1
  have hta : Space.toArray n.space = .ok comps.reverse := by
    have := hg.few
    rw [hs, space_to_array (good_space hg).1, if_pos (by rw [List.length_reverse]; omega)]
  have hadd : ∃ p, addEntry C nh db now none none pubkeyTag true ⟨packet C nh (keyClaim comps pk enckey), n⟩ (some pk) = .ok (some p) := by
    have ht : 1 ≤ pubkeyTag.length ∧ pubkeyTag.length ≤ 200 := by decide
    obtain ⟨r0, x1, x2⟩ := tag_lead ht hpk (admin := none) nofun h1 (by omega) hc hw hff
    have x2 : tagEntry db now pubkeyTag pk (Option.map C.pubkey none) = .ok r0 := x2
    obtain ⟨s1, s2⟩ := tag_space ht hpk
    unfold addEntry
    simp only
    rw [x2, s2]
    simp only
    rw [rooted_of_space true _ _ s1 (by simp [tagSpace])]
    simp only [unwrapL, key_until]
    have hls : LinksSized ((r0.map (·.2.getLinks)).getD []) := by
      cases r0 with
      | none => nofun
      | some e =>
        obtain ⟨t, ht', -⟩ := x1.2.1
        exact (tuple_point ht').2.2.1
    have hll : ((r0.map (·.2.getLinks)).getD []).length ≤ 1000 := by
      cases r0 with
      | none => simp
      | some e => exact hidx e x1.1 x1.2.1
    have hrl := rooted_size s1
    obtain ⟨p, hp⟩ := mut_entry_ok (C := C) (nh := nh) (now := now) (remove := none) hls (rooted_check_accepts _ s1 (by simp [tagSpace]))
      (add := some (true, ⟨stampTag (2 ^ 64 - 1) (List.replicate 8 0), (packet C nh (keyClaim comps pk enckey)).hash⟩)) (by
        intro b l he
        cases he
        exact ⟨by rw [stampTag, List.length_append, beBytes_length, List.length_replicate], hC.hash_len _⟩) (by omega) (by omega) hll
    rw [hp]
    exact ⟨p, rfl⟩
  obtain ⟨p, hp⟩ := hadd
  have hb : privateBatch C nh db iter now ⟨packet C nh (keyClaim comps pk enckey), n⟩ none [] true = .ok (some [packet C nh (keyClaim comps pk enckey), p]) := by
    unfold privateBatch
    simp only [hlk, key_group, key_pubkey]
    simp only [Option.map_none, Option.bind_none, dropEntry, hp]
    rw [if_neg nofun]
    rfl
  have hsave : ∃ rng, (saveAll io now db [packet C nh (keyClaim comps pk enckey), p]).out = .ok rng := by
    unfold saveAll
    have hle : ∀ B : List NetParts, (newsOf db (B.map fun p => (p, SaveState.pending))).length ≤ B.length := by
      intro B
      unfold newsOf
      have hpend : pendings (B.map fun p => (p, SaveState.pending)) = B := by
        unfold pendings
        rw [List.filterMap_map]
        exact List.filterMap_some
      rw [hpend]
      exact (news_sublist _ _).length_le
    have := hle [packet C nh (keyClaim comps pk enckey), p]
    simp only [List.length_cons, List.length_nil] at this
    refine save_any_clock_partial hc hio now _ ?_ (by omega) fun e he => by have := (hclock e he).2; omega
    intro hlast
    simp only [lastStamp, Option.map_eq_some_iff] at hlast
    obtain ⟨e, he, hea⟩ := hlast
    exact (hclock e (List.mem_of_getLast? he)).1 hea
  obtain ⟨rng, hrng⟩ := hsave
  have hfin : ∃ db', saveKeyclaim C nh db iter io now n enckey (some pk) = (db', .ok pk) := by
    unfold saveKeyclaim
    simp only [key_claim_ok hn hl hpk hsz, tryL, hta, unwrapL]
    rw [if_neg (by rw [List.length_reverse]; omega)]
    unfold savePrivate
    simp only [hb, hrng]
    exact ⟨_, rfl⟩
  obtain ⟨db', h⟩ := hfin
  refine ⟨db', ?_⟩
  unfold setupKeyclaim
  rw [if_neg (by rw [hnl]; simp), hlk]
  exact h
end
/-! ### opening and creating -/

theorem encrypt_form {A : Lib} (L : Ident.Laws A) {k : A.Key} {pw : Bytes} {c : Costs} (hc : CostsOk c) {s : Bytes} (h : encryptWith A k pw c = .ok s) :
    ∃ body, body.length = 32 ∧ s = enckeyText c (A.pubkey k) body ∧ decrypt A s pw = .ok k ∧ pubkeyOf s = .ok (A.pubkey k) := by
  cases hd : A.argon c pw (A.pubkey k) with
  | none => rw [encrypt_aborts k pw c hd] at h; cases h
  | some d =>
    obtain ⟨h1, h2, h3⟩ := encrypt_decrypt L k pw c hc hd
    rw [h1] at h
    injection h with h
    subst h
    exact ⟨_, xor32_length (L.argon_len _ _ _ _ hd) (L.secret_len k), rfl, h2, h3⟩

/-- The costs that are used. -/
def UsedCosts (c : Costs) : Prop := c = ⟨131072, 4, 4⟩ ∨ c = ⟨2097152, 1, 4⟩ ∨ c = ⟨8, 1, 1⟩

theorem used_ok {c : Costs} (h : UsedCosts c) : CostsOk c := by
  rcases h with rfl | rfl | rfl <;> exact ⟨by decide, by decide, by decide⟩
theorem used_digits {c : Costs} (h : UsedCosts c) : (dec c.mem).length + (dec c.times).length + (dec c.parallelism).length ≤ 20 := by
  have h1 : ∀ n, n < 10 → (dec n).length ≤ 1 := fun n h => dec_length_le n 1 h (by omega)
  have h2 : ∀ n, n < 10 ^ 7 → (dec n).length ≤ 7 := fun n h => dec_length_le n 7 h (by omega)
  rcases h with rfl | rfl | rfl <;> refine Nat.le_trans (Nat.add_le_add (Nat.add_le_add (h2 _ (by decide)) (h1 _ (by decide))) (h1 _ (by decide))) (by decide)

theorem encrypt_read {A : Lib} (L : Ident.Laws A) {utf8 : Bytes → Bool} (hu : AsciiOkay utf8) {k : A.Key} {pw : Bytes} {c : Costs} (hc : UsedCosts c) {s : Bytes}
    (h : encryptWith A k pw c = .ok s) : readEnckey utf8 s = some (A.pubkey k, s) ∧ decrypt A s pw = .ok k ∧ pubkeyOf s = .ok (A.pubkey k) := by
  obtain ⟨body, hb, rfl, h1, h2⟩ := encrypt_form L (used_ok hc) h
  exact ⟨(enckey_found_iff hu c (used_ok hc) (L.pub_len k) hb).2 (used_digits hc), h1, h2⟩

theorem lkKeyEncrypt_used {A : Lib} {k : A.Key} {pw s : Bytes} (h : lkKeyEncrypt A k pw = .ok s) : ∃ c, UsedCosts c ∧ encryptWith A k pw c = .ok s := by
  unfold lkKeyEncrypt encrypt at h
  split at h
  · exact ⟨_, .inr (.inr rfl), h⟩
  · exact ⟨_, .inl rfl, h⟩

section
variable {A : Lib} {C : Crypto} {nh : Bytes} {utf8 : Bytes → Bool} {db db' : Db} {now now' : Nat} {iter iter' : List Tally → List Tally} {comps : List Bytes} {n : Name}
  {pw : Bytes} {io io' : Nat → Call} {create create' : Bool} {gen gen' j : A.Key}

theorem lead_quiet {g d : Bytes} {cs : List Bytes} (hq : Calm db g d cs now now') (hle : now ≤ now') {r : Option (Nat × NetParts)}
    (h : LeadAt db g d cs none now r) : LeadAt db g d cs none now' r := by
  have hm : ∀ f ∈ db.log, MadeAt g d cs none now' f.2 → MadeAt g d cs none now f.2 := by
    rintro f hf ⟨t, ht, t1, t2, t3, t4, t5⟩
    rcases hq f hf t ht t1 t2 t3 with h | h
    · exact ⟨t, ht, t1, t2, t3, t4, h⟩
    · omega
  cases r with
  | none => exact fun e he h' => h e he (hm e he h')
  | some e =>
    obtain ⟨a, ⟨t, ht, t1, t2, t3, t4, t5⟩, c⟩ := h
    exact ⟨a, ⟨t, ht, t1, t2, t3, t4, by omega⟩, fun f hf h' => c f hf (hm f hf h')⟩

/-- **C64**: what a local name leads to changes with the clock only by points made at its place in the meantime. -/
theorem local_quiet (C : Crypto) (nh : Bytes) (hn : Name.ofComps comps = .ok n) (hl : IsLocal comps)
    (h1 : 1 < now) (h2 : now' < 2 ^ 64) (hle : now ≤ now') (hc : Consistent db) (hw : AllShow db) (hff : NoOnesKey db)
    (hq : Calm db (List.replicate 32 0) (List.replicate 13 0 ++ ascii "lns") (claimsOf comps) now now') :
    lookupClaim C nh db iter' now' n = lookupClaim C nh db iter now n := by
  obtain ⟨r, x1, x2⟩ := local_lookup C nh iter hn hl h1 (by omega) hc hw hff
  obtain ⟨r', y1, y2⟩ := local_lookup C nh iter' hn hl (by omega : 1 < now') h2 hc hw hff
  rw [x2, y2, lead_unique y1 (lead_quiet hq hle x1)]

theorem lookup_enckey_of (h : lookupClaim C nh db iter' now' n = lookupClaim C nh db iter now n) :
    lookupEnckey C nh utf8 db iter' now' n = lookupEnckey C nh utf8 db iter now n := by
  unfold lookupEnckey
  rw [h]

/-- **C64**: after a name that had no claim is given an encrypted key, the name has this encrypted key. -/
theorem setup_enckey_partial {ow : Bool} {pk enckey k : Bytes} (hC : C.Laws) (hnh : nh.length = 32) (hn : Name.ofComps comps = .ok n) (hpk : pk.length = 32)
    (h1 : 1 < now) (h2 : now < 2 ^ 64) (hc : Consistent db) (hw : AllShow db) (hff : NoOnesKey db)
    (hcol : ∀ e ∈ db.log, e.2.hash = C.hash (keyClaim comps pk enckey).layout → e.2.parts = (keyClaim comps pk enckey).parts)
    (h : setupKeyclaim C nh db iter io now n enckey (some pk) ow = (db', .ok k)) (h1' : 1 < now') (h2' : now' < 2 ^ 64)
    (iter' : List Tally → List Tally)
    (hall : ∀ f ∈ db.log, At (List.replicate 32 0) (List.replicate 13 0 ++ ascii "lns") (claimsOf comps) (List.replicate 32 0) f.2 →
      f.2.getCreate < now' → f.2.hash = C.hash (keyClaim comps pk enckey).layout ∨
        (f.2.getCreate = 0 ∧ BytesBefore f.2.hash (C.hash (keyClaim comps pk enckey).layout)))
    (hr : readEnckey utf8 enckey = some (pk, enckey)) : lookupEnckey C nh utf8 db' iter' now' n = .ok (some (pk, enckey)) := by
  obtain ⟨cl, hcl, hch⟩ := (setup_found_iff_partial hC hnh hn hpk h1 h2 hc hw hff hcol h h1' h2' iter').2 hall
  obtain ⟨hc', hw', hff', -⟩ := setup_db hC hnh hn hpk h1 h2 hc hw hff h
  obtain ⟨hl, -, hsave⟩ := setup_steps hn h
  obtain ⟨x, hx, hxh, hxp, hxu⟩ := setup_stored hC hnh hn hpk h1 h2 hc hw hff hcol h
  obtain ⟨e, c, lc, b0, b1, b2, b3, rfl⟩ := (local_found_iff_partial C nh iter' hn hl h1' h2' hc' hw' hff' cl).1 hcl
  have he := hxu e b0.1 hch
  subst he
  unfold lookupEnckey
  rw [hcl]
  have hd : e.2.data = enckey := by unfold NetParts.data; rw [hxp]; rfl
  simp only [Claim.enckey, hd, hr]

/-- A call that returns a key: it was there, or it was made now. -/
theorem lk_key_cases (h : lkKey A C nh utf8 db iter io now n pw create gen = (db', .ok j)) :
    (db' = db ∧ ∃ pk s, lookupEnckey C nh utf8 db iter now n = .ok (some (pk, s)) ∧ decrypt A s pw = .ok j) ∨
    (create = true ∧ j = gen ∧ lookupEnckey C nh utf8 db iter now n = .ok none ∧
      ∃ s pk, lkKeyEncrypt A gen pw = .ok s ∧ setupNamed C nh db iter io now n s false = (db', .ok pk)) := by
  unfold lkKey at h
  cases hl : lookupEnckey C nh utf8 db iter now n with
  | error e => rw [hl] at h; cases h
  | ok r =>
    rw [hl] at h
    cases r with
    | some ps =>
      obtain ⟨pk, s⟩ := ps
      simp only [tryDecrypt] at h
      cases hd : decrypt A s pw with
      | error e => rw [hd] at h; cases h
      | ok k => rw [hd] at h; cases h; exact .inl ⟨rfl, pk, s, rfl, hd⟩
    | none =>
      simp only at h
      cases create with
      | false => cases h
      | true =>
        rw [if_pos rfl] at h
        cases he : lkKeyEncrypt A gen pw with
        | error e => rw [he] at h; cases h
        | ok s =>
          rw [he] at h
          simp only at h
          cases hs : setupNamed C nh db iter io now n s false with
          | mk d r =>
            rw [hs] at h
            cases r with
            | error e => cases h
            | ok pk => cases h; exact .inr ⟨rfl, rfl, rfl, s, pk, rfl, hs⟩

theorem lk_key_open {pk s : Bytes} (hl : lookupEnckey C nh utf8 db iter now n = .ok (some (pk, s))) :
    lkKey A C nh utf8 db iter io now n pw create gen = (db, tryDecrypt A s pw) := by
  unfold lkKey
  rw [hl]

/-- What a created key leaves behind. -/
theorem created_enckey (L : Ident.Laws A) (hC : C.Laws) (hnh : nh.length = 32) (hu : AsciiOkay utf8) (hn : Name.ofComps comps = .ok n)
    (h1 : 1 < now) (h2 : now' < 2 ^ 64) (hle : now ≤ now') (hc : Consistent db) (hw : AllShow db) (hff : NoOnesKey db)
    (hnone : lookupEnckey C nh utf8 db iter now n = .ok none) {s pk : Bytes} (he : lkKeyEncrypt A gen pw = .ok s)
    (hs : setupNamed C nh db iter io now n s false = (db', .ok pk))
    (hq : Calm db (List.replicate 32 0) (List.replicate 13 0 ++ ascii "lns") (claimsOf comps) now now')
    (hcol : ∀ e ∈ db.log, e.2.hash ≠ C.hash (keyClaim comps (A.pubkey gen) s).layout) :
    IsLocal comps ∧ pk = A.pubkey gen ∧ lookupEnckey C nh utf8 db' iter' now' n = .ok (some (A.pubkey gen, s)) := by
  obtain ⟨c, hc1, hc2⟩ := lkKeyEncrypt_used he
  obtain ⟨hr, hd, hp⟩ := encrypt_read L hu hc1 hc2
  unfold setupNamed at hs
  simp only [hp] at hs
  obtain ⟨hl, hno, hsave⟩ := setup_steps hn hs
  have hcl : lookupClaim C nh db iter now n = .ok none := by
    unfold lookupEnckey at hnone
    cases hx : lookupClaim C nh db iter now n with
    | error e => rw [hx] at hnone; cases hnone
    | ok r =>
      cases r with
      | none => rfl
      | some cl => exact absurd hx (hno rfl cl)
  have hfr := (local_none_iff_partial C nh iter hn hl h1 (by omega) hc hw hff).1 hcl
  refine ⟨hl, (save_steps hn hl (L.pub_len gen) hsave).1, ?_⟩
  refine setup_enckey_partial hC hnh hn (L.pub_len gen) h1 (by omega) hc hw hff (fun e he hh => absurd hh (hcol e he)) hs (by omega) h2 iter' ?_ hr
  rintro f hf ⟨t, ht, t1, t2, t3, t4⟩ hcr
  rw [(tuple_point ht).2.2.2] at hcr
  rcases hq f hf t ht t1 t2 t3 with hlt | hge
  · exact absurd ⟨t, ht, t1, t2, t3, nofun, hlt⟩ (hfr f hf)
  · omega

/-- **C64**: a named key that was opened or created is the same when it is opened again with the password, and opening it changes nothing.
    Partial: for local names, if no point is made at the place of the name in the meantime. -/
theorem reopen_partial (L : Ident.Laws A) (hC : C.Laws) (hnh : nh.length = 32) (hu : AsciiOkay utf8) (hn : Name.ofComps comps = .ok n) (hl : IsLocal comps)
    (h1 : 1 < now) (h2 : now' < 2 ^ 64) (hle : now ≤ now') (hc : Consistent db) (hw : AllShow db) (hff : NoOnesKey db)
    (h : lkKey A C nh utf8 db iter io now n pw create gen = (db', .ok j))
    (hq : Calm db (List.replicate 32 0) (List.replicate 13 0 ++ ascii "lns") (claimsOf comps) now now')
    (hcol : ∀ s, lkKeyEncrypt A gen pw = .ok s → ∀ e ∈ db.log, e.2.hash ≠ C.hash (keyClaim comps (A.pubkey gen) s).layout) :
    lkKey A C nh utf8 db' iter' io' now' n pw create' gen' = (db', .ok j) := by
  rcases lk_key_cases h with ⟨rfl, pk, s, x1, x2⟩ | ⟨-, rfl, x1, s, pk, x2, x3⟩
  · rw [lk_key_open (pk := pk) (s := s) ((lookup_enckey_of (local_quiet C nh hn hl h1 h2 hle hc hw hff hq)).trans x1)]
    simp only [tryDecrypt, x2]
  · obtain ⟨-, rfl, x4⟩ := created_enckey (iter' := iter') L hC hnh hu hn h1 h2 hle hc hw hff x1 x2 x3 hq (hcol s x2)
    rw [lk_key_open x4]
    obtain ⟨c, hc1, hc2⟩ := lkKeyEncrypt_used x2
    simp only [tryDecrypt, (encrypt_read L hu hc1 hc2).2.1]

/-- **C64**: with another password a created key is not opened as a different one, nor replaced. -/
theorem reopen_other_partial (L : Ident.Laws A) (hinj : ∀ j k, A.pubkey j = A.pubkey k → j = k) (hC : C.Laws) (hnh : nh.length = 32) (hu : AsciiOkay utf8)
    (hn : Name.ofComps comps = .ok n)
    (h1 : 1 < now) (h2 : now' < 2 ^ 64) (hle : now ≤ now') (hc : Consistent db) (hw : AllShow db) (hff : NoOnesKey db)
    (hnone : lookupEnckey C nh utf8 db iter now n = .ok none)
    (h : lkKey A C nh utf8 db iter io now n pw create gen = (db', .ok j))
    (hq : Calm db (List.replicate 32 0) (List.replicate 13 0 ++ ascii "lns") (claimsOf comps) now now')
    (hcol : ∀ s, lkKeyEncrypt A gen pw = .ok s → ∀ e ∈ db.log, e.2.hash ≠ C.hash (keyClaim comps (A.pubkey gen) s).layout) (pw' : Bytes) :
    j = gen ∧ (lkKey A C nh utf8 db' iter' io' now' n pw' create' gen').1 = db' ∧
      ∀ j', (lkKey A C nh utf8 db' iter' io' now' n pw' create' gen').2 = .ok j' → j' = gen := by
  rcases lk_key_cases h with ⟨-, pk, s, x1, x2⟩ | ⟨-, rfl, x1, s, pk, x2, x3⟩
  · rw [hnone] at x1; cases x1
  · obtain ⟨-, rfl, x4⟩ := created_enckey (iter' := iter') L hC hnh hu hn h1 h2 hle hc hw hff x1 x2 x3 hq (hcol s x2)
    rw [lk_key_open x4]
    refine ⟨rfl, rfl, fun j' hj => ?_⟩
    obtain ⟨c, hc1, hc2⟩ := lkKeyEncrypt_used x2
    simp only [tryDecrypt] at hj
    cases hd : decrypt A s pw' with
    | error e => rw [hd] at hj; cases hj
    | ok k => rw [hd] at hj; cases hj; exact other_password L hinj j pw pw' c (used_ok hc1) hc2 j' hd

/-- **C64**: without asking to create a key, nothing is written; and a name that has an encrypted key keeps it. -/
theorem lk_key_reads (hnc : create = false ∨ (∃ r, lookupEnckey C nh utf8 db iter now n = .ok (some r)) ∨ ∃ e, lookupEnckey C nh utf8 db iter now n = .error e) :
    (lkKey A C nh utf8 db iter io now n pw create gen).1 = db := by
  unfold lkKey
  rcases hnc with rfl | ⟨⟨pk, s⟩, hr⟩ | ⟨e, hr⟩
  · cases hr : lookupEnckey C nh utf8 db iter now n with
    | error e => rfl
    | ok r => cases r <;> rfl
  · rw [hr]
  · rw [hr]

/-- **C64**: whatever happens, nothing that was stored is lost. -/
theorem lk_key_keeps (hc : Consistent db) : let d := (lkKey A C nh utf8 db iter io now n pw create gen).1
    Consistent d ∧ ∀ e ∈ db.log, e ∈ d.log := by
  have hs : Consistent db ∧ ∀ e ∈ db.log, e ∈ db.log := ⟨hc, fun _ h => h⟩
  unfold lkKey
  cases hr : lookupEnckey C nh utf8 db iter now n with
  | error e => exact hs
  | ok r =>
    cases r with
    | some ps => exact hs
    | none =>
      simp only
      cases create with
      | false => exact hs
      | true =>
        rw [if_pos rfl]
        cases he : lkKeyEncrypt A gen pw with
        | error e => exact hs
        | ok s =>
          have := setup_keeps (C := C) (nh := nh) (iter := iter) (io := io) (now := now) (enckey := s) (ow := false) hc n
            (match pubkeyOf s with | .ok k => some k | .error _ => none)
          simp only at this ⊢
          unfold setupNamed
          cases hk : setupKeyclaim C nh db iter io now n s (match pubkeyOf s with | .ok k => some k | .error _ => none) false with
          | mk d r =>
            rw [hk] at this
            cases r <;> exact this

/-- **C64**: the key that is returned is the one the text shows. -/
theorem lk_key_shown (L : Ident.Laws A) {pk s : Bytes} (hl : lookupEnckey C nh utf8 db iter now n = .ok (some (pk, s)))
    (h : (lkKey A C nh utf8 db iter io now n pw create gen).2 = .ok j) : A.pubkey j = pk := by
  rw [lk_key_open hl] at h
  have hp : pubkeyOf s = .ok pk := by
    unfold lookupEnckey at hl
    cases hx : lookupClaim C nh db iter now n with
    | error e => rw [hx] at hl; cases hl
    | ok r =>
      rw [hx] at hl
      cases r with
      | none => cases hl
      | some cl =>
        simp only [Claim.enckey] at hl
        cases hr : readEnckey utf8 cl.pkt.data with
        | some ps =>
          rw [hr] at hl
          cases hl
          exact ((read_enckey_iff _ _ _ _).1 hr).2.2
        | none =>
          rw [hr] at hl
          simp only at hl
          cases hf : firstTail cl.pkt.getLinks enckeyTag with
          | none => rw [hf] at hl; cases hl
          | some l =>
            rw [hf] at hl
            simp only at hl
            cases hd : db.read l.ptr with
            | none => rw [hd] at hl; cases hl
            | some e =>
              rw [hd] at hl
              simp only at hl
              cases hr : readEnckey utf8 e.2.data with
              | none => rw [hr] at hl; cases hl
              | some ps => rw [hr] at hl; cases hl; exact ((read_enckey_iff _ _ _ _).1 hr).2.2
  simp only [tryDecrypt] at h
  cases hd : decrypt A s pw with
  | error e => rw [hd] at h; cases h
  | ok k =>
    rw [hd] at h
    cases h
    have := decrypt_matches L s pw j hd
    rw [hp] at this
    injection this with this
    exact this.symm


theorem firstTail_some {ls : List Link} {t : Bytes} (ht : t.length ≤ 16) {l : Link} (h : firstTail ls t = some l) :
    ∃ a b, ls = a ++ l :: b ∧ t <:+ l.tag ∧ ∀ x ∈ a, ¬ t <:+ x.tag := by
  unfold firstTail at h
  rw [if_neg (by omega)] at h
  obtain ⟨h1, a, b, h2, h3⟩ := List.find?_eq_some_iff_append.1 h
  refine ⟨a, b, h2, of_decide_eq_true h1, fun x hx hs => ?_⟩
  have := h3 x hx
  simp [hs] at this

/-- **C64**: the encrypted key of a local name: the first line of the claim, or else of the packet its first `enckey` link points to. -/
theorem enckey_of_iff_partial (hn : Name.ofComps comps = .ok n) (hl : IsLocal comps) (h1 : 1 < now) (h2 : now < 2 ^ 64)
    (hc : Consistent db) (hw : AllShow db) (hff : NoOnesKey db) (pk line : Bytes) :
    lookupEnckey C nh utf8 db iter now n = .ok (some (pk, line)) ↔
      pubkeyOf line = .ok pk ∧ ∃ e c lc, LeadAt db (List.replicate 32 0) (List.replicate 13 0 ++ ascii "lns") (claimsOf comps) none now (some e) ∧
        e.2.parts = c.parts ∧ c.Valid ∧ IsClaim c comps lc ∧ EnckeyOf (fun l => utf8 l = true ∧ ∃ k, pubkeyOf l = .ok k) db e.2 line := by
  have hread : ∀ d l, (FirstLine d l ∧ utf8 l = true ∧ ∃ k, pubkeyOf l = .ok k) ↔ ∃ k, readEnckey utf8 d = some (k, l) := by
    intro d l
    constructor
    · rintro ⟨a, b, k, hk⟩
      exact ⟨k, (read_enckey_iff _ _ _ _).2 ⟨a, b, hk⟩⟩
    · rintro ⟨k, hk⟩
      obtain ⟨a, b, c⟩ := (read_enckey_iff _ _ _ _).1 hk
      exact ⟨a, b, k, c⟩
  have ht : enckeyTag.length ≤ 16 := by decide
  unfold lookupEnckey EnckeyOf
  simp only [hread]
  constructor
  · intro h
    cases hx : lookupClaim C nh db iter now n with
    | error e => rw [hx] at h; cases h
    | ok r =>
      rw [hx] at h
      cases r with
      | none => cases h
      | some cl =>
        obtain ⟨e, c, lc, b0, b1, b2, b3, rfl⟩ := (local_found_iff_partial C nh iter hn hl h1 h2 hc hw hff cl).1 hx
        simp only [Claim.enckey] at h
        cases hr : readEnckey utf8 e.2.data with
        | some ps =>
          rw [hr] at h
          cases h
          exact ⟨((read_enckey_iff _ _ _ _).1 hr).2.2, e, c, lc, b0, b1, b2, b3, .inl ⟨pk, hr⟩⟩
        | none =>
          rw [hr] at h
          simp only at h
          cases hf : firstTail e.2.getLinks enckeyTag with
          | none => rw [hf] at h; cases h
          | some l =>
            rw [hf] at h
            simp only at h
            cases hd : db.read l.ptr with
            | none => rw [hd] at h; cases h
            | some x =>
              obtain ⟨i, q⟩ := x
              rw [hd] at h
              simp only at h
              obtain ⟨q1, q2⟩ := (read_hash_iff hc _ _ _).1 hd
              cases hr2 : readEnckey utf8 q.data with
              | none => rw [hr2] at h; cases h
              | some ps =>
                rw [hr2] at h
                cases h
                obtain ⟨a, b, f1, f2, f3⟩ := firstTail_some ht hf
                refine ⟨((read_enckey_iff _ _ _ _).1 hr2).2.2, e, c, lc, b0, b1, b2, b3, .inr ⟨?_, a, l, b, f1, f2, f3, (i, q), q1, q2, pk, hr2⟩⟩
                rintro ⟨l', k, hk⟩
                rw [hr] at hk; cases hk
  · rintro ⟨hp, e, c, lc, b0, b1, b2, b3, hor⟩
    have hx := (local_found_iff_partial C nh iter hn hl h1 h2 hc hw hff ⟨e.2, n⟩).2 ⟨e, c, lc, b0, b1, b2, b3, rfl⟩
    rw [hx]
    simp only [Claim.enckey]
    have same : ∀ d k, readEnckey utf8 d = some (k, line) → readEnckey utf8 d = some (pk, line) := by
      intro d k hk
      have := ((read_enckey_iff _ _ _ _).1 hk).2.2
      rw [hp] at this
      injection this with this
      rw [this]; exact hk
    rcases hor with ⟨k, hk⟩ | ⟨hno, a, l, b, f1, f2, f3, x, q1, q2, k, hk⟩
    · simp only [same _ _ hk]
    · have hr : readEnckey utf8 e.2.data = none := by
        cases hr : readEnckey utf8 e.2.data with
        | none => rfl
        | some ps => exact absurd ⟨ps.2, ps.1, hr⟩ hno
      have hf : firstTail e.2.getLinks enckeyTag = some l := by
        unfold firstTail
        rw [if_neg (by decide)]
        refine List.find?_eq_some_iff_append.2 ⟨decide_eq_true f2, a, b, f1, fun x hx => ?_⟩
        rw [Bool.not_eq_true', decide_eq_false_iff_not]
        exact f3 x hx
      obtain ⟨i, q⟩ := x
      have hd := (read_hash_iff hc l.ptr i q).2 ⟨q1, q2⟩
      rw [hr]
      simp only [hf, hd, same _ _ hk]

/-- **C64**: a key is created: for a name of at most two components that has no claim, if the writes succeed, the clock does not show the stamp of the
last packet and is not near its end, and the index of the key is not full. -/
theorem lk_key_creates_partial (L : Ident.Laws A) (hC : C.Laws) (hn : Name.ofComps comps = .ok n) (hl : IsLocal comps) (hlen : comps.length ≤ 2)
    (h1 : 1 < now) (h2 : now + 2 < 2 ^ 64) (hc : Consistent db) (hw : AllShow db) (hff : NoOnesKey db)
    (hfresh : ∀ e ∈ db.log, ¬ MadeAt (List.replicate 32 0) (List.replicate 13 0 ++ ascii "lns") (claimsOf comps) none now e.2)
    (hidx : ∀ e ∈ db.log, MadeAt (List.replicate 32 0) (List.replicate 13 0 ++ ascii "lns") [ascii "by-tag", ascii "pubkey@", A.pubkey gen] none now e.2 →
      e.2.getLinks.length ≤ 1000)
    (hio : ∀ i, io i = .ok) (hclock : ∀ e ∈ db.log, e.1 ≠ now ∧ e.1 + 3 < 2 ^ 64)
    (hd : ∀ c, (pw = [] → c = ⟨8, 1, 1⟩) → (pw ≠ [] → c = ⟨131072, 4, 4⟩) → (A.argon c pw (A.pubkey gen)).isSome = true) :
    ∃ db', lkKey A C nh utf8 db iter io now n pw true gen = (db', .ok gen) := by
  obtain ⟨s, hs, -, hp⟩ := lk_key_roundtrip L gen pw hd
  have hlk := (local_none_iff_partial C nh iter hn hl h1 (by omega) hc hw hff).2 hfresh
  have hne : lookupEnckey C nh utf8 db iter now n = .ok none := by unfold lookupEnckey; rw [hlk]
  obtain ⟨c, hc1, hc2⟩ := lkKeyEncrypt_used hs
  obtain ⟨body, hb, he, -⟩ := encrypt_form L (used_ok hc1) hc2
  have hsz : s.length ≤ 64000 := by
    rw [he, enckeyText_length c (L.pub_len gen) hb]
    have := used_digits hc1
    omega
  obtain ⟨db', hset⟩ := setup_succeeds_partial (C := C) (nh := nh) (iter := iter) (ow := false) hC hn hl hlen (L.pub_len gen) hsz h1 h2 hc hw hff hfresh hidx hio hclock
  refine ⟨db', ?_⟩
  unfold lkKey setupNamed
  simp only [hne, hs, hp, hset]
  rfl

/-- **C64**: the command line opens the same key. -/
theorem identity_same : identity A C nh utf8 db iter now n none pw = (lkKey A C nh utf8 db iter io now n pw false gen).2 := by
  unfold identity lkKey
  cases lookupEnckey C nh utf8 db iter now n with
  | error e => rfl
  | ok r => cases r <;> rfl

/-- **C64**: a given text is opened with the password. -/
theorem identity_given (s : Bytes) (k : A.Key) : identity A C nh utf8 db iter now n (some s) pw = .ok k ↔ decrypt A s pw = .ok k := by
  unfold identity tryDecrypt
  simp only
  cases decrypt A s pw with
  | error e => exact ⟨nofun, nofun⟩
  | ok j => exact ⟨fun h => by cases h; rfl, fun h => by cases h; rfl⟩

/-- **C64**: a claim whose key is elsewhere, at a stored packet that is not a good key: nothing is created in its place. -/
theorem bad_link_fails {cl : Claim} (hx : lookupClaim C nh db iter now n = .ok (some cl)) (hc : Consistent db)
    (hno : ¬ ∃ l, FirstLine cl.pkt.data l ∧ utf8 l = true ∧ ∃ k, pubkeyOf l = .ok k) {a b : List Link} {l : Link} (hls : cl.pkt.getLinks = a ++ l :: b)
    (hl : ascii "enckey" <:+ l.tag) (ha : ∀ x ∈ a, ¬ ascii "enckey" <:+ x.tag) {e : Nat × NetParts} (he : e ∈ db.log) (hh : e.2.hash = l.ptr)
    (hbad : ¬ ∃ l, FirstLine e.2.data l ∧ utf8 l = true ∧ ∃ k, pubkeyOf l = .ok k) :
    lkKey A C nh utf8 db iter io now n pw create gen = (db, .error .err) := by
  have hread : ∀ d, (¬ ∃ l, FirstLine d l ∧ utf8 l = true ∧ ∃ k, pubkeyOf l = .ok k) → readEnckey utf8 d = none := by
    intro d hd
    cases hr : readEnckey utf8 d with
    | none => rfl
    | some ps =>
      obtain ⟨h1, h2, h3⟩ := (read_enckey_iff _ _ ps.1 ps.2).1 hr
      exact absurd ⟨ps.2, h1, h2, ps.1, h3⟩ hd
  have hf : firstTail cl.pkt.getLinks enckeyTag = some l := by
    unfold firstTail
    rw [if_neg (by decide)]
    refine List.find?_eq_some_iff_append.2 ⟨decide_eq_true hl, a, b, hls, fun x hx => ?_⟩
    rw [Bool.not_eq_true', decide_eq_false_iff_not]
    exact ha x hx
  obtain ⟨i, q⟩ := e
  have hd := (read_hash_iff hc l.ptr i q).2 ⟨he, hh⟩
  have : lookupEnckey C nh utf8 db iter now n = .error .err := by
    unfold lookupEnckey
    rw [hx]
    simp only [Claim.enckey, hread _ hno, hf, hd, hread _ hbad]
  unfold lkKey
  rw [this]

end

end Verif.Props
