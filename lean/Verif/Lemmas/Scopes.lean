import Verif.Lemmas.Eval
import Verif.Props.Space
/-!
# Lemmas about the encoders of `core_scope` and about spaces as text
-/
namespace Verif.Eval
open Verif Verif.Ast Verif.Abl Verif.Abe Verif.Abtxt Verif.Num Verif.Fit Verif.Spec Verif.Props

/-- The functions that the text of a space relies on. -/
structure HasText (sc : Scope) : Prop where
  b : ∀ top x, sc.func top (ascii "b") [x] true = .ofOption (base64Decode x)
  a : ∀ top x, sc.func top (ascii "a") [x] true = .ofOption (pad [x] true 0 true false)
  a2 : ∀ top x y, sc.func top (ascii "a") [x, y] true = .ofOption (pad [x, y] true 0 true false)
  f : ∀ top x, sc.func top (ascii "f") [x] true = .ofOption (pad [x] true 255 true false)

theorem bytes_has_a (u : Bytes → Bytes) (top : Top) (l : List Bytes) (h : 1 ≤ l.length ∧ l.length ≤ 3) :
    tableFunc (bytesFns u) top (ascii "a") l true = .ofOption (pad l true 0 true false) := by
  have : (bytesFns u).find? (fun f => f.id == ascii "a") =
      some { id := ascii "a", lo := 1, hi := 3, apply := fnAll fun i => pad i true 0 true false, toAbe := some encodeA } := rfl
  rw [tableFunc, this]
  simp [h, fnAll]
theorem bytes_has_f (u : Bytes → Bytes) (top : Top) (l : List Bytes) (h : 1 ≤ l.length ∧ l.length ≤ 3) :
    tableFunc (bytesFns u) top (ascii "f") l true = .ofOption (pad l true 255 true false) := by
  have : (bytesFns u).find? (fun f => f.id == ascii "f") =
      some { id := ascii "f", lo := 1, hi := 3, apply := fnAll fun i => pad i true 255 true false } := rfl
  rw [tableFunc, this]
  simp [h, fnAll]

/-- A one-argument function found in a table. -/
theorem tableFunc_one {fns : List Fn} {id : Bytes} {f : Bytes → Option Bytes} {e} (top : Top) (x : Bytes)
    (h : fns.find? (fun g => g.id == id) = some { id := id, lo := 1, hi := 1, apply := fn1 f, toAbe := e }) :
    tableFunc fns top id [x] true = .ofOption (f x) := by
  rw [tableFunc, h]
  simp [fn1]

theorem basic_hasText (p : Params) : HasText (basicScope p) := by
  refine ⟨fun top x => ?_, fun top x => ?_, fun top x y => ?_, fun top x => ?_⟩
  · have h : tableFunc baseFns top (ascii "b") [x] true = .ofOption (base64Decode x) := tableFunc_one top x rfl
    show AR.orElse (AR.orElse (AR.orElse .noValue fun _ => .noValue) fun _ => tableFunc baseFns top (ascii "b") [x] true) _ = _
    rw [h]; simp
  · show AR.orElse (AR.orElse (AR.orElse (tableFunc (bytesFns p.utf8) top (ascii "a") [x] true) _) _) _ = _
    rw [bytes_has_a _ _ _ (by simp)]; simp
  · show AR.orElse (AR.orElse (AR.orElse (tableFunc (bytesFns p.utf8) top (ascii "a") [x, y] true) _) _) _ = _
    rw [bytes_has_a _ _ _ (by simp)]; simp
  · show AR.orElse (AR.orElse (AR.orElse (tableFunc (bytesFns p.utf8) top (ascii "f") [x] true) _) _) _ = _
    rw [bytes_has_f _ _ _ (by simp)]; simp

theorem core_func (p : Params) (top : Top) (id : Bytes) (args : List Bytes) (init : Bool) :
    (coreScope p).func top id args init = (((basicScope p).func top id args init).orElse fun _ =>
      tableFunc (lnsFns p) top id args init).orElse fun _ => (tableFunc (stampFns p) top id args init).orElse fun _ =>
        tableFunc spaceFns top id args init := rfl

theorem core_hasText (p : Params) : HasText (coreScope p) := by
  have h := basic_hasText p
  refine ⟨fun top x => ?_, fun top x => ?_, fun top x y => ?_, fun top x => ?_⟩ <;> rw [core_func]
  · rw [h.b]; simp
  · rw [h.a]; simp
  · rw [h.a2]; simp
  · rw [h.f]; simp

theorem core_uint (p : Params) (top : Top) (x : Bytes) :
    (coreScope p).func top (ascii "u8") [x] true = .ofOption (parseUint 1 x) ∧
    (coreScope p).func top (ascii "u16") [x] true = .ofOption (parseUint 2 x) ∧
    (coreScope p).func top (ascii "u32") [x] true = .ofOption (parseUint 4 x) ∧
    (coreScope p).func top (ascii "u64") [x] true = .ofOption (parseUint 8 x) ∧
    (coreScope p).func top (ascii "u128") [x] true = .ofOption (parseUint 16 x) := by
  have h : ∀ id r, tableFunc (bytesFns p.utf8) top id [x] true = .noValue → tableFunc uintFns top id [x] true = .ofOption r →
      (coreScope p).func top id [x] true = .ofOption r := by
    intro id r h1 h2
    show AR.orElse (AR.orElse (AR.orElse (AR.orElse (AR.orElse (tableFunc (bytesFns p.utf8) top id [x] true) fun _ => 
      tableFunc uintFns top id [x] true) _) _) _) _ = _
    rw [h1, h2]; simp
  exact ⟨h _ _ rfl (tableFunc_one top x rfl), h _ _ rfl (tableFunc_one top x rfl), h _ _ rfl (tableFunc_one top x rfl),
    h _ _ rfl (tableFunc_one top x rfl), h _ _ rfl (tableFunc_one top x rfl)⟩

theorem core_base (p : Params) (top : Top) (x : Bytes) :
    (coreScope p).func top (ascii "b2") [x] true = .ofOption (bin 2 x) ∧
    (coreScope p).func top (ascii "b16") [x] true = .ofOption (bin 16 x) ∧
    (coreScope p).func top (ascii "bs") [x] true = .ofOption (base64StdDecode x) := by
  have h : ∀ id r, tableFunc (bytesFns p.utf8) top id [x] true = .noValue → tableFunc uintFns top id [x] true = .noValue →
      tableFunc baseFns top id [x] true = .ofOption r → (coreScope p).func top id [x] true = .ofOption r := by
    intro id r h1 h2 h3
    show AR.orElse (AR.orElse (AR.orElse (AR.orElse (AR.orElse (tableFunc (bytesFns p.utf8) top id [x] true) fun _ => 
      tableFunc uintFns top id [x] true) fun _ => tableFunc baseFns top id [x] true) _) _) _ = _
    rw [h1, h2, h3]; simp
  exact ⟨h _ _ rfl rfl (tableFunc_one top x rfl), h _ _ rfl rfl (tableFunc_one top x rfl), h _ _ rfl rfl (tableFunc_one top x rfl)⟩

theorem core_lns (p : Params) (top : Top) :
    (coreScope p).func top (ascii "#") [ascii "0"] true = .value zeros32 ∧
    (coreScope p).func top (ascii "#") [ascii "pub"] true = .value p.publicGrp ∧
    (coreScope p).func top (ascii "#") [ascii "test"] true = .value p.testGrp ∧
    (coreScope p).func top (ascii "@") [ascii "none"] true = .value zeros32 := ⟨rfl, rfl, rfl, rfl⟩

theorem core_mac (p : Params) (top : Top) (abe : List ABE) :
    (coreScope p).mac top [] abe = ((top.eval abe).bind spaceOfAblist).toAR := rfl

/-! ### Round trips of the encoders -/

theorem pad_a16 (c : Bytes) (h : c.length = 16) : pad [cutPrefixNulls c] true 0 true false = some c := by
  rw [pad_default_length, ← h]
  exact cut_fit_back 0 c
theorem pad_f16 (c : Bytes) (h : c.length = 16) : pad [cutPrefixEq 255 c] true 255 true false = some c := by
  rw [pad_default_length, ← h]
  exact cut_fit_back 255 c
theorem pad_a (c : Bytes) (h : c.length < 2 ^ 64) : pad [cutPrefixNulls c, dec c.length] true 0 true false = some c := by
  rw [(lpad_iff _ _ 0 0 h c).2]
  exact cut_fit_back 0 c

theorem asc_a : ascii "a" ≠ [] ∧ ∀ c ∈ ascii "a", Self c := by decide +kernel
theorem asc_f : ascii "f" ≠ [] ∧ ∀ c ∈ ascii "f", Self c := by decide +kernel
theorem asc_b : ascii "b" ≠ [] ∧ ∀ c ∈ ascii "b", Self c := by decide +kernel

theorem encodeA_evals (dbg : Bool) (sc : Scope) (ht : HasText sc) (n : Nat) (b : Bytes) (opts : List ABE) (st : Bytes)
    (hl : b.length < 2 ^ 64) (h : encodeA b opts = .value st) : EvalsTo dbg sc (n + 1) st b := by
  unfold encodeA at h
  cases h
  split
  · rename_i h16
    exact evalsTo_bracket dbg sc n asc_a.1 asc_a.2 (spells_abtxt _) (by rw [ht.a, pad_a16 b h16]; rfl)
  · exact evalsTo_bracket2 dbg sc n asc_a.1 asc_a.2 (spells_abtxt _) (spells_self _ (dec_self _)) (by rw [ht.a2, pad_a b hl]; rfl)

theorem idEnc_value {id : Bytes} {f : Bytes → Option Bytes} {b : Bytes} {opts : List ABE} {st : Bytes}
    (h : idEnc id f b opts = .value st) : ∃ t, f b = some t ∧ st = bracket id t := by
  unfold idEnc at h
  split at h
  · cases h
  · rename_i t ht; cases h; exact ⟨t, ht, rfl⟩

theorem uintEnc_evals (dbg : Bool) (sc : Scope) (n : Nat) {id : Bytes} (hid : id ≠ [] ∧ ∀ c ∈ id, Self c) (k : Nat)
    (hf : ∀ top x, sc.func top id [x] true = .ofOption (parseUint k x)) (b : Bytes) (opts : List ABE) (st : Bytes)
    (h : idEnc id (encUint k) b opts = .value st) : EvalsTo dbg sc (n + 1) st b := by
  obtain ⟨t, h1, rfl⟩ := idEnc_value h
  unfold encUint at h1
  split at h1
  · rename_i hl
    cases h1
    obtain ⟨s, hs, hp⟩ := uint_text_roundtrip k b hl
    rw [encUint, if_pos hl] at hs
    cases hs
    exact evalsTo_bracket dbg sc n hid.1 hid.2 (spells_self _ (dec_self _)) (by rw [hf, hp]; rfl)
  · cases h1

theorem encB_value {b : Bytes} {opts : List ABE} {st : Bytes} (h : encB b opts = .value st) :
    st = bracket (ascii "b") (base64 b) := by
  unfold encB at h
  split at h
  · cases h; rfl
  · rename_i hne
    clear hne
    fun_induction encBLoop b opts with
    | case1 => cases h
    | case2 => cases h
    | case3 => cases h; rfl
    | case4 _ _ _ _ _ ih => exact ih h
    | case5 _ _ _ ih => exact ih h

theorem b_evals (dbg : Bool) (sc : Scope) (ht : HasText sc) (n : Nat) (b : Bytes) :
    EvalsTo dbg sc (n + 1) (bracket (ascii "b") (base64 b)) b :=
  evalsTo_bracket dbg sc n asc_b.1 asc_b.2 (spells_self _ (urlSafe_self b)) (by rw [ht.b, b64_roundtrip]; rfl)

theorem escSlash_spells (s : Bytes) (h : ∀ c ∈ s, Self c ∨ c = 0x2f) : Spells (escSlash s) s := by
  induction s with
  | nil => exact .nil
  | cons c s ih =>
    have ih := ih fun d hd => h d (by simp [hd])
    rw [escSlash, List.flatMap_cons]
    by_cases hc : c = 0x2f
    · subst hc
      exact .cons (.esc '/' 0x2f (by decide)) ih
    · rw [if_neg hc]
      exact .cons (((h c (by simp)).resolve_right hc).spells) ih

theorem std_chars (b : Bytes) : ∀ c ∈ base64Std b, Self c ∨ c = 0x2f := by
  intro c hc
  rw [base64Std, List.mem_append] at hc
  rcases hc with hc | hc
  · rw [b64Enc_sext] at hc
    obtain ⟨d, hd, rfl⟩ := List.mem_map.1 hc
    have key : ∀ d : Fin 64, Self (standard.char d.1) ∨ standard.char d.1 = 0x2f := by decide +kernel
    exact key ⟨d, sext_lt b d hd⟩
  · rw [(List.mem_replicate.1 hc).2]
    exact .inl (by decide)

/-! ### Digits -/

theorem hex_digit (v : Nat) (h : v < 16) : digit 16 (hexUpper v) = some v := by
  have : ∀ n : Fin 16, digit 16 (hexUpper n.1) = some n.1 := by decide +kernel
  exact this ⟨v, h⟩

theorem digits_append (r acc : Nat) (s t : Bytes) : digits r acc (s ++ t) = (digits r acc s).bind fun a => digits r a t := by
  induction s generalizing acc with
  | nil => rfl
  | cons c s ih =>
    rw [List.cons_append, digits, digits]
    cases digit r c with
    | none => rfl
    | some d => exact ih _

theorem digits_byte (radix : Nat) (f : UInt8 → Bytes) (hf : ∀ acc x, digits radix acc (f x) = some (acc * 256 + x.toNat)) (b : Bytes)
    (acc : Nat) : digits radix acc (b.flatMap f) = some (acc * 256 ^ b.length + beNat b) := by
  induction b generalizing acc with
  | nil => simp [digits, beNat]
  | cons x b ih =>
    rw [List.flatMap_cons, digits_append, hf, Option.bind_some, ih, Verif.Abe.beNat_cons, List.length_cons, Nat.pow_succ,
      Nat.add_mul, Nat.mul_assoc, Nat.mul_comm 256, Nat.add_assoc]

theorem digits_hex (acc : Nat) (x : UInt8) :
    digits 16 acc [hexUpper (x.toNat / 16), hexUpper (x.toNat % 16)] = some (acc * 256 + x.toNat) := by
  have := x.toNat_lt
  rw [digits, hex_digit _ (by omega)]
  simp only
  rw [digits, hex_digit _ (by omega)]
  simp only [digits]
  congr 1
  omega

theorem digits_bits (acc : Nat) (x : UInt8) : digits 2 acc ((List.range 8).map fun i =>
    if x.toNat.testBit (7 - i) then 0x31 else 0x30) = some (acc * 256 + x.toNat) := by
  rw [digits_acc]
  have key : ∀ x : UInt8, (((List.range 8).map fun i => if x.toNat.testBit (7 - i) then (0x31 : UInt8) else 0x30).mapM (digit 2)) =
      some ((List.range 8).map fun i => if x.toNat.testBit (7 - i) then 1 else 0) ∧
      ofDigits 2 ((List.range 8).map fun i => if x.toNat.testBit (7 - i) then 1 else 0) = x.toNat := by
    apply Abtxt.all_u8
    decide +kernel
  exact ⟨_, (key x).1, by rw [(key x).2]; simp⟩

theorem digits_enc (radix : Nat) (h : radix = 2 ∨ radix = 16) (b : Bytes) : digits radix 0 (encDigits radix b) = some (beNat b) := by
  rcases h with rfl | rfl
  · rw [encDigits, if_pos rfl, digits_byte 2 _ digits_bits]; simp
  · rw [encDigits, if_neg (by decide), digits_byte 16 _ digits_hex]; simp

theorem encDigits_mem (radix : Nat) (b : Bytes) : ∀ c ∈ encDigits radix b, Self c ∧ c ≠ 0x2b := by
  intro c hc
  unfold encDigits at hc
  split at hc
  · obtain ⟨x, _, hc⟩ := List.mem_flatMap.1 hc
    obtain ⟨i, _, rfl⟩ := List.mem_map.1 hc
    split <;> decide
  · obtain ⟨x, _, hc⟩ := List.mem_flatMap.1 hc
    have key : ∀ n : Fin 16, Self (hexUpper n.1) ∧ hexUpper n.1 ≠ 0x2b := by decide +kernel
    have := x.toNat_lt
    simp at hc
    rcases hc with rfl | rfl
    · exact key ⟨x.toNat / 16, by omega⟩
    · exact key ⟨x.toNat % 16, by omega⟩

theorem encDigits_ne (radix : Nat) (b : Bytes) (h : b ≠ []) : encDigits radix b ≠ [] := by
  obtain ⟨x, xs, rfl⟩ := List.exists_cons_of_ne_nil h
  unfold encDigits
  split <;> simp [List.range_succ]

/-- The byte strings that `b2` and `b16` can give back: numbers without leading zero bytes that fit 128 bits. -/
def Numeral (b : Bytes) : Prop := b = [0] ∨ (b ≠ [] ∧ b.length ≤ 16 ∧ b.head? ≠ some 0)

theorem beNat_ne_zero (b : Bytes) (hb : b ≠ []) (hh : b.head? ≠ some 0) : beNat b ≠ 0 := by
  obtain ⟨x, xs, rfl⟩ := List.exists_cons_of_ne_nil hb
  rw [Verif.Abe.beNat_cons]
  simp at hh
  have : x.toNat ≠ 0 := fun h => hh (UInt8.toNat_inj.1 h)
  have h2 : 0 < x.toNat * 256 ^ xs.length := Nat.mul_pos (by omega) (Nat.pow_pos (by omega))
  omega

theorem stripPlus_of_not {s : Bytes} (h : ∀ c ∈ s, c ≠ 0x2b) : stripPlus s = s := by
  unfold stripPlus
  split
  · exact absurd rfl (h 0x2b (by simp))
  · rfl

theorem bin_enc (radix : Nat) (hr : radix = 2 ∨ radix = 16) (b : Bytes) : bin radix (encDigits radix b) = some b ↔ Numeral b := by
  have hs : stripPlus (encDigits radix b) = encDigits radix b := stripPlus_of_not fun c hc => (encDigits_mem radix b c hc).2
  unfold bin parseU
  rw [hs, digits_enc radix hr]
  by_cases hb : b = []
  · subst hb
    have : encDigits radix [] = [] := by unfold encDigits; split <;> rfl
    simp [this, Numeral]
  rw [if_neg (encDigits_ne radix b hb)]
  simp only
  by_cases hlt : beNat b < 2 ^ 128
  · rw [if_pos hlt, Option.map_some]
    have h16 : beNat b < 256 ^ 16 := by simpa using hlt
    by_cases h0 : beNat b = 0
    · rw [if_pos h0]
      unfold Numeral
      constructor
      · intro h; exact .inl (Option.some.inj h).symm
      · rintro (h | ⟨h1, h2, h3⟩)
        · rw [h]
        · exact absurd h0 (beNat_ne_zero b h1 h3)
    · rw [if_neg h0]
      have hne : b ≠ [0] := by rintro rfl; exact h0 rfl
      have hv : ∃ v, v = beBytes 16 (beNat b) := ⟨_, rfl⟩
      obtain ⟨v, hv⟩ := hv
      have hvl : v.length = 16 := by rw [hv, beBytes_length]
      have hvn : beNat v = beNat b := by rw [hv, beNat_beBytes]; exact h16
      rw [← hv]
      clear hv
      constructor
      · intro h
        refine .inr ⟨hb, ?_, ?_⟩
        · have h2 : (cutPrefixNulls v).length ≤ 16 := by
            have := (List.dropWhile_sublist (fun x : UInt8 => x == 0) (l := v)).length_le
            rw [hvl] at this
            exact this
          rw [Option.some.inj h] at h2
          exact h2
        · intro hh
          rw [← Option.some.inj h] at hh
          unfold cutPrefixNulls cutPrefixEq at hh
          have := List.head?_dropWhile_not (fun x : UInt8 => x == 0) v
          rw [hh] at this
          simp at this
      · rintro (h | ⟨_, h2, h3⟩)
        · exact absurd h hne
        · have e : fitBack 0 16 b = some v := by
            unfold fitBack
            rw [if_neg (by omega)]
            congr 1
            apply beNat_inj
            · simp [hvl]; omega
            · rw [replicate_beNat, hvn]
          rw [cutPrefixNulls, fit_back_restore 0 16 b _ e h3]
  · rw [if_neg hlt]
    constructor
    · intro h; cases h
    · rintro (h | ⟨h1, h2, h3⟩)
      · subst h; simp [beNat] at hlt
      · have := beNat_lt b
        have h4 : 256 ^ b.length ≤ 256 ^ 16 := Nat.pow_le_pow_right (by omega) h2
        have : (256 : Nat) ^ 16 = 2 ^ 128 := by decide
        omega

theorem encBin_value {id : Bytes} {radix : Nat} {b : Bytes} {opts : List ABE} {st : Bytes}
    (h : encBin id radix b opts = .value st) : st = bracket id (encDigits radix b) := by
  unfold encBin at h
  split at h
  · cases h
  · split at h
    · cases h
    · cases h; rfl

theorem encBin_evals (dbg : Bool) (sc : Scope) (n : Nat) {id : Bytes} (hid : id ≠ [] ∧ ∀ c ∈ id, Self c) (radix : Nat)
    (hr : radix = 2 ∨ radix = 16)
    (hf : ∀ top x, sc.func top id [x] true = .ofOption (bin radix x)) (b : Bytes) (hb : Numeral b) (opts : List ABE) (st : Bytes)
    (h : encBin id radix b opts = .value st) : EvalsTo dbg sc (n + 1) st b := by
  rw [encBin_value h]
  exact evalsTo_bracket dbg sc n hid.1 hid.2 (spells_self _ fun c hc => (encDigits_mem radix b c hc).1)
    (by rw [hf, (bin_enc radix hr b).2 hb]; rfl)

/-! ### Spaces as text -/

/-- The node of one component in the text of a space. -/
def segNode (c : Bytes) : ABE :=
  if c.length = 32 then .lst (toAbe (callList (ascii "b") [base64 c]))
  else if c.length = 16 then
    (if asAbtxt c = c then .bytes c
     else if c.headD 0 = 255 then .lst (toAbe (callList (ascii "f") [cutPrefixEq 255 c]))
     else .lst (toAbe (callList (ascii "a") [cutPrefixNulls c])))
  else .bytes c

theorem bracket_text {id : Bytes} (hid : id ≠ [] ∧ ∀ c ∈ id, Self c) {w x : Bytes} (hw : Spells w x) {r : Bytes} {t : List ABE}
    (hr : AbeText r t) : AbeText (bracket id w ++ r) (.lst (toAbe (callList id [x])) :: t) := by
  have := call_text hid.1 (spells_self id hid.2) (tail1 hw) hr
  simpa [bracket] using this

theorem fmtSegm_text (c : Bytes) (hc : c ≠ []) {r : Bytes} {t : List ABE} (hn : NoBytesHead t) (hr : AbeText r t) :
    AbeText (fmtSegm c ++ r) (.ctr .fslash :: segNode c :: t) := by
  unfold fmtSegm segNode
  rw [List.cons_append]
  apply AbeText.fslash
  split
  · exact bracket_text asc_b (spells_self _ (urlSafe_self c)) hr
  · split
    · rename_i h16
      split
      · rename_i he
        have := spells_abtxt c
        rw [he] at this
        exact .bytes this hc hn hr
      · unfold abToAbeStr
        by_cases h255 : c.headD 0 = 255
        · simp only [if_pos h255, if_pos h16]
          exact bracket_text asc_f (spells_abtxt _) hr
        · simp only [if_neg h255, if_pos h16]
          exact bracket_text asc_a (spells_abtxt _) hr
    · exact .bytes (spells_abtxt c) hc hn hr

def segNodes (cs : List Bytes) : List ABE := cs.flatMap fun c => [.ctr .fslash, segNode c]

theorem display_text (cs : List Bytes) (h : ∀ c ∈ cs, c ≠ []) :
    AbeText (displayComps cs) (segNodes cs) ∧ NoBytesHead (segNodes cs) := by
  induction cs with
  | nil => exact ⟨.nil, trivial⟩
  | cons c cs ih =>
    have ih := ih fun d hd => h d (by simp [hd])
    exact ⟨fmtSegm_text c (h c (by simp)) ih.2 ih.1, trivial⟩

theorem segNode_eval (sc : Scope) (ht : HasText sc) (top : Top) (c : Bytes) : matchExpr sc top (segNode c) = .ok (.bytes c) := by
  unfold segNode
  split
  · rw [match_callList sc top _ asc_b.1 _ (by simp), call_value sc top _ _ c (by rw [ht.b, b64_roundtrip]; rfl)]; rfl
  · split
    · rename_i h16
      split
      · rw [matchExpr]
      · split
        · rw [match_callList sc top _ asc_f.1 _ (by simp), call_value sc top _ _ c (by rw [ht.f, pad_f16 c h16]; rfl)]; rfl
        · rw [match_callList sc top _ asc_a.1 _ (by simp), call_value sc top _ _ c (by rw [ht.a, pad_a16 c h16]; rfl)]; rfl
    · rw [matchExpr]

def slashed (cs : List Bytes) : ABList := cs.map fun c => (some .fslash, c)

theorem segNodes_eval (sc : Scope) (ht : HasText sc) (top : Top) (cs : List Bytes) (h : ∀ c ∈ cs, c ≠ []) :
    evalItems sc top (segNodes cs) = .ok (items (slashed cs)) := by
  induction cs with
  | nil => rfl
  | cons c cs ih =>
    have ih := ih fun d hd => h d (by simp [hd])
    have h1 : segNodes (c :: cs) = .ctr .fslash :: segNode c :: segNodes cs := rfl
    rw [h1, evalItems, evalItems, ih, segNode_eval sc ht]
    obtain ⟨x, xs, rfl⟩ := List.exists_cons_of_ne_nil (h c (by simp))
    simp [matchExpr, ER.bind, ER.map, items, slashed]

theorem slashed_eval (dbg : Bool) (sc : Scope) (ht : HasText sc) (n : Nat) (cs : List Bytes) (h : ∀ c ∈ cs, c ≠ []) :
    eval dbg sc (n + 1) (segNodes cs) = .ok (slashed cs) := by
  rw [eval, segNodes_eval sc ht _ cs h]
  show ER.ok (fromItems (items (slashed cs))) = _
  rw [fromItems_items]
  · rw [dropLead_of_not]
    cases cs <;> simp [SilentHead, slashed]
  · intro e he
    have := List.mem_of_mem_tail he
    simp [slashed] at this
    obtain ⟨_, _, rfl⟩ := this
    simp

theorem ablComps_slashed (cs : List Bytes) (h : ∀ c ∈ cs, c ≠ []) : ablComps (slashed cs) = some cs := by
  induction cs with
  | nil => rfl
  | cons c cs ih =>
    have ih := ih fun d hd => h d (by simp [hd])
    obtain ⟨x, xs, rfl⟩ := List.exists_cons_of_ne_nil (h c (by simp))
    have : slashed ((x :: xs) :: cs) = (some .fslash, x :: xs) :: slashed cs := rfl
    rw [this, ablComps, ih]
    rfl

theorem spaceOf_slashed (cs : List Bytes) (h : ∀ c ∈ cs, c ≠ []) : spaceOfAblist (slashed cs) = ofSpace (Space.tryFromIter cs) := by
  cases cs with
  | nil =>
    have : Space.tryFromIter [] = .ok [] := (space_build_iff [] []).2 ⟨⟨by simp [ValidComps], rfl, by simp⟩, by simp⟩
    rw [this]; rfl
  | cons c cs =>
    have h1 : slashed (c :: cs) = (some .fslash, c) :: slashed cs := rfl
    have h2 := ablComps_slashed (c :: cs) h
    rw [h1] at h2
    rw [spaceOfAblist, h1]
    simp only [List.isEmpty_cons, Bool.false_eq_true, if_false, popSilent, asExactBytes, h2]

theorem checkPairs_segNodes (cs : List Bytes) : checkPairs (segNodes cs) = true := by
  induction cs with
  | nil => rfl
  | cons c cs ih =>
    have h1 : segNodes (c :: cs) = .ctr .fslash :: segNode c :: segNodes cs := rfl
    rw [h1]
    cases hs : segNode c with
    | ctr k => exfalso; unfold segNode at hs; split at hs <;> try split at hs <;> try split at hs <;> try split at hs
               all_goals cases hs
    | bytes b => rw [checkPairs]; exact ih
    | lst l => rw [checkPairs]; exact ih

theorem check_segNodes (cs : List Bytes) : checkSpaceExpr (segNodes cs) = true := by
  cases cs with
  | nil => rfl
  | cons c cs =>
    have h := checkPairs_segNodes (c :: cs)
    have h1 : segNodes (c :: cs) = .ctr .fslash :: segNode c :: segNodes cs := rfl
    rw [h1] at h ⊢
    exact h

end Verif.Eval
