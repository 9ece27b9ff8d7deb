import Verif.Spec.FfiRead
import Verif.Props.PyPkt
/-!
# C97: reading and writing packets in the bindings
-/
namespace Verif.Props
open Verif Verif.Pkt Verif.Spec Verif.Ffi
open Verif.Pred (PRes)

theorem ofBytes_take4 (b : Bytes) : PointHeader.ofBytes (b.take 4) = PointHeader.ofBytes b := by
  match b with
  | [] => rfl
  | [_] => rfl
  | [_, _] => rfl
  | [_, _, _] => rfl
  | a :: b :: c :: d :: r => rfl

/-- A result that is no complaint about missing bytes. -/
def NoNumber {α : Type} (r : Res α) : Prop := ∀ e, r = .error (.err e) → e ≠ .missingHeader ∧ ∀ n, e ≠ .missingBytes n

theorem nonum_ok {α : Type} (a : α) : NoNumber (.ok a : Res α) := fun _ h => nomatch h
theorem nonum_panic {α : Type} : NoNumber (.error .panic : Res α) := fun _ h => nomatch h
theorem nonum_as {α : Type} {r : Res α} (h : NoNumber r) : asJs r = jsText r := by
  match r, h with
  | .ok _, _ => rfl
  | .error .panic, _ => rfl
  | .error (.err e), h =>
    have h := h e rfl
    cases e
    all_goals first | rfl | exact absurd rfl h.1 | exact absurd rfl (h.2 _)

theorem nonum_header {h : PointHeader} {e : PktError} (he : h.check = .error e) : e ≠ .missingHeader ∧ ∀ n, e ≠ .missingBytes n := by
  unfold PointHeader.check at he
  simp only at he
  repeat' split at he
  all_goals first | (cases he; exact ⟨(fun h => nomatch h), (fun _ h => nomatch h)⟩) | cases he

theorem fixed_only_panics {pt : Bytes} {e : Fault PktError} (h : fixed pt = .error e) : e = .panic := by
  unfold fixed at h
  simp only at h
  repeat' split at h
  all_goals first | (cases h; rfl) | cases h
theorem tail_only_panics {dbg : Bool} {pt : Bytes} {e : Fault PktError} (h : uncheckedTail dbg pt = .error e) : e = .panic := by
  unfold uncheckedTail at h
  simp only at h
  repeat' split at h
  all_goals first | (cases h; rfl) | cases h

theorem nonum_consistent (dbg : Bool) (pt : Bytes) : NoNumber (internalConsistent dbg pt) := by
  intro e h
  unfold internalConsistent at h
  simp only at h
  split at h
  · rename_i e' hc
    cases h
    exact nonum_header hc
  split at h
  · rename_i e' hf
    cases h
    cases fixed_only_panics hf
  rename_i bare hf
  split at h
  · rename_i e' hp
    cases h
    split at hp
    any_goals cases hp
    repeat' split at hp
    all_goals first
      | (rename_i ht; cases hp; cases tail_only_panics ht; done)
      | (cases hp; exact ⟨(fun h => nomatch h), (fun _ h => nomatch h)⟩)
      | cases hp
  · repeat' split at h
    all_goals first | (cases h; exact ⟨(fun h => nomatch h), (fun _ h => nomatch h)⟩) | cases h

theorem nonum_signature (C : Crypto) (pt : Bytes) : NoNumber (checkSignature C pt) := by
  intro e h
  unfold checkSignature at h
  split at h
  · rename_i hf
    cases h
    cases fixed_only_panics hf
  · split at h
    · cases h
    · cases h; exact ⟨(fun h => nomatch h), (fun _ h => nomatch h)⟩
  · cases h

theorem nonum_check (C : Crypto) (dbg skip : Bool) (q : NetPkt) : NoNumber (q.check C dbg skip) := by
  intro e h
  unfold NetPkt.check at h
  split at h
  · rename_i hc
    cases h
    exact nonum_consistent dbg _ e hc
  split at h
  · cases h
  split at h
  · rename_i hc
    cases h
    exact nonum_signature C _ e hc
  split at h
  · cases h; exact ⟨(fun h => nomatch h), (fun _ h => nomatch h)⟩
  · cases h

theorem nonum_private (pt : Bytes) : NoNumber (checkPrivate pt) := by
  intro e h
  unfold checkPrivate linkpointHeader at h
  cases hf : fixed pt with
  | error e' =>
    rw [hf] at h
    cases h
    cases fixed_only_panics hf
  | ok b =>
    rw [hf] at h
    cases b <;> simp only at h
    all_goals repeat' split at h
    all_goals first | (cases h; exact ⟨(fun h => nomatch h), (fun _ h => nomatch h)⟩) | cases h

theorem jsSlice_head (b : Bytes) : jsSlice (jsSlice b 0 minNetpktSize) 64 68 = (b.drop 64).take 4 := by
  simp [jsSlice, minNetpktSize, List.take_take, List.take_drop]
theorem jsSlice_parts (b : Bytes) : jsSlice (jsSlice b 0 minNetpktSize) 0 32 = b.take 32 ∧ jsSlice (jsSlice b 0 minNetpktSize) 32 64 = (b.drop 32).take 32 := by
  simp [jsSlice, minNetpktSize, List.take_take, List.take_drop]

/-- **C97**: `lk_read` and `lk_read_unchecked` of JavaScript are the reader of the library on every buffer: the same packet and rest, a number for missing bytes, the
same other errors, and a panic where the library panics. -/
theorem js_read_same (C : Crypto) (dbg skip : Bool) (b : Bytes) (ap : Bool) : jsReadWith C dbg skip b ap = asJs (lkReadWith C dbg skip b ap) := by
  unfold jsReadWith lkReadWith readPkt
  simp only [jsSlice_head, jsSlice_parts, ofBytes_take4]
  by_cases h1 : b.length < minNetpktSize
  · rw [if_pos h1, if_pos h1]; rfl
  rw [if_neg h1, if_neg h1]
  generalize hh : PointHeader.ofBytes (b.drop 64) = h
  cases hc : h.check with
  | error e =>
    have := nonum_header hc
    exact (nonum_as (α := NetPkt × Bytes) (r := .error (.err e)) (fun _ he => by cases he; exact this)).symm
  | ok h' =>
    simp only
    by_cases h2 : h.size > b.length
    · rw [if_pos h2, if_pos h2]; rfl
    rw [if_neg h2, if_neg h2]
    unfold fromHeaderAndCopy
    rw [ofBytes_take4, hh]
    by_cases h3 : h.paddedSize < 4
    · rw [if_pos h3, if_pos h3]; rfl
    rw [if_neg h3, if_neg h3]
    have h4 : (b.drop 64).take 4 ++ jsSlice b 68 h.size = (b.drop 64).take h.paddedSize := by
      have e : jsSlice b 68 h.size = ((b.drop 64).take h.paddedSize).drop 4 := by
        simp only [jsSlice, PointHeader.size, List.take_drop, List.drop_drop]
        congr 2; omega
      rw [e]
      conv => rhs; rw [← List.take_append_drop 4 ((b.drop 64).take h.paddedSize)]
      rw [List.take_take, Nat.min_eq_left (by omega)]
    rw [h4]
    simp only
    have hck := nonum_check C dbg skip ⟨b.take 32, (b.drop 32).take 32, (b.drop 64).take h.paddedSize⟩
    generalize hq : (NetPkt.mk (b.take 32) ((b.drop 32).take 32) ((b.drop 64).take h.paddedSize)) = q at hck
    have hsz : q.size = h.size := by
      rw [← hq]
      simp only [NetPkt.size]
      have : PointHeader.ofBytes ((b.drop 64).take h.paddedSize) = h := by
        rw [← ofBytes_take4, List.take_take, Nat.min_eq_left (by omega), ofBytes_take4, hh]
      rw [this]
    cases hr : q.check C dbg skip with
    | error e =>
      rw [hr] at hck
      match e, hck with
      | .panic, _ => rfl
      | .err e, hck => exact (nonum_as (α := NetPkt × Bytes) (r := .error (.err e)) (fun _ he => by cases he; exact hck e rfl)).symm
    | ok u =>
      simp only [jsText]
      have hrest : jsSlice b h.size b.length = b.drop q.size := by simp [jsSlice, hsz]
      rw [hrest]
      cases ap with
      | true => rfl
      | false =>
        simp only [Bool.false_eq_true, if_false]
        have hp := nonum_private q.point
        match hpe : checkPrivate q.point, hp with
        | .ok (), _ => rfl
        | .error .panic, _ => rfl
        | .error (.err e), hp => exact (nonum_as (α := NetPkt × Bytes) (r := .error (.err e)) (fun _ he => by cases he; exact hp e rfl)).symm

theorem asJs_ok {α : Type} {r : Res α} {a : α} : asJs r = .ok a ↔ r = .ok a := by
  match r with
  | .ok b => exact ⟨fun h => by cases h; rfl, fun h => by cases h; rfl⟩
  | .error .panic => exact ⟨nofun, nofun⟩
  | .error (.err e) => cases e <;> exact ⟨nofun, nofun⟩

/-- **C97**: what `lk_read` of JavaScript accepts, and what it gives, told by contents: a correct packet at the start of the buffer, of a group that is not private
unless that is allowed. -/
theorem js_read_iff (C : Crypto) (dbg : Bool) (b rest : Bytes) (ap : Option Bool) (q : NetPkt) :
    jsRead C dbg b ap = .ok (q, rest) ↔ ∃ c, Holds C q c ∧ b = q.bytes ++ rest ∧ (ap = some true ∨ c.group? ≠ some zeroGroup) := by
  unfold jsRead
  rw [js_read_same, asJs_ok]
  have key : lkRead C dbg b true = .ok (q, rest) ↔ ∃ c, Holds C q c ∧ b = q.bytes ++ rest := by
    rw [read_iff]
    constructor
    · rintro ⟨c, hv, hs, hp, h1, h2, hh, hb⟩
      exact ⟨c, ⟨hv, hs, hp, h1, h2, hh⟩, hb⟩
    · rintro ⟨c, h, hb⟩
      exact ⟨c, h.valid, h.sealed, h.point, h.header, h.hash32, h.hash, hb⟩
  by_cases ha : ap = some true
  · subst ha
    show lkRead C dbg b true = _ ↔ _
    rw [key]
    exact ⟨fun ⟨c, h1, h2⟩ => ⟨c, h1, h2, .inl rfl⟩, fun ⟨c, h1, h2, _⟩ => ⟨c, h1, h2⟩⟩
  · have hd : ap.getD false = false := by
      cases ap with
      | none => rfl
      | some x => cases x with
        | false => rfl
        | true => exact absurd rfl ha
    rw [hd]
    show lkRead C dbg b false = _ ↔ _
    rw [read_private, key]
    constructor
    · rintro ⟨⟨c, h1, h2⟩, h3⟩
      exact ⟨c, h1, h2, .inr (h3 c h1.valid h1.point)⟩
    · rintro ⟨c, h1, h2, h3⟩
      refine ⟨⟨c, h1, h2⟩, fun d hd hp => ?_⟩
      have hcd := checkPrivate_layout h1.valid
      have hdd := checkPrivate_layout hd
      rw [← hp, h1.point, hcd] at hdd
      intro hz
      rw [if_pos hz, if_neg (h3.resolve_left ha)] at hdd
      cases hdd

/-- **C97**: `lk_read_unchecked` of JavaScript accepts the same layouts with any hash and any signature. -/
theorem js_unchecked_iff (C : Crypto) (dbg : Bool) (b : Bytes) (q : NetPkt) (rest : Bytes) :
    jsReadUnchecked C dbg b (some true) = .ok (q, rest) ↔
      ∃ c : Content, c.Valid ∧ q.point = c.layout ∧ q.netHeader.length = 32 ∧ q.hash.length = 32 ∧ b = q.bytes ++ rest := by
  unfold jsReadUnchecked
  rw [js_read_same, asJs_ok]
  show lkReadWith C dbg true b true = _ ↔ _
  unfold lkReadWith
  constructor
  · intro h
    split at h
    · cases h
    rename_i p hp
    obtain ⟨c, rest', hv, e, h1, h2, hb, _⟩ := (readPkt_ok_iff C dbg true b p).1 hp
    simp only [if_true] at h
    cases h
    refine ⟨c, hv, e, h1, h2, ?_⟩
    have hsz : q.size = q.bytes.length := by
      have hl := layout_length hv
      rw [NetPkt.size, e, ofBytes_layout hv, PointHeader.size, paddedSize_eq]
      simp [NetPkt.bytes, e, h1, h2, hl]; omega
    rw [hsz, hb]
    simp [NetPkt.bytes]
  · rintro ⟨c, hv, e, h1, h2, hb⟩
    have hp := (readPkt_ok_iff C dbg true b q).2 ⟨c, rest, hv, e, h1, h2, hb, nofun⟩
    rw [hp]
    have hsz : q.size = q.bytes.length := by
      have hl := layout_length hv
      rw [NetPkt.size, e, ofBytes_layout hv, PointHeader.size, paddedSize_eq]
      simp [NetPkt.bytes, e, h1, h2, hl]; omega
    simp only [if_true]
    rw [hsz, hb]
    simp

/-! ### numbers -/

/-- The reader does not look behind the bytes it has found to be enough. -/
theorem js_more (C : Crypto) (dbg skip : Bool) (b ext : Bytes) (ap : Bool) {e : Fault JsReadErr} (h : jsReadWith C dbg skip b ap = .error e)
    (hn : ∀ n, e ≠ .err (.number n)) : jsReadWith C dbg skip (b ++ ext) ap = .error e := by
  unfold jsReadWith at h ⊢
  simp only [jsSlice_head, jsSlice_parts, ofBytes_take4] at h ⊢
  by_cases h1 : b.length < minNetpktSize
  · rw [if_pos h1] at h
    cases h
    exact absurd rfl (hn _)
  rw [if_neg h1] at h
  rw [if_neg (by simp; omega)]
  have h68 : 68 ≤ b.length := by simpa [minNetpktSize] using h1
  have e1 : ((b ++ ext).drop 64).take 4 = (b.drop 64).take 4 := by
    rw [List.drop_append_of_le_length (by omega), List.take_append_of_le_length (by simp; omega)]
  have e2 : PointHeader.ofBytes ((b ++ ext).drop 64) = PointHeader.ofBytes (b.drop 64) := by rw [← ofBytes_take4, e1, ofBytes_take4]
  have e3 : (b ++ ext).take 32 = b.take 32 := List.take_append_of_le_length (by omega)
  have e4 : ((b ++ ext).drop 32).take 32 = (b.drop 32).take 32 := by
    rw [List.drop_append_of_le_length (by omega), List.take_append_of_le_length (by simp; omega)]
  rw [e1, e2, e3, e4]
  generalize PointHeader.ofBytes (b.drop 64) = h' at h
  cases hc : h'.check with
  | error e' => rw [hc] at h; exact h
  | ok _ =>
    rw [hc] at h
    simp only at h ⊢
    by_cases h2 : h'.size > b.length
    · rw [if_pos h2] at h
      cases h
      exact absurd rfl (hn _)
    rw [if_neg h2] at h
    rw [if_neg (by simp; omega)]
    have e5 : jsSlice (b ++ ext) 68 h'.size = jsSlice b 68 h'.size := by
      unfold jsSlice
      rw [List.take_append_of_le_length (by omega)]
    rw [e5]
    split at h
    · exact h
    · split at h
      · exact h
      · cases h

theorem jsText_number {α : Type} {r : Res α} {n : Nat} : jsText r ≠ .error (.err (.number n)) := by
  match r with
  | .ok _ => exact nofun
  | .error .panic => exact nofun
  | .error (.err _) => exact nofun
theorem header_size {h x : PointHeader} (hc : h.check = .ok x) : h.size ≤ 65088 := by
  unfold PointHeader.check at hc
  simp only at hc
  split at hc
  · cases hc
  split at hc
  · cases hc
  rename_i h1
  simp only [PointHeader.contentSize, maxContentSize, maxPointSize] at h1
  simp only [PointHeader.size, PointHeader.paddedSize]
  omega
theorem js_number_inv (C : Crypto) (dbg skip : Bool) (b : Bytes) (ap : Bool) {n : Nat} (h : jsReadWith C dbg skip b ap = .error (.err (.number n))) :
    (b.length < 68 ∧ n = 68) ∨ (68 ≤ b.length ∧ (∃ x, (PointHeader.ofBytes (b.drop 64)).check = .ok x) ∧ b.length < (PointHeader.ofBytes (b.drop 64)).size ∧
      n = (PointHeader.ofBytes (b.drop 64)).size) := by
  unfold jsReadWith at h
  simp only [jsSlice_head, jsSlice_parts, ofBytes_take4] at h
  by_cases h1 : b.length < minNetpktSize
  · rw [if_pos h1] at h
    cases h
    exact .inl ⟨h1, rfl⟩
  rw [if_neg h1] at h
  cases hc : (PointHeader.ofBytes (b.drop 64)).check with
  | error e => rw [hc] at h; cases h
  | ok x =>
    rw [hc] at h
    simp only at h
    by_cases h2 : (PointHeader.ofBytes (b.drop 64)).size > b.length
    · rw [if_pos h2] at h
      cases h
      exact .inr ⟨by simpa [minNetpktSize] using h1, ⟨x, rfl⟩, h2, rfl⟩
    rw [if_neg h2] at h
    split at h
    · rename_i he; cases h; exact absurd he jsText_number
    · split at h
      · rename_i he; cases h; exact absurd he jsText_number
      · cases h
theorem js_ok_inv (C : Crypto) (dbg skip : Bool) (b : Bytes) (ap : Bool) {r : NetPkt × Bytes} (h : jsReadWith C dbg skip b ap = .ok r) :
    68 ≤ b.length ∧ (PointHeader.ofBytes (b.drop 64)).size ≤ b.length := by
  unfold jsReadWith at h
  simp only [jsSlice_head, jsSlice_parts, ofBytes_take4] at h
  by_cases h1 : b.length < minNetpktSize
  · rw [if_pos h1] at h
    cases h
  rw [if_neg h1] at h
  cases hc : (PointHeader.ofBytes (b.drop 64)).check with
  | error e => rw [hc] at h; cases h
  | ok x =>
    rw [hc] at h
    simp only at h
    by_cases h2 : (PointHeader.ofBytes (b.drop 64)).size > b.length
    · rw [if_pos h2] at h
      cases h
    · exact ⟨by simpa [minNetpktSize] using h1, by omega⟩

/-- **C97**: if the error is a number, that many bytes are needed, and it is more than there are. A buffer that goes on from there and is accepted has them. -/
theorem js_number (C : Crypto) (dbg skip : Bool) (b : Bytes) (ap : Bool) {n : Nat} (h : jsReadWith C dbg skip b ap = .error (.err (.number n))) :
    b.length < n ∧ n ≤ 65088 ∧ ∀ ext r, jsReadWith C dbg skip (b ++ ext) ap = .ok r → n ≤ (b ++ ext).length := by
  rcases js_number_inv C dbg skip b ap h with ⟨h1, rfl⟩ | ⟨h1, h2, h3, rfl⟩
  · exact ⟨h1, by decide, fun ext r hr => (js_ok_inv C dbg skip _ ap hr).1⟩
  · refine ⟨h3, ?_, fun ext r hr => ?_⟩
    · obtain ⟨x, hx⟩ := h2
      have := header_size hx
      omega
    · have h4 := (js_ok_inv C dbg skip _ ap hr).2
      have e1 : ((b ++ ext).drop 64).take 4 = (b.drop 64).take 4 := by
        rw [List.drop_append_of_le_length (by omega), List.take_append_of_le_length (by simp; omega)]
      rwa [← ofBytes_take4, e1, ofBytes_take4] at h4

/-- **C97**: if it is anything else, no buffer that goes on from there is accepted. -/
theorem js_final (C : Crypto) (dbg skip : Bool) (b : Bytes) (ap : Bool) {e : Fault JsReadErr} (h : jsReadWith C dbg skip b ap = .error e)
    (hn : ∀ n, e ≠ .err (.number n)) (ext : Bytes) (r : NetPkt × Bytes) : jsReadWith C dbg skip (b ++ ext) ap ≠ .ok r := by
  rw [js_more C dbg skip b ext ap h hn]
  exact nofun

/-- **C97**: reading a packet as its bytes arrive: with fewer than 68 bytes 68 are asked for, then as many as the packet has, then it is there. -/
theorem js_stream {C : Crypto} (dbg : Bool) {q : NetPkt} {c : Content} (h : Holds C q c) (hg : c.group? ≠ some zeroGroup) (rest : Bytes) (ap : Option Bool) (k : Nat) :
    jsRead C dbg ((q.bytes ++ rest).take k) ap =
      if k < 68 then .error (.err (.number 68))
      else if k < q.bytes.length then .error (.err (.number q.bytes.length))
      else .ok (q, rest.take (k - q.bytes.length)) := by
  have hl := layout_length h.valid
  have h4 := layout_four h.valid
  have hlen : q.bytes.length = 64 + c.layout.length := by simp [NetPkt.bytes, h.header, h.hash32, h.point]; omega
  have h72 : 72 ≤ q.bytes.length := by
    have : padTo8 c.size = (8 - c.size % 8) % 8 := rfl
    omega
  by_cases h1 : k < q.bytes.length
  · have ht : (q.bytes ++ rest).take k = q.bytes.take k := List.take_append_of_le_length (by omega)
    rw [ht]
    unfold jsRead
    rw [js_read_same]
    show asJs (lkReadWith C dbg false _ _) = _
    unfold lkReadWith readPkt
    by_cases h2 : k < 68
    · rw [if_pos h2, if_pos (by simp [minNetpktSize]; omega)]
      rfl
    · rw [if_neg h2, if_pos h1, if_neg (by simp [minNetpktSize]; omega)]
      have ho : PointHeader.ofBytes ((q.bytes.take k).drop 64) = ⟨0, c.type, c.size⟩ := by
        rw [← ofBytes_layout h.valid, ← ofBytes_take4, ← ofBytes_take4 c.layout]
        congr 1
        have e : q.bytes = (q.netHeader ++ q.hash) ++ c.layout := by rw [NetPkt.bytes, h.point]
        rw [List.drop_take, List.take_take, Nat.min_eq_left (by omega), e,
          List.drop_append_of_le_length (by simp [h.header, h.hash32])]
        rw [List.drop_eq_nil_of_le (by simp [h.header, h.hash32])]
        rfl
      simp only [ho]
      have hsz : (PointHeader.mk 0 c.type c.size).size = q.bytes.length := by
        rw [PointHeader.size, paddedSize_eq]; omega
      rw [header_check h.valid]
      simp only
      rw [if_pos (by rw [hsz]; simp; omega), hsz]
      rfl
  · rw [if_neg (by omega), if_neg h1, js_read_iff]
    refine ⟨c, h, ?_, .inr hg⟩
    rw [List.take_append, List.take_of_length_le (by omega)]

/-! ### writing -/

/-- **C97**: `lk_write` of JavaScript gives the bytes of every packet that is not private, or of any if that is allowed, and refuses a private one with a text. -/
theorem js_write {C : Crypto} {q : NetPkt} {c : Content} (h : Holds C q c) (ap : Option Bool) :
    jsWrite q ap = if ap = some true ∨ c.group? ≠ some zeroGroup then .ok q.bytes else .error (.err (.text .privateGroup)) := by
  unfold jsWrite
  have hs := (holds_size h).1
  rw [h.point, checkPrivate_layout h.valid]
  by_cases ha : ap = some true
  · simp only [if_pos ha, if_pos hs, jsText, ha, true_or, if_true]
  · by_cases hg : c.group? = some zeroGroup
    · simp [ha, hg, jsText]
    · simp only [if_neg ha, if_neg hg, if_pos hs, jsText]
      rw [if_pos (Or.inr hg)]

/-- **C97**: what was written is read back, with whatever follows it left over. -/
theorem js_write_read {C : Crypto} (dbg : Bool) {q : NetPkt} {c : Content} (h : Holds C q c) (ap : Option Bool) {b : Bytes} (hw : jsWrite q ap = .ok b) (rest : Bytes) :
    jsRead C dbg (b ++ rest) ap = .ok (q, rest) := by
  rw [js_write h] at hw
  split at hw
  · rename_i ha
    cases hw
    exact (js_read_iff C dbg _ rest ap q).2 ⟨c, h, rfl, ha⟩
  · cases hw

/-- **C97**: `lk_read` of Python accepts what the library accepts; the packet then always becomes an object, with the header it came with. -/
theorem py_read_iff (C : Crypto) (dbg : Bool) (recv : Nat) (b rest : Bytes) (ap : Bool) (o : PyPkt) :
    pyRead C dbg recv b ap = .ok (o, rest) ↔ ∃ q, lkRead C dbg b ap = .ok (q, rest) ∧ o = PyPkt.new recv q := by
  have key : ∀ q r, lkRead C dbg b ap = .ok (q, r) → PyPkt.ofPtr C dbg recv q = .ok (PyPkt.new recv q) := by
    intro q r h
    have h' : lkRead C dbg b true = .ok (q, r) := by
      cases ap with
      | true => exact h
      | false => exact ((read_private C dbg b r q).1 h).1
    obtain ⟨c, hv, hs, hp, _, _, hh, _⟩ := (read_iff C dbg b r q).1 h'
    exact (object_of_bytes C dbg recv hv hp).1 ⟨hs, hh⟩
  unfold pyRead
  cases hr : lkRead C dbg b ap with
  | error e => cases e <;> exact ⟨nofun, fun ⟨_, h, _⟩ => nomatch h⟩
  | ok r =>
    obtain ⟨q, r⟩ := r
    simp only [forget, key q r hr]
    constructor
    · intro h; cases h; exact ⟨q, rfl, rfl⟩
    · rintro ⟨q', h, rfl⟩; cases h; rfl
/-- **C97**: and it raises exactly if the library gives an error. -/
theorem py_read_fault (C : Crypto) (dbg : Bool) (recv : Nat) (b : Bytes) (ap : Bool) :
    (pyRead C dbg recv b ap = .error (.err ()) ↔ ∃ e, lkRead C dbg b ap = .error (.err e)) ∧
    (pyRead C dbg recv b ap = .error .panic ↔ lkRead C dbg b ap = .error .panic) := by
  cases hr : lkRead C dbg b ap with
  | error e =>
    unfold pyRead
    rw [hr]
    cases e with
    | err e => exact ⟨⟨fun _ => ⟨e, rfl⟩, fun _ => rfl⟩, nofun, nofun⟩
    | panic => exact ⟨⟨nofun, fun ⟨_, h⟩ => nomatch h⟩, fun _ => rfl, fun _ => rfl⟩
  | ok r =>
    rw [(py_read_iff C dbg recv b r.2 ap (PyPkt.new recv r.1)).2 ⟨r.1, hr, rfl⟩]
    exact ⟨⟨nofun, fun ⟨_, h⟩ => nomatch h⟩, nofun, nofun⟩

/-! ### serde -/

theorem read_serialized {C : Crypto} (dbg : Bool) {q : NetPkt} {c : Content} (h : Holds C q c) (rest : Bytes) : readPkt C dbg (serialize q ++ rest) false = .ok q :=
  (readPkt_ok_iff C dbg false _ q).2 ⟨c, rest, h.valid, h.point, h.header, h.hash32, rfl, fun _ => ⟨h.sealed, h.hash.trans (by rw [h.point])⟩⟩

/-- **C97**: what the two kinds of packets are deserialised from: a byte string that starts with a correct packet. Private points are taken and bytes behind the packet are dropped. -/
theorem serde_iff (C : Crypto) (dbg aligned : Bool) (b : Bytes) (q : NetPkt) :
    (deserializeBox C dbg aligned b = .ok q ↔ ∃ c rest, Holds C q c ∧ b = q.bytes ++ rest) ∧
    (deserializeArc C dbg b = .ok q ↔ ∃ c rest, Holds C q c ∧ b = q.bytes ++ rest) := by
  have key : ∀ q, readPkt C dbg b false = .ok q ↔ ∃ c rest, Holds C q c ∧ b = q.bytes ++ rest := by
    intro q
    rw [readPkt_ok_iff]
    constructor
    · rintro ⟨c, rest, hv, hp, h1, h2, hb, hs⟩
      obtain ⟨s1, s2⟩ := hs rfl
      exact ⟨c, rest, ⟨hv, s1, hp, h1, h2, s2.trans (by rw [hp])⟩, hb⟩
    · rintro ⟨c, rest, h, hb⟩
      exact ⟨c, rest, h.valid, h.point, h.header, h.hash32, hb, fun _ => ⟨h.sealed, h.hash.trans (by rw [h.point])⟩⟩
  have same : ∀ q, readPkt C dbg b false = .ok q → boxOfPtr C dbg q = .ok q ∧ arcOfPtr C dbg q = .ok q := by
    intro q hq
    obtain ⟨c, rest, h, _⟩ := (key q).1 hq
    have hck : q.check C dbg false = .ok () := by
      have := (check_layout (C := C) (dbg := dbg) (skip := false) (nh := q.netHeader) (h := q.hash) h.valid).2 (fun _ => ⟨h.sealed, h.hash⟩)
      rw [← h.point] at this
      exact this
    constructor
    · unfold boxOfPtr
      rw [hck]
      cases dbg <;> rfl
    · have ho := (object_of_bytes C dbg 0 h.valid h.point).1 ⟨h.sealed, h.hash⟩
      unfold PyPkt.ofPtr at ho
      cases ha : arcOfPtr C dbg q with
      | error e => rw [ha] at ho; cases ho
      | ok q' =>
        rw [ha] at ho
        simp only [Except.map, PyPkt.new, Except.ok.injEq, PyPkt.mk.injEq] at ho
        rw [ho.2.2]
  cases hr : readPkt C dbg b false with
  | error e =>
    have hno : ¬ ∃ c rest, Holds C q c ∧ b = q.bytes ++ rest := fun h => by
      have := (key q).2 h
      rw [hr] at this
      cases this
    unfold deserializeBox deserializeArc
    rw [hr]
    exact ⟨⟨nofun, fun h => absurd h hno⟩, ⟨nofun, fun h => absurd h hno⟩⟩
  | ok q' =>
    obtain ⟨h1, h2⟩ := same q' hr
    have hk := key q
    rw [hr] at hk
    unfold deserializeBox deserializeArc
    rw [hr]
    simp only [h1, h2, ite_self]
    exact ⟨hk, hk⟩

/-- **C97**: in any format that gives byte strings back a packet is deserialised as itself, private or not. -/
theorem serde_back {C : Crypto} {Text : Type} (F : ByteFormat Text) (dbg aligned : Bool) {q : NetPkt} {c : Content} (h : Holds C q c) :
    (F.read (F.write (serialize q))).map (deserializeBox C dbg aligned) = some (.ok q) ∧
    (F.read (F.write (serialize q))).map (deserializeArc C dbg) = some (.ok q) := by
  rw [F.back]
  have e : serialize q = q.bytes ++ [] := by simp [serialize]
  exact ⟨congrArg some (((serde_iff C dbg aligned _ q).1).2 ⟨c, [], h, e⟩), congrArg some (((serde_iff C dbg aligned _ q).2).2 ⟨c, [], h, e⟩)⟩

/-! ### cases -/

/-- A link point that arrives in pieces: nothing, a header, most of it, all of it with the start of the next. -/
example : ([0, 67, 68, 143, 144, 150].map fun k => match jsRead toyCrypto true (((exQ [[97], [98, 99]] 7).bytes ++ List.replicate 20 1).take k) none with
      | .ok (q, r) => (if q = exQ [[97], [98, 99]] 7 then 1000 else 0) + r.length
      | .error (.err (.number n)) => n
      | .error _ => 7) = [68, 68, 144, 144, 1000, 1006] := by decide +kernel
/-- A header that says it is of no known type is a text at once. -/
example : jsRead toyCrypto true (List.replicate 64 0 ++ [0, 9, 0, 8]) none = .error (.err (.text (.unknownPktType 9))) := by decide +kernel
/-- Serde takes what follows a packet, `lk_read` of JavaScript gives it back. -/
example : deserializeBox toyCrypto true true ((exQ [[98]] 7).bytes ++ [1, 2]) = .ok (exQ [[98]] 7) ∧
    deserializeArc toyCrypto true ((exQ [[98]] 7).bytes ++ [1, 2]) = .ok (exQ [[98]] 7) ∧
    jsRead toyCrypto true ((exQ [[98]] 7).bytes ++ [1, 2]) none = .ok (exQ [[98]] 7, [1, 2]) := by
  have h := exQ_holds [[98]] 7 ⟨by simp [ValidComps], rfl, by decide⟩ (by decide) (by decide)
  exact ⟨((serde_iff _ _ _ _ _).1).2 ⟨_, _, h, rfl⟩, ((serde_iff _ _ true _ _).2).2 ⟨_, _, h, rfl⟩, (js_read_iff _ _ _ _ _ _).2 ⟨_, h, rfl, .inr (by decide)⟩⟩
/-- A wrong hash is an error for `lk_read` and nothing to `lk_read_unchecked`. -/
example : (∃ q, jsReadUnchecked toyCrypto true { exQ [[98]] 7 with hash := List.replicate 32 0 }.bytes (some true) = .ok (q, [])) ∧
    jsRead toyCrypto true { exQ [[98]] 7 with hash := List.replicate 32 0 }.bytes (some true) = .error (.err (.text .hashMismatch)) := by
  have h := exQ_holds [[98]] 7 ⟨by simp [ValidComps], rfl, by decide⟩ (by decide) (by decide)
  refine ⟨⟨_, (js_unchecked_iff _ _ _ { exQ [[98]] 7 with hash := List.replicate 32 0 } _).2 ⟨_, h.valid, h.point, h.header, by simp, by simp⟩⟩, by decide +kernel⟩

end Verif.Props
