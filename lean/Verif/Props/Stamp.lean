import Verif.Lemmas.Stamp
/-!
# C46, C59, C60: stamps and durations
-/
namespace Verif.Props
open Verif Verif.Spec Verif.Stamp Verif.Pred Verif.Pkt Verif.Num

/-! ### arithmetic -/

/-- Adding a duration stops at the last stamp. -/
theorem stamp_add_saturates (s dur : Nat) (hs : s < 2 ^ 64) : stampAdd s dur = min (s + dur / 1000) (2 ^ 64 - 1) := by
  unfold stampAdd micros maxStamp; omega
/-- Subtracting a duration stops at zero. -/
theorem stamp_sub_saturates (s dur : Nat) (hs : s < 2 ^ 64) : stampSub s dur = s - dur / 1000 := by
  unfold stampSub micros maxStamp; omega

/-- The checked addition fails exactly on overflow, if the duration itself fits a stamp. -/
theorem checked_add_iff_partial (s dur v : Nat) (hd : dur / 1000 < 2 ^ 64) : checkedAdd s dur = some v ↔ v = s + dur / 1000 ∧ v < 2 ^ 64 := by
  unfold checkedAdd micros maxStamp
  rw [Nat.min_eq_left (by omega)]
  split
  · simp; omega
  · simp; omega
theorem checked_sub_iff_partial (s dur v : Nat) (hd : dur / 1000 < 2 ^ 64) : checkedSub s dur = some v ↔ v + dur / 1000 = s := by
  unfold checkedSub micros maxStamp
  rw [Nat.min_eq_left (by omega)]
  split
  · simp; omega
  · simp; omega
/-- With a longer duration they succeed at the ends of the range, although the result does not fit. -/
theorem checked_add_longer (dur : Nat) (hd : 2 ^ 64 ≤ dur / 1000) :
    checkedAdd 0 dur = some (2 ^ 64 - 1) ∧ checkedSub (2 ^ 64 - 1) dur = some 0 := by
  unfold checkedAdd checkedSub micros maxStamp
  rw [Nat.min_eq_right (by omega)]
  simp
example : 2 ^ 64 ≤ (1000 * 2 ^ 64) / 1000 := by decide
example : (3600000000 : Nat) / 1000 < 2 ^ 64 := by decide
/-- At any other stamp they fail, as they should. -/
theorem checked_longer_fails (s dur : Nat) (hs : s < 2 ^ 64) (hd : 2 ^ 64 ≤ dur / 1000) :
    (s ≠ 0 → checkedAdd s dur = none) ∧ (s ≠ 2 ^ 64 - 1 → checkedSub s dur = none) := by
  unfold checkedAdd checkedSub micros maxStamp
  rw [Nat.min_eq_right (by omega)]
  constructor
  · intro h; rw [if_neg (by omega)]
  · intro h; rw [if_neg (by omega)]

/-- The difference of two stamps, added to the earlier one, gives the later one; the answer is `Ok` exactly when the first
is later. -/
theorem stamp_difference (a b : Nat) (ha : a < 2 ^ 64) (hb : b < 2 ^ 64) :
    match subStamp a b with
    | .ok d => b < a ∧ stampAdd b (asDuration d) = a
    | .error d => a ≤ b ∧ stampAdd a (asDuration d) = b := by
  unfold subStamp asDuration
  split
  · rename_i d h
    split at h
    · cases h; refine ⟨by omega, ?_⟩
      rw [stamp_add_saturates _ _ hb, Nat.mul_div_cancel _ (by omega)]; omega
    · cases h
  · rename_i d h
    split at h
    · cases h
    · cases h; refine ⟨by omega, ?_⟩
      rw [stamp_add_saturates _ _ ha, Nat.mul_div_cancel _ (by omega)]; omega

/-- The age of a stamp, added to it, gives the present; if the stamp is in the future, `Err` has what is missing. -/
theorem stamp_age_adds (now s : Nat) (hn : now < 2 ^ 64) (hs : s < 2 ^ 64) :
    match stampAge now s with
    | .ok d => s ≤ now ∧ stampAdd s d = now ∧ stampSub now d = s
    | .error d => now < s ∧ stampAdd now d = s ∧ stampSub s d = now := by
  unfold stampAge asDuration
  split
  · rename_i d h
    split at h
    · cases h
    · cases h
      rw [stamp_add_saturates _ _ hs, stamp_sub_saturates _ _ hn, Nat.mul_div_cancel _ (by omega)]; omega
  · rename_i d h
    split at h
    · cases h
      rw [stamp_add_saturates _ _ hn, stamp_sub_saturates _ _ hs, Nat.mul_div_cancel _ (by omega)]; omega
    · cases h

/-! ### durations as text -/

/-- What `from_utf8` is known to accept. -/
def AsciiOk (utf8 : Bytes → Bool) : Prop := ∀ b : Bytes, (∀ x ∈ b, x.toNat < 128) → utf8 b = true

/-- A text is read as a duration exactly if it consists of counts with units from large to small, and the duration is
their sum. -/
theorem duration_parse_iff (utf8 : Bytes → Bool) (hu : AsciiOk utf8) (s : Bytes) (r : Nat) :
    parseDuration utf8 s = .ok r ↔ ∃ d, r = 1000 * d ∧ DurText unitMicros s d := by
  unfold parseDuration
  rw [units_eq]
  constructor
  · intro h
    obtain ⟨d, h1, h2⟩ := text_of_durLoop letters_units s 0 r h
    exact ⟨d, by omega, h2⟩
  · rintro ⟨d, rfl, h⟩
    have := durLoop_text hu h [] letters_units 0
    rw [List.nil_append, Nat.zero_add] at this
    exact this

example : DurText unitMicros (ascii "12Y3D1l") 378950400001000 := by
  obtain ⟨d, h1, h2⟩ := (duration_parse_iff (fun _ => true) (fun _ _ => rfl) (ascii "12Y3D1l") 378950400001000000).1 (by decide +kernel)
  rwa [show d = 378950400001000 by omega] at h2

/-- No duration overflows: the largest has less than `2 ^ 64` seconds, and with it all sums on the way. -/
theorem duration_in_range {s : Bytes} {d : Nat} (h : DurText unitMicros s d) : 1000 * d < 2 ^ 64 * 1000000000 := by
  have key : ∀ us s d, DurText us s d → d ≤ (us.map (fun u => u.2 * (2 ^ 32 - 1))).foldr (· + ·) 0 := by
    intro us s d h
    induction h with
    | done => omega
    | skip _ ih => simp only [List.map_cons, List.foldr_cons]; omega
    | @use k v us w n s d hc _ ih =>
      obtain ⟨_, _, _, _, h3, _⟩ := hc
      have : n * v ≤ v * (2 ^ 32 - 1) := by rw [Nat.mul_comm]; exact Nat.mul_le_mul_left _ (by omega)
      simp only [List.map_cons, List.foldr_cons]
      omega
  have := key _ _ _ h
  have e : (unitMicros.map (fun u => u.2 * (2 ^ 32 - 1))).foldr (· + ·) 0 < 2 ^ 64 * 1000000 := by decide
  omega

/-- Duration texts are unambiguous. -/
theorem duration_unique {s : Bytes} {d e : Nat} (h1 : DurText unitMicros s d) (h2 : DurText unitMicros s e) : d = e := by
  have a := (duration_parse_iff (fun _ => true) (fun _ _ => rfl) s _).2 ⟨d, rfl, h1⟩
  have b := (duration_parse_iff (fun _ => true) (fun _ _ => rfl) s _).2 ⟨e, rfl, h2⟩
  rw [a] at b
  have := Except.ok.inj b
  omega

theorem filter_eq_drop {l : List (UInt8 × Nat)} (X : Nat) (h : l.Pairwise (fun a b => b.2 < a.2)) :
    l.filter (fun f => decide (f.2 ≤ X)) = l.dropWhile (fun f => !decide (f.2 ≤ X)) := by
  induction l with
  | nil => rfl
  | cons u l ih =>
    have hp := List.pairwise_cons.1 h
    by_cases hx : u.2 ≤ X
    · rw [List.filter_cons_of_pos (by simpa using hx), List.dropWhile_cons_of_neg (by simp [hx])]
      congr 1
      apply List.filter_eq_self.2
      intro a ha
      have := hp.1 a ha
      simp; omega
    · rw [List.filter_cons_of_neg (by simpa using hx), List.dropWhile_cons_of_pos (by simp [hx])]
      exact ih hp.2

/-- A duration of whole microseconds below 73 years prints as a text of that duration. -/
theorem duration_print_partial (d : Nat) (hd : 1000 * d < 2 ^ 61) : ∃ t, durationText (1000 * d) = .ok t ∧ DurText unitMicros t d := by
  unfold durationText durationToString
  rw [if_neg (by decide), List.take_length]
  dsimp only
  rw [filter_eq_drop _ (show units.Pairwise (fun a b => b.2 < a.2) by decide)]
  obtain ⟨B, l1, l2, h1, h2, h3, h4⟩ := exact_drop exact_units hd
  rw [← units_eq] at h2
  rw [h2]
  have hlen : l2.length ≤ 9 := by
    have := congrArg List.length h1
    simp only [List.length_append, show unitMicros.length = 9 from rfl] at this
    omega
  rw [List.take_of_length_le (by simp [specUnits]; omega)]
  by_cases hl : l2 = []
  · subst hl
    refine ⟨[0x30, 0x75], rfl, ?_⟩
    have hz : d = 0 := by
      by_cases h0 : d = 0
      · exact h0
      · exfalso
        have hm : ((0x75 : UInt8), (1000 : Nat)) ∈ units := by decide
        have : ∀ (l : List (UInt8 × Nat)), l.dropWhile (fun f => !decide (f.2 ≤ 1000 * d)) = [] → ∀ u ∈ l, 1000 * d < u.2 := by
          intro l
          induction l with
          | nil => simp
          | cons x l ih =>
            intro h u hu
            by_cases hx : x.2 ≤ 1000 * d
            · rw [List.dropWhile_cons_of_neg (by simp [hx])] at h; cases h
            · rw [List.dropWhile_cons_of_pos (by simp [hx])] at h
              rcases List.mem_cons.1 hu with rfl | hu
              · omega
              · exact ih h u hu
        have := this units h2 _ hm
        dsimp only at this
        omega
    subst hz
    obtain ⟨e, h1, h2⟩ := (duration_parse_iff (fun _ => true) (fun _ _ => rfl) [0x30, 0x75] 0).1 (by decide +kernel)
    rwa [show e = 0 by omega] at h2
  · obtain ⟨e, r, p1, p2, p3, p4⟩ := parts_text h4 h3 hd (Nat.dvd_mul_right _ _)
    refine ⟨partsLoop false [] (1000 * d) (specUnits l2), ?_, ?_⟩
    · have : specUnits l2 ≠ [] := by simpa [specUnits] using hl
      cases hs : specUnits l2 with
      | nil => exact absurd hs this
      | cons a b => rfl
    · have hmem : (('u' : Char), 1) ∈ l2 := by
        have hlast : unitMicros.getLast? = some ('u', 1) := rfl
        rw [h1, List.getLast?_append] at hlast
        cases hg : l2.getLast? with
        | none => exact absurd (List.getLast?_eq_none_iff.1 hg) hl
        | some x =>
          rw [hg] at hlast
          cases hlast
          exact List.mem_of_getLast? hg
      have := p4 _ hmem
      dsimp only at this
      obtain ⟨j, rfl⟩ := p3
      have : d = e := by omega
      subst this
      rw [h1]
      exact DurText.skips p1

/-- ... and so reads back. -/
theorem duration_roundtrip_partial (utf8 : Bytes → Bool) (hu : AsciiOk utf8) (d : Nat) (hd : 1000 * d < 2 ^ 61) :
    ∃ t, durationText (1000 * d) = .ok t ∧ parseDuration utf8 t = .ok (1000 * d) := by
  obtain ⟨t, h1, h2⟩ := duration_print_partial d hd
  exact ⟨t, h1, (duration_parse_iff utf8 hu t _).2 ⟨d, rfl, h2⟩⟩

/-- Missing from the two theorems above: for longer durations the quotient of doubles may round up. One microsecond less
than 500 years prints as 500 years. -/
theorem duration_print_rounds : durationText (500 * 31557600000000000 - 1000) = .ok (ascii "500Y") ∧
    ¬ DurText unitMicros (ascii "500Y") (500 * 31557600000000 - 1) := by
  refine ⟨by decide +kernel, fun h => ?_⟩
  have := (duration_parse_iff (fun _ => true) (fun _ _ => rfl) _ _).2 ⟨_, rfl, h⟩
  revert this
  decide +kernel

/-- Digits cut inside a character panic. -/
theorem duration_cut_panics (utf8 : Bytes → Bool) (h : utf8 [0xc3] = false) : parseDuration utf8 [0xc3, 0xa9] = .error .panic := by
  have : splitIncl isAlpha [0xc3, 0xa9] = [[0xc3, 0xa9]] := by decide
  unfold parseDuration
  rw [this]
  simp [durLoop, h]

/-! ### stamps as text -/

/-- A stamp in decimal reads as itself. -/
theorem stamp_digits_roundtrip (n : Nat) (h : n < 2 ^ 64) (utf8 : Bytes → Bool) (now : Option Nat) : fromStr utf8 (dec n) now = .ok n := by
  have : fromDigits (dec n) = some n := by
    unfold fromDigits
    have hmem : ∀ c ∈ dec n, 0x30 ≤ c ∧ c ≤ 0x39 := by
      intro c hc
      have := mem_dec hc
      exact ⟨UInt8.le_iff_toNat_le.2 this.1, UInt8.le_iff_toNat_le.2 this.2⟩
    rw [if_neg]
    · split
      · rename_i h0
        rcases h0 with h0 | h0
        · have := parseU_dec (2 ^ 64) n
          rw [h0, if_pos h] at this
          rw [← this]; decide
        · exfalso
          have := hmem 0x2d (by rw [h0]; decide)
          revert this; decide
      · rw [if_pos, parseU_dec, if_pos h]
        rw [List.all_eq_true]
        intro c hc
        have := hmem c hc
        simp [this.1, this.2]
    · intro h0
      have := hmem 0x2b (by rw [h0]; decide)
      revert this; decide
  unfold fromStr
  rw [this]

/-- Relative stamps: the duration after the sign is added or subtracted, up to the ends of the range. -/
theorem stamp_relative_iff (utf8 : Bytes → Bool) (hu : AsciiOk utf8) (now : Nat) (hn : now < 2 ^ 64) (t : Bytes) (v : Nat) :
    (fromNow utf8 (UInt8.ofNat '+'.toNat :: t) now = .ok v ↔ ∃ d, DurText unitMicros t d ∧ v = min (now + d) (2 ^ 64 - 1)) ∧
    (fromNow utf8 (UInt8.ofNat '-'.toNat :: t) now = .ok v ↔ ∃ d, DurText unitMicros t d ∧ v = now - d) := by
  have h1 : fromNow utf8 (UInt8.ofNat '+'.toNat :: t) now = (match parseDuration utf8 t with | .ok d => .ok (stampAdd now d) | .error e => .error e) := by
    unfold fromNow
    rw [if_neg (by intro h; revert h; simp [ascii])]
    rfl
  have h2 : fromNow utf8 (UInt8.ofNat '-'.toNat :: t) now = (match parseDuration utf8 t with | .ok d => .ok (stampSub now d) | .error e => .error e) := by
    unfold fromNow
    rw [if_neg (by intro h; revert h; simp [ascii])]
    rfl
  rw [h1, h2]
  have hp := duration_parse_iff utf8 hu t
  cases hd : parseDuration utf8 t with
  | error e =>
    constructor
    · constructor
      · nofun
      · rintro ⟨d, hd', _⟩
        rw [(hp _).2 ⟨d, rfl, hd'⟩] at hd; cases hd
    · constructor
      · nofun
      · rintro ⟨d, hd', _⟩
        rw [(hp _).2 ⟨d, rfl, hd'⟩] at hd; cases hd
  | ok r =>
    obtain ⟨d, rfl, hdt⟩ := (hp r).1 hd
    dsimp only
    rw [stamp_add_saturates _ _ hn, stamp_sub_saturates _ _ hn, Nat.mul_div_cancel_left _ (by omega : 0 < 1000)]
    constructor
    · constructor
      · intro h; exact ⟨d, hdt, (Except.ok.inj h).symm⟩
      · rintro ⟨e, he, rfl⟩; rw [duration_unique hdt he]
    · constructor
      · intro h; exact ⟨d, hdt, (Except.ok.inj h).symm⟩
      · rintro ⟨e, he, rfl⟩; rw [duration_unique hdt he]

/-! ### the function `us` -/

theorem count_head {c : UInt8} {w : Bytes} {n : Nat} (h : CountText (c :: w) n) : (0x30 ≤ c.toNat ∧ c.toNat ≤ 0x39) ∨ (c = 0x2b ∧ CountText w n) := by
  obtain ⟨ds, h0, h1, h2, h3, hw⟩ := h
  rcases hw with hw | hw
  · cases ds with
    | nil => exact absurd rfl h0
    | cons d ds =>
      left
      have := (List.cons.inj hw).1
      subst this
      have hd := h1 d List.mem_cons_self
      rw [UInt8.toNat_ofNat', Nat.mod_eq_of_lt (by omega)]
      omega
  · right
    have := List.cons.inj hw
    exact ⟨this.1, ds, h0, h1, h2, h3, .inl this.2⟩

theorem dur_head {us : List (Char × Nat)} {s : Bytes} {d : Nat} (h : DurText us s d) : ∀ {c : UInt8} {r : Bytes}, s = c :: r →
    (0x30 ≤ c.toNat ∧ c.toNat ≤ 0x39) ∨ (c = 0x2b ∧ DurText us r d) := by
  induction h with
  | done => intro c r h; cases h
  | skip _ ih =>
    intro c r h
    exact (ih h).imp id fun h => ⟨h.1, .skip h.2⟩
  | @use k v us w n s d hc hs _ =>
    intro c r h
    cases w with
    | nil =>
      obtain ⟨ds, h0, _, _, _, hw⟩ := hc
      rcases hw with hw | hw
      · exact absurd (List.map_eq_nil_iff.1 hw.symm) h0
      · cases hw
    | cons x w =>
      obtain ⟨rfl, rfl⟩ := List.cons.inj h
      exact (count_head hc).imp id fun h => ⟨h.1, .use h.2 hs⟩

/-- Every sequence of operations that has a result is computed. -/
theorem us_computes (e : Ef) (hu : AsciiOk e.utf8) {s : Nat} {args : List Bytes} {r : Nat} (h : UsArgs s args r) (hs : s < 2 ^ 64) :
    e.apply s args = .ok (beBytes 8 r) := by
  induction h with
  | done => rfl
  | nothing _ ih => exact ih hs
  | @plus s t d args r hd hf _ ih =>
    have hp := (duration_parse_iff e.utf8 hu t _).2 ⟨d, rfl, hd⟩
    have hc : checkedAdd s (1000 * d) = some (s + d) := by
      unfold checkedAdd micros maxStamp
      rw [Nat.mul_div_cancel_left _ (by omega : 0 < 1000), Nat.min_eq_left (by omega), if_pos hf]
    rw [Ef.apply]
    have hop : e.op s (UInt8.ofNat '+'.toNat :: t) = some (.ok (s + d)) := by
      show e.op s (0x2b :: t) = _
      unfold Ef.op
      split
      · rename_i h; cases h
      · rename_i r' h
        have ht : t = 0x2b :: r' := (List.cons.inj h).2
        subst ht
        -- a second plus in front of the count
        have hd' : DurText unitMicros r' d := by
          rcases dur_head hd rfl with h | h
          · exact absurd h (by decide)
          · exact h.2
        rw [(duration_parse_iff e.utf8 hu r' _).2 ⟨d, rfl, hd'⟩]
        dsimp only
        rw [hc]; rfl
      · rename_i r' _ h
        cases (List.cons.inj h).2
        rw [hp]; dsimp only; rw [hc]
      · rename_i h; exact absurd h (by simp)
      · rename_i h; exact absurd h (by simp)
      · rename_i h1 h2 h3 h4; exact absurd rfl (h2 t)
    rw [hop]
    exact ih hf
  | @plusSat s t d args r hd _ ih =>
    have hp := (duration_parse_iff e.utf8 hu t _).2 ⟨d, rfl, hd⟩
    rw [Ef.apply]
    have hop : e.op s (UInt8.ofNat '+'.toNat :: UInt8.ofNat '+'.toNat :: t) = some (.ok (min (s + d) (2 ^ 64 - 1))) := by
      show some (match parseDuration e.utf8 t with
        | .ok d => (.ok ((checkedAdd s d).getD maxStamp) : PRes Nat)
        | .error x => .error x) = _
      rw [hp]
      dsimp only
      congr 2
      unfold checkedAdd micros maxStamp
      rw [Nat.mul_div_cancel_left _ (by omega : 0 < 1000)]
      split
      · simp only [Option.getD_some]; omega
      · simp only [Option.getD_none]; omega
    rw [hop]
    exact ih (by omega)
  | @minus s t d args r hd hf _ ih =>
    have hp := (duration_parse_iff e.utf8 hu t _).2 ⟨d, rfl, hd⟩
    have hc : checkedSub s (1000 * d) = some (s - d) := by
      unfold checkedSub micros maxStamp
      rw [Nat.mul_div_cancel_left _ (by omega : 0 < 1000), Nat.min_eq_left (by omega), if_pos hf]
    rw [Ef.apply]
    have hop : e.op s (UInt8.ofNat '-'.toNat :: t) = some (.ok (s - d)) := by
      show e.op s (0x2d :: t) = _
      unfold Ef.op
      split
      · rename_i h; cases h
      · rename_i h; exact absurd h (by simp)
      · rename_i h; exact absurd h (by simp)
      · rename_i r' h
        have ht : t = 0x2d :: r' := (List.cons.inj h).2
        subst ht
        rcases dur_head hd rfl with h | h
        · exact absurd h (by decide)
        · exact absurd h.1 (by decide)
      · rename_i r' _ h
        cases (List.cons.inj h).2
        rw [hp]; dsimp only; rw [hc]
      · rename_i h1 h2 h3 h4; exact absurd rfl (h4 t)
    rw [hop]
    exact ih (by omega)
  | @minusSat s t d args r hd _ ih =>
    have hp := (duration_parse_iff e.utf8 hu t _).2 ⟨d, rfl, hd⟩
    rw [Ef.apply]
    have hop : e.op s (UInt8.ofNat '-'.toNat :: UInt8.ofNat '-'.toNat :: t) = some (.ok (s - d)) := by
      show some (match parseDuration e.utf8 t with
        | .ok d => (.ok ((checkedSub s d).getD 0) : PRes Nat)
        | .error x => .error x) = _
      rw [hp]
      dsimp only
      congr 2
      unfold checkedSub micros maxStamp
      rw [Nat.mul_div_cancel_left _ (by omega : 0 < 1000)]
      split
      · simp only [Option.getD_some]; omega
      · simp only [Option.getD_none]; omega
    rw [hop]
    exact ih (by omega)

/-- A word of the four at the end of the arguments. -/
def isWord (w : Bytes) : Prop := w = ascii "ticks" ∨ w = ascii "val" ∨ w = ascii "delta" ∨ w = ascii "str"

/-- Whatever is computed from arguments that do not end with a word is the result of the operations, as long as no
duration is longer than the range of stamps. -/
theorem us_only_partial (e : Ef) (hu : AsciiOk e.utf8) (args : List Bytes) (hw : ∀ a ∈ args, ¬ isWord a)
    (hl : ∀ a ∈ args, ∀ p t d, a = p ++ t → DurText unitMicros t d → d < 2 ^ 64) (s : Nat) (hs : s < 2 ^ 64) (out : Bytes)
    (h : e.apply s args = .ok out) : ∃ r, out = beBytes 8 r ∧ UsArgs s args r := by
  induction args generalizing s with
  | nil => cases h; exact ⟨s, rfl, .done⟩
  | cons a args ih =>
    have ih' := ih (fun x hx => hw x (List.mem_cons_of_mem _ hx)) (fun x hx => hl x (List.mem_cons_of_mem _ hx))
    have ha := hl a List.mem_cons_self
    rw [Ef.apply] at h
    cases hop : e.op s a with
    | none =>
      exfalso
      rw [hop] at h
      have hno : e.word a s = none := by
        have := hw a List.mem_cons_self
        unfold isWord at this
        unfold Ef.word
        rw [if_neg (fun h => this (.inl h)), if_neg (fun h => this (.inr (.inl h))), if_neg (fun h => this (.inr (.inr (.inl h)))),
          if_neg (fun h => this (.inr (.inr (.inr h))))]
      rw [hno] at h
      cases h
    | some o =>
      rw [hop] at h
      cases o with
      | error x => cases h
      | ok s' =>
        dsimp only at h
        have hp : ∀ t d, parseDuration e.utf8 t = .ok d → ∃ d', d = 1000 * d' ∧ DurText unitMicros t d' := fun t d hd =>
          (duration_parse_iff e.utf8 hu t d).1 hd
        unfold Ef.op at hop
        split at hop
        · cases hop
          obtain ⟨r, h1, h2⟩ := ih' s hs h
          exact ⟨r, h1, .nothing h2⟩
        · rename_i t
          cases hd : parseDuration e.utf8 t with
          | error x => rw [hd] at hop; cases hop
          | ok d =>
            rw [hd] at hop
            obtain ⟨d, rfl, hd'⟩ := hp t d hd
            have hlt := ha [0x2b, 0x2b] t d rfl hd'
            have he : s' = min (s + d) (2 ^ 64 - 1) := by
              have := Except.ok.inj (Option.some.inj hop)
              rw [← this]
              unfold checkedAdd micros maxStamp
              rw [Nat.mul_div_cancel_left _ (by omega : 0 < 1000)]
              split
              · simp only [Option.getD_some]; omega
              · simp only [Option.getD_none]; omega
            subst he
            obtain ⟨r, h1, h2⟩ := ih' _ (by omega) h
            exact ⟨r, h1, .plusSat hd' h2⟩
        · rename_i t _
          cases hd : parseDuration e.utf8 t with
          | error x => rw [hd] at hop; cases hop
          | ok d =>
            rw [hd] at hop
            obtain ⟨d, rfl, hd'⟩ := hp t d hd
            have hlt := ha [0x2b] t d rfl hd'
            dsimp only at hop
            cases hc : checkedAdd s (1000 * d) with
            | none => rw [hc] at hop; cases hop
            | some v =>
              rw [hc] at hop
              cases hop
              obtain ⟨e1, e2⟩ := (checked_add_iff_partial s (1000 * d) s' (by omega)).1 hc
              rw [Nat.mul_div_cancel_left _ (by omega : 0 < 1000)] at e1
              subst e1
              obtain ⟨r, h1, h2⟩ := ih' _ e2 h
              exact ⟨r, h1, .plus hd' e2 h2⟩
        · rename_i t
          cases hd : parseDuration e.utf8 t with
          | error x => rw [hd] at hop; cases hop
          | ok d =>
            rw [hd] at hop
            obtain ⟨d, rfl, hd'⟩ := hp t d hd
            have hlt := ha [0x2d, 0x2d] t d rfl hd'
            have he : s' = s - d := by
              have := Except.ok.inj (Option.some.inj hop)
              rw [← this]
              unfold checkedSub micros maxStamp
              rw [Nat.mul_div_cancel_left _ (by omega : 0 < 1000)]
              split
              · simp only [Option.getD_some]; omega
              · simp only [Option.getD_none]; omega
            subst he
            obtain ⟨r, h1, h2⟩ := ih' _ (by omega) h
            exact ⟨r, h1, .minusSat hd' h2⟩
        · rename_i t _
          cases hd : parseDuration e.utf8 t with
          | error x => rw [hd] at hop; cases hop
          | ok d =>
            rw [hd] at hop
            obtain ⟨d, rfl, hd'⟩ := hp t d hd
            have hlt := ha [0x2d] t d rfl hd'
            dsimp only at hop
            cases hc : checkedSub s (1000 * d) with
            | none => rw [hc] at hop; cases hop
            | some v =>
              rw [hc] at hop
              cases hop
              have e1 := (checked_sub_iff_partial s (1000 * d) s' (by omega)).1 hc
              rw [Nat.mul_div_cancel_left _ (by omega : 0 < 1000)] at e1
              have : s' = s - d := by omega
              subst this
              obtain ⟨r, h1, h2⟩ := ih' _ (by omega) h
              exact ⟨r, h1, .minus hd' (by omega) h2⟩
        · cases hop

/-- Nothing may follow a word. -/
theorem us_word_last (e : Ef) {s : Nat} {pre post : List Bytes} {w out : Bytes} (hw : isWord w) (h : e.apply s (pre ++ w :: post) = .ok out) : post = [] := by
  induction pre generalizing s with
  | nil =>
    rw [List.nil_append, Ef.apply] at h
    have hop : e.op s w = none := by rcases hw with rfl | rfl | rfl | rfl <;> rfl
    rw [hop] at h
    simp only at h
    split at h
    · cases h
    · cases h
    · split at h
      · assumption
      · cases h
  | cons a pre ih =>
    rw [List.cons_append, Ef.apply] at h
    split at h
    · exact ih h
    · cases h
    · split at h
      · cases h
      · cases h
      · split at h
        · rename_i h1; simp at h1
        · cases h
example : isWord (ascii "ticks") ∧ ∃ e : Ef, ∃ out, e.apply 5 ([ascii "+1s"] ++ ascii "ticks" :: []) = .ok out :=
  ⟨.inl rfl, ⟨fun _ => true, 0, fun _ => none⟩, _, rfl⟩

/-- Missing above: a duration longer than the range is not always refused. -/
theorem us_accepts_longer (e : Ef) (hu : AsciiOk e.utf8) : e.apply 0 [ascii "+600000Y"] = .ok (List.replicate 8 255) ∧
    ¬ ∃ r, UsArgs 0 [ascii "+600000Y"] r := by
  have hp : parseDuration e.utf8 (ascii "600000Y") = .ok (600000 * 31557600000000000) := by
    rw [duration_parse_iff _ hu]
    exact (duration_parse_iff (fun _ => true) (fun _ _ => rfl) _ _).1 (by decide +kernel)
  constructor
  · rw [Ef.apply]
    have hop : e.op 0 (ascii "+600000Y") = some (.ok maxStamp) := by
      show some (match parseDuration e.utf8 (ascii "600000Y") with
        | .ok d => (match checkedAdd 0 d with | some v => (.ok v : PRes Nat) | none => .error (.err ()))
        | .error x => .error x) = _
      rw [hp]; rfl
    rw [hop]; rfl
  · have hd : ∀ d, DurText unitMicros (ascii "600000Y") d → d = 600000 * 31557600000000 := by
      intro d h
      have := (duration_parse_iff e.utf8 hu _ _).2 ⟨d, rfl, h⟩
      rw [hp] at this
      have := Except.ok.inj this
      omega
    rintro ⟨r, h⟩
    generalize hs : ascii "+600000Y" = a at h
    cases h with
    | nothing _ => revert hs; decide
    | plus h1 h2 _ =>
      have := hd _ ((List.cons.inj hs).2 ▸ h1)
      omega
    | plusSat _ _ => exact absurd (List.cons.inj (List.cons.inj hs).2).1 (by decide)
    | minus _ _ _ => exact absurd (List.cons.inj hs).1 (by decide)
    | minusSat _ _ => exact absurd (List.cons.inj hs).1 (by decide)

example : UsArgs 5 [[], ascii "+1s", ascii "--1D"] 0 := by
  have d1 : DurText unitMicros (ascii "1s") 1000000 := by
    obtain ⟨d, h1, h2⟩ := (duration_parse_iff (fun _ => true) (fun _ _ => rfl) (ascii "1s") 1000000000).1 (by decide +kernel)
    rwa [show d = 1000000 by omega] at h2
  have d2 : DurText unitMicros (ascii "1D") 86400000000 := by
    obtain ⟨d, h1, h2⟩ := (duration_parse_iff (fun _ => true) (fun _ _ => rfl) (ascii "1D") 86400000000000).1 (by decide +kernel)
    rwa [show d = 86400000000 by omega] at h2
  exact .nothing (.plus d1 (by decide) (.minusSat d2 .done))

end Verif.Props
