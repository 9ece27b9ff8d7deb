import Verif.Spec.UsWords
import Verif.Props.Stamp
/-!
# C60: the words that may end the arguments of `us`
-/
namespace Verif.Props
open Verif Verif.Spec Verif.Stamp Verif.Pred Verif.Pkt Verif.Num

/-! ### printing a distance -/

theorem exact_take {B : Nat} {l : List (Char × Nat)} (h : Exact B l) (n : Nat) : Exact B (l.take n) := by
  induction l generalizing B n with
  | nil => rw [List.take_nil]; trivial
  | cons u l ih =>
    cases n with
    | zero => trivial
    | succ n => exact ⟨h.1, h.2.1, h.2.2.1, h.2.2.2.1, ih h.2.2.2.2 n⟩

theorem drop_split {B X : Nat} {l : List (Char × Nat)} (hE : Exact B l) (hX : X < B) :
    ∃ B' l1 l2, l = l1 ++ l2 ∧ (specUnits l).dropWhile (fun f => !decide (f.2 ≤ X)) = specUnits l2 ∧ X < B' ∧ Exact B' l2 ∧
      (∀ u ∈ l1, X < 1000 * u.2) ∧ ∀ u us, l2 = u :: us → 1000 * u.2 ≤ X := by
  induction l generalizing B with
  | nil => exact ⟨B, [], [], rfl, rfl, hX, hE, by simp, by simp⟩
  | cons u l ih =>
    by_cases h : 1000 * u.2 ≤ X
    · exact ⟨B, [], u :: l, rfl, by rw [show specUnits (u :: l) = (UInt8.ofNat u.1.toNat, 1000 * u.2) :: specUnits l from rfl,
        List.dropWhile_cons_of_neg (by simp [h])], hX, hE, by simp, fun v vs e => by cases e; exact h⟩
    · obtain ⟨B', l1, l2, rfl, h2, h3, h5, h6, h7⟩ := ih hE.2.2.2.2 (by omega : X < 1000 * u.2)
      refine ⟨B', u :: l1, l2, rfl, ?_, h3, h5, ?_, h7⟩
      · rw [show specUnits (u :: (l1 ++ l2)) = (UInt8.ofNat u.1.toNat, 1000 * u.2) :: specUnits (l1 ++ l2) from rfl,
          List.dropWhile_cons_of_pos (by simp [h])]
        exact h2
      · intro v hv
        rcases List.mem_cons.1 hv with rfl | hv
        · omega
        · exact h6 v hv

theorem dec_digits {n : Nat} (h : n < 2 ^ 32) : ∃ ds : List Nat, (∀ x ∈ ds, x < 10) ∧ ds ≠ [] ∧ ofDigits 10 ds = n ∧ dec n = ds.map (fun x => UInt8.ofNat (0x30 + x)) := by
  obtain ⟨ds, h0, h1, h2, _, hw⟩ := count_dec h
  rcases hw with hw | hw
  · exact ⟨ds, h1, h0, h2, hw⟩
  · exfalso
    have := mem_dec (n := n) (c := UInt8.ofNat '+'.toNat) (by rw [hw]; simp)
    revert this; decide

theorem spaced_parts {B X : Nat} {l : List (Char × Nat)} (hE : Exact B l) (hX : X < B) (hB : X < 2 ^ 61) (h0 : 1000 ∣ X) :
    ∃ d r, SpacedText l (partsLoop true [0x20] X (specUnits l)) d ∧ X = 1000 * d + r ∧ 1000 ∣ r ∧ (∀ u ∈ l, r < 1000 * u.2) := by
  induction l generalizing B X with
  | nil => exact ⟨0, X, .done, by omega, h0, by simp⟩
  | cons u l ih =>
    obtain ⟨k, m⟩ := u
    obtain ⟨e1, e2, e3, e4, e5⟩ := hE
    have hq : X / (1000 * m) ≤ B / (1000 * m) := Nat.div_le_div_right (Nat.le_of_lt hX)
    have hdiv : durDiv X (1000 * m) = X / (1000 * m) :=
      durDiv_exact hB h0 (Nat.dvd_mul_right _ _) (by omega) e2 (e3.imp id fun h => Nat.lt_of_lt_of_le hX h) (by omega)
    have hdm := Nat.div_add_mod X (1000 * m)
    have hml := Nat.mod_lt X (show 0 < 1000 * m by omega)
    have hsub : X - 1000 * m * (X / (1000 * m)) = X % (1000 * m) := by omega
    have hd0 : 1000 ∣ X % (1000 * m) := (Nat.dvd_mod_iff (Nat.dvd_mul_right _ _)).2 h0
    obtain ⟨d, r, i1, i2, i3, i4⟩ := ih e5 hml (by omega) hd0
    rw [show specUnits ((k, m) :: l) = (UInt8.ofNat k.toNat, 1000 * m) :: specUnits l from rfl, partsLoop]
    simp only [hdiv, hsub, Bool.true_or, if_true]
    obtain ⟨ds, g1, g2, g3, g4⟩ := dec_digits (n := X / (1000 * m)) (by omega)
    refine ⟨X / (1000 * m) * m + d, r, ?_, ?_, i3, ?_⟩
    · rw [g4]
      have := SpacedText.use (k := k) (v := m) g1 g2 g3 (by omega) i1
      simpa using this
    · rw [Nat.mul_add, Nat.mul_comm (X / _) m, ← Nat.mul_assoc]; omega
    · intro u hu
      rcases List.mem_cons.1 hu with rfl | hu
      · show r < 1000 * m
        omega
      · exact i4 u hu

theorem spec_take (l : List (Char × Nat)) (n : Nat) : (specUnits l).take n = specUnits (l.take n) := by simp [specUnits, List.map_take]

/-- **C60**: a stamp printed as a distance is that distance, if it is below 73 years. -/
theorem delta_text_partial (n now other : Nat) (hn : 0 < n) (h1 : 1000 * (other - now) < 2 ^ 61) (h2 : 1000 * (now - other) < 2 ^ 61) :
    ∃ out, deltaStampP now other 9 n = .ok out ∧ DeltaText n now other out := by
  have key : ∀ x, 1000 * x < 2 ^ 61 → ∃ t, durationToString (asDuration x) 9 n true [0x20] = .ok t ∧
      ((x = 0 ∧ t = [UInt8.ofNat '0'.toNat, UInt8.ofNat 'u'.toNat]) ∨
      ∃ larger u us d r, unitMicros = larger ++ u :: us ∧ (∀ v ∈ larger, x < v.2) ∧ u.2 ≤ x ∧ SpacedText ((u :: us).take n) t d ∧ x = d + r ∧
        ∀ v ∈ (u :: us).take n, r < v.2) := by
    intro x hx
    unfold durationToString asDuration
    rw [if_neg (by decide), show (9 : Nat) = units.length from rfl, List.take_length]
    dsimp only
    rw [filter_eq_drop _ (show units.Pairwise (fun a b => b.2 < a.2) by decide), Nat.mul_comm x 1000]
    obtain ⟨B, l1, l2, e1, e2, e3, e4, e5, e6⟩ := drop_split exact_units hx
    rw [← units_eq] at e2
    rw [e2, spec_take]
    cases l2 with
    | nil =>
      rw [List.append_nil] at e1
      have h0 : x = 0 := by
        have := e5 ('u', 1) (by rw [← e1]; decide)
        dsimp only at this
        omega
      rw [List.take_nil]
      exact ⟨_, rfl, .inl ⟨h0, rfl⟩⟩
    | cons u us =>
      obtain ⟨d, r, p1, p2, p3, p4⟩ := spaced_parts (exact_take e4 n) e3 hx (Nat.dvd_mul_right _ _)
      obtain ⟨j, rfl⟩ := p3
      refine ⟨partsLoop true [0x20] (1000 * x) (specUnits ((u :: us).take n)), ?_, .inr ⟨l1, u, us, d, j, e1, fun v hv => by have := e5 v hv; omega,
        by have := e6 u us rfl; omega, p1, by omega, fun v hv => by have := p4 v hv; omega⟩⟩
      cases n with
      | zero => omega
      | succ n => rfl
  unfold deltaStampP
  by_cases h : other > now
  · obtain ⟨t, k1, k2⟩ := key (other - now) h1
    rw [if_pos h, k1]
    exact ⟨_, rfl, other - now, t, .inl ⟨h, Nat.add_sub_cancel' (Nat.le_of_lt h), by rw [if_pos h]; rfl⟩, k2⟩
  · obtain ⟨t, k1, k2⟩ := key (now - other) h2
    rw [if_neg h, k1]
    exact ⟨_, rfl, now - other, t, .inr ⟨Nat.le_of_not_lt h, Nat.add_sub_cancel' (Nat.le_of_not_lt h), by rw [if_neg h]; rfl⟩, k2⟩

/-! ### the words -/

theorem op_range {e : Ef} {s s' : Nat} {a : Bytes} (hs : s < 2 ^ 64) (h : e.op s a = some (.ok s')) : s' < 2 ^ 64 := by
  unfold Ef.op at h
  split at h
  · cases h; exact hs
  · split at h
    · have := Except.ok.inj (Option.some.inj h)
      rw [← this]
      unfold checkedAdd maxStamp
      split <;> simp <;> omega
    · cases h
  · split at h
    · split at h
      · rename_i hc
        cases h
        unfold checkedAdd at hc
        split at hc <;> cases hc
        assumption
      · cases h
    · cases h
  · split at h
    · have := Except.ok.inj (Option.some.inj h)
      rw [← this]
      unfold checkedSub
      split <;> simp <;> omega
    · cases h
  · split at h
    · split at h
      · rename_i hc
        cases h
        unfold checkedSub at hc
        split at hc <;> cases hc
        omega
      · cases h
    · cases h
  · cases h

/-- Arguments that are no words are done one after the other. -/
theorem apply_steps {e : Ef} {args : List Bytes} (hw : ∀ a ∈ args, ¬ isWord a) {s : Nat} (hs : s < 2 ^ 64) :
    (∃ r, r < 2 ^ 64 ∧ ∀ rest, e.apply s (args ++ rest) = e.apply r rest) ∨ ∃ x, ∀ rest, e.apply s (args ++ rest) = .error x := by
  induction args generalizing s with
  | nil => exact .inl ⟨s, hs, fun _ => rfl⟩
  | cons a args ih =>
    cases ho : e.op s a with
    | none =>
      have hno : e.word a s = none := by
        have := hw a List.mem_cons_self
        unfold isWord at this
        unfold Ef.word
        rw [if_neg (fun h => this (.inl h)), if_neg (fun h => this (.inr (.inl h))), if_neg (fun h => this (.inr (.inr (.inl h)))),
          if_neg (fun h => this (.inr (.inr (.inr h))))]
      exact .inr ⟨.err (), fun rest => by rw [List.cons_append, Ef.apply, ho]; simp only [hno]⟩
    | some o =>
      cases o with
      | error x => exact .inr ⟨x, fun rest => by rw [List.cons_append, Ef.apply, ho]⟩
      | ok s' =>
        rcases ih (fun x hx => hw x (List.mem_cons_of_mem _ hx)) (op_range hs ho) with ⟨r, hr, h⟩ | ⟨x, h⟩
        · exact .inl ⟨r, hr, fun rest => by rw [List.cons_append, Ef.apply, ho]; exact h rest⟩
        · exact .inr ⟨x, fun rest => by rw [List.cons_append, Ef.apply, ho]; exact h rest⟩

theorem usArgs_plain {s r : Nat} {args : List Bytes} (h : UsArgs s args r) : ∀ a ∈ args, ¬ isWord a := by
  have cases_ : ∀ (c : UInt8) (t : Bytes), (c = 0x2b ∨ c = 0x2d) → ¬ isWord (c :: t) := by
    rintro c t hc (h | h | h | h) <;> rcases hc with rfl | rfl <;> exact absurd (List.cons.inj h).1 (by decide)
  induction h with
  | done => intro a ha; cases ha
  | nothing _ ih =>
    intro a ha
    rcases List.mem_cons.1 ha with rfl | ha
    · rintro (h | h | h | h) <;> cases h
    · exact ih a ha
  | plus _ _ _ ih | plusSat _ _ ih =>
    intro a ha
    rcases List.mem_cons.1 ha with rfl | ha
    · exact cases_ _ _ (.inl rfl)
    · exact ih a ha
  | minus _ _ _ ih | minusSat _ _ ih =>
    intro a ha
    rcases List.mem_cons.1 ha with rfl | ha
    · exact cases_ _ _ (.inr rfl)
    · exact ih a ha

theorem usArgs_range {s r : Nat} {args : List Bytes} (h : UsArgs s args r) (hs : s < 2 ^ 64) : r < 2 ^ 64 := by
  induction h with
  | done => exact hs
  | nothing _ ih => exact ih hs
  | plus _ hf _ ih => exact ih hf
  | plusSat _ _ ih => exact ih (by omega)
  | minus _ _ _ ih => exact ih (by omega)
  | minusSat _ _ ih => exact ih (by omega)

theorem beBytes_inj8 {a b : Nat} (ha : a < 2 ^ 64) (hb : b < 2 ^ 64) (h : beBytes 8 a = beBytes 8 b) : a = b := by
  have := congrArg beNat h
  rwa [beNat_beBytes 8 a (by simpa using ha), beNat_beBytes 8 b (by simpa using hb)] at this

/-- Steps that have a result, with anything behind them. -/
theorem apply_after (e : Ef) (hu : AsciiOk e.utf8) {s r : Nat} {args : List Bytes} (h : UsArgs s args r) (hs : s < 2 ^ 64) (rest : List Bytes) :
    e.apply s (args ++ rest) = e.apply r rest := by
  have h1 := us_computes e hu h hs
  rcases apply_steps (e := e) (usArgs_plain h) hs with ⟨r', hr', h2⟩ | ⟨x, h2⟩
  · have h3 := h2 []
    rw [List.append_nil, h1] at h3
    have := beBytes_inj8 (usArgs_range h hs) hr' (Except.ok.inj h3)
    rw [this]; exact h2 rest
  · have h3 := h2 []
    rw [List.append_nil, h1] at h3
    cases h3

theorem word_end (e : Ef) {w : Bytes} (hw : isWord w) (r : Nat) {o : PRes Bytes} (ho : e.word w r = some o) : e.apply r [w] = o := by
  have hop : e.op r w = none := by rcases hw with rfl | rfl | rfl | rfl <;> rfl
  rw [Ef.apply, hop]
  simp only [ho]
  cases o <;> simp

/-- **C60**: after the steps, `ticks` prints the distance of the stamp reached from 0 in two units, `val` in all, `delta` that from now in two units, and `str` the date,
if there is one, and else the same as `val`. -/
theorem us_words_partial (e : Ef) (hu : AsciiOk e.utf8) {s r : Nat} {args : List Bytes} (h : UsArgs s args r) (hs : s < 2 ^ 64) :
    (1000 * r < 2 ^ 61 → (∃ out, e.apply s (args ++ [ascii "ticks"]) = .ok out ∧ DeltaText 2 0 r out) ∧
      ∃ out, e.apply s (args ++ [ascii "val"]) = .ok out ∧ DeltaText 9 0 r out ∧ (e.date r = none → e.apply s (args ++ [ascii "str"]) = .ok out)) ∧
    (1000 * (r - e.now) < 2 ^ 61 → 1000 * (e.now - r) < 2 ^ 61 → ∃ out, e.apply s (args ++ [ascii "delta"]) = .ok out ∧ DeltaText 2 e.now r out) ∧
    (∀ t, e.date r = some t → e.apply s (args ++ [ascii "str"]) = .ok t) := by
  refine ⟨fun hr => ⟨?_, ?_⟩, fun h1 h2 => ?_, fun t ht => ?_⟩
  · obtain ⟨out, e1, e2⟩ := delta_text_partial 2 0 r (by omega) (by omega) (by omega)
    exact ⟨out, by rw [apply_after e hu h hs, word_end e (.inl rfl) r (o := deltaStamp 0 r) rfl]; exact e1, e2⟩
  · obtain ⟨out, e1, e2⟩ := delta_text_partial 9 0 r (by omega) (by omega) (by omega)
    refine ⟨out, by rw [apply_after e hu h hs, word_end e (.inr (.inl rfl)) r (o := deltaStampP 0 r 9 9) rfl]; exact e1, e2, fun hd => ?_⟩
    rw [apply_after e hu h hs, word_end e (.inr (.inr (.inr rfl))) r (o := deltaStampP 0 r 9 9) (by unfold Ef.word; rw [hd]; rfl)]
    exact e1
  · obtain ⟨out, e1, e2⟩ := delta_text_partial 2 e.now r (by omega) h1 h2
    exact ⟨out, by rw [apply_after e hu h hs, word_end e (.inr (.inr (.inl rfl))) r (o := deltaStamp e.now r) rfl]; exact e1, e2⟩
  · rw [apply_after e hu h hs, word_end e (.inr (.inr (.inr rfl))) r (o := .ok t) (by unfold Ef.word; rw [ht]; rfl)]

/-- **C60**: whatever is computed is the stamp reached by the steps or, if the last argument is a word, its text, as long as no duration is longer than the range. -/
theorem us_only_words_partial (e : Ef) (hu : AsciiOk e.utf8) (args : List Bytes)
    (hl : ∀ a ∈ args, ∀ p t d, a = p ++ t → DurText unitMicros t d → d < 2 ^ 64) (s : Nat) (hs : s < 2 ^ 64) (out : Bytes) (h : e.apply s args = .ok out) :
    (∃ r, out = beBytes 8 r ∧ UsArgs s args r) ∨ ∃ front w r, args = front ++ [w] ∧ isWord w ∧ UsArgs s front r ∧ e.apply r [w] = .ok out := by
  have dec_ : ∀ a, isWord a ∨ ¬ isWord a := fun a => Classical.em _
  have split_ : (∀ a ∈ args, ¬ isWord a) ∨ ∃ front w post, args = front ++ w :: post ∧ isWord w ∧ ∀ a ∈ front, ¬ isWord a := by
    clear h hl
    induction args with
    | nil => exact .inl (by simp)
    | cons a args ih =>
      rcases dec_ a with ha | ha
      · exact .inr ⟨[], a, args, rfl, ha, by simp⟩
      · rcases ih with ih | ⟨front, w, post, rfl, h1, h2⟩
        · refine .inl fun x hx => ?_
          rcases List.mem_cons.1 hx with rfl | hx
          · exact ha
          · exact ih x hx
        · refine .inr ⟨a :: front, w, post, rfl, h1, fun x hx => ?_⟩
          rcases List.mem_cons.1 hx with rfl | hx
          · exact ha
          · exact h2 x hx
  rcases split_ with hw | ⟨front, w, post, rfl, hw, hf⟩
  · exact .inl (us_only_partial e hu args hw hl s hs out h)
  · have hp := us_word_last e hw h
    subst hp
    rcases apply_steps (e := e) hf hs with ⟨r, hr, h2⟩ | ⟨x, h2⟩
    · have h3 := h2 []
      rw [List.append_nil] at h3
      obtain ⟨r', h4, h5⟩ := us_only_partial e hu front hf (fun a ha => hl a (by simp [ha])) s hs _ h3
      have := beBytes_inj8 hr (usArgs_range h5 hs) h4
      subst this
      exact .inr ⟨front, w, r, rfl, hw, h5, by rw [← h2]; exact h⟩
    · rw [h2] at h; cases h

/-- The distance of 90061 seconds from 0: a day, an hour, a minute and a second. -/
theorem delta_example : deltaStampP 0 90061000000 9 9 = .ok (ascii "+ 1D 1h 1m 1s 0l 0u") ∧ deltaStamp 0 90061000000 = .ok (ascii "+ 1D 1h") ∧
    deltaStamp 7 7 = .ok (ascii "-0u") := by decide +kernel

end Verif.Props
