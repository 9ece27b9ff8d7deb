import Verif.Lemmas.Abtxt
/-! Lemmas about the ABE parser and printer. -/
namespace Verif.Ast
open Verif Verif.Abtxt Verif.Spec

mutual
/-- the token sequence of a tree -/
def toksOne : ABE → List ABTok
  | .ctr .colon => [.ctr .colon]
  | .ctr .fslash => [.ctr .fslash]
  | .bytes b => [.bytes b]
  | .lst l => .ctr .obr :: (toks l ++ [.ctr .cbr])
def toks : List ABE → List ABTok
  | [] => []
  | e :: es => toksOne e ++ toks es
end

theorem nextByte_colon (s : Bytes) : nextByte stdPlain stdErr (0x3a :: s) = .ok (.ctr .colon s) := by
  rw [nextByte_ctr_iff]; exact ⟨rfl, by decide, by decide⟩
theorem nextByte_fslash (s : Bytes) : nextByte stdPlain stdErr (0x2f :: s) = .ok (.ctr .fslash s) := by
  rw [nextByte_ctr_iff]; exact ⟨rfl, by decide, by decide⟩
theorem nextByte_obr (s : Bytes) : nextByte stdPlain stdErr (0x5b :: s) = .ok (.ctr .obr s) := by
  rw [nextByte_ctr_iff]; exact ⟨rfl, by decide, by decide⟩
theorem nextByte_cbr (s : Bytes) : nextByte stdPlain stdErr (0x5d :: s) = .ok (.ctr .cbr s) := by
  rw [nextByte_ctr_iff]; exact ⟨rfl, by decide, by decide⟩

theorem tokLoop_ctr {loose d acc s k rest} (h : nextByte stdPlain stdErr s = .ok (.ctr k rest)) :
    tokLoop loose d acc s =
      (match stepDepth d k with
       | .error e => .error e
       | .ok d => (tokLoop loose d [] rest).map fun r => flush acc (.ctr k :: r)) := by
  rw [tokLoop]
  split <;> (rename_i hx; rw [h] at hx; cases hx)
  rfl

theorem tokLoop_byte {loose d acc s b rest} (h : nextByte stdPlain stdErr s = .ok (.byte b rest)) :
    tokLoop loose d acc s = tokLoop loose d (acc ++ [b]) rest := by
  rw [tokLoop]
  split <;> (rename_i hx; rw [h] at hx; cases hx)
  rfl

theorem tokLoop_nil {loose d acc} :
    tokLoop loose d acc [] = if d ≠ 0 then .error .unmatchedOpen else .ok (flush acc []) := by
  rw [tokLoop]
  split <;> (rename_i hx; simp [nextByte] at hx)
  · rfl

theorem tokLoop_spells {loose d w b} (h : Spells w b) (acc rest : Bytes) :
    tokLoop loose d acc (w ++ rest) = tokLoop loose d (acc ++ b) rest := by
  induction h generalizing acc with
  | nil => simp
  | @cons w b s bs h1 _ ih =>
    rw [List.append_assoc, tokLoop_byte (nextByte_spells1 h1 _ _ _), ih]
    simp

theorem flush_nil (r : List ABTok) : flush [] r = r := rfl
theorem flush_ne {acc : Bytes} (h : acc ≠ []) (r : List ABTok) : flush acc r = .bytes acc :: r := by
  unfold flush; cases acc <;> simp_all

theorem map_map' {ε α β γ} (x : Except ε α) (f : α → β) (g : β → γ) :
    Except.map g (Except.map f x) = Except.map (fun a => g (f a)) x := by
  cases x <;> rfl

theorem map_id' {ε α} (x : Except ε α) : Except.map (fun a => a) x = x := by cases x <;> rfl

theorem tokLoop_text {s t} (h : AbeText s t) : ∀ (loose : Bool) (d : Nat) (acc rest : Bytes),
    (acc = [] ∨ NoBytesHead t) → (rest = [] ∨ ∃ r, rest = 0x5d :: r) →
    tokLoop loose d acc (s ++ rest) =
      (tokLoop loose d [] rest).map fun r => flush acc (toks t ++ r) := by
  induction h with
  | nil =>
    intro loose d acc rest _ hr
    rcases hr with rfl | ⟨r, rfl⟩
    · simp only [List.append_nil, tokLoop_nil]
      split <;> simp [toks, Except.map, flush_nil]
    · simp only [List.nil_append, tokLoop_ctr (nextByte_cbr _), toks]
      split
      · rfl
      · rw [map_map']; rfl
  | @colon s t _ ih =>
    intro loose d acc rest _ hr
    show tokLoop loose d acc (0x3a :: (s ++ rest)) = _
    rw [tokLoop_ctr (nextByte_colon _)]
    simp only [stepDepth]
    rw [ih loose d [] rest (.inl rfl) hr, map_map']
    rfl
  | @fslash s t _ ih =>
    intro loose d acc rest _ hr
    show tokLoop loose d acc (0x2f :: (s ++ rest)) = _
    rw [tokLoop_ctr (nextByte_fslash _)]
    simp only [stepDepth]
    rw [ih loose d [] rest (.inl rfl) hr, map_map']
    rfl
  | @lst i l s t _ _ ih1 ih2 =>
    intro loose d acc rest _ hr
    have : (UInt8.ofNat '['.toNat :: (i ++ UInt8.ofNat ']'.toNat :: s)) ++ rest
        = 0x5b :: (i ++ 0x5d :: (s ++ rest)) := by simp
    rw [this, tokLoop_ctr (nextByte_obr _)]
    simp only [stepDepth]
    rw [ih1 loose (d+1) [] _ (.inl rfl) (.inr ⟨_, rfl⟩), tokLoop_ctr (nextByte_cbr _)]
    simp only [stepDepth, Nat.add_eq_zero_iff, Nat.succ_ne_self, and_false, if_false, Nat.add_sub_cancel]
    rw [ih2 loose d [] rest (.inl rfl) hr]
    simp only [map_map', flush_nil, toks, toksOne, List.append_assoc, List.cons_append, List.nil_append]
  | @bytes w b s t hw hb hn _ ih =>
    intro loose d acc rest ha hr
    have ha : acc = [] := by
      rcases ha with h | h
      · exact h
      · exact h.elim
    subst ha
    rw [List.append_assoc, tokLoop_spells hw, List.nil_append, ih loose d b rest (.inr hn) hr]
    simp only [flush_ne hb, flush_nil, toks, toksOne, List.cons_append, List.nil_append]

theorem takeBytes_of_not {b : Bytes} {ts : List ABTok} (h : ∀ o r, ts ≠ .bytes o :: r) :
    takeBytes b ts = (b, ts) := by
  cases ts with
  | nil => rfl
  | cons x xs => cases x with
    | bytes o => exact (h o xs rfl).elim
    | ctr c => rfl

theorem toks_noBytes {t : List ABE} (h : NoBytesHead t) (rest : List ABTok)
    (hr : ∀ o r, rest ≠ .bytes o :: r) : ∀ o r, toks t ++ rest ≠ .bytes o :: r := by
  cases t with
  | nil => simpa [toks] using hr
  | cons e es =>
    cases e with
    | ctr c => cases c <;> simp [toks, toksOne]
    | bytes b => exact h.elim
    | lst l => simp [toks, toksOne]

theorem collectMany_text {s t} (h : AbeText s t) : ∀ (n : Nat) (rest out : List ABTok),
    (rest = [] ∧ out = [] ∨ rest = .ctr .cbr :: out) → (toks t ++ rest).length < n →
    collectMany n (toks t ++ rest) = some (t, out) := by
  induction h with
  | nil =>
    intro n rest out hr hn
    cases n with
    | zero => simp at hn
    | succ n =>
      rcases hr with ⟨rfl, rfl⟩ | rfl <;> rfl
  | colon _ ih =>
    intro n rest out hr hn
    cases n with
    | zero => simp at hn
    | succ n =>
      simp only [toks, toksOne, List.cons_append, List.nil_append, List.length_cons, collectMany] at hn ⊢
      rw [ih n rest out hr (by simp at hn ⊢; omega)]
      rfl
  | fslash _ ih =>
    intro n rest out hr hn
    cases n with
    | zero => simp at hn
    | succ n =>
      simp only [toks, toksOne, List.cons_append, List.nil_append, List.length_cons, collectMany] at hn ⊢
      rw [ih n rest out hr (by simp at hn ⊢; omega)]
      rfl
  | @lst i l s t _ _ ih1 ih2 =>
    intro n rest out hr hn
    cases n with
    | zero => simp at hn
    | succ n =>
      simp only [toks, toksOne, List.cons_append, List.append_assoc, List.nil_append, collectMany] at hn ⊢
      rw [ih1 n _ (toks t ++ rest) (.inr rfl) (by simp at hn ⊢; omega)]
      simp only
      rw [ih2 n rest out hr (by simp at hn ⊢; omega)]
      rfl
  | @bytes w b s t hw hb hn' _ ih =>
    intro n rest out hr hn
    cases n with
    | zero => simp at hn
    | succ n =>
      simp only [toks, toksOne, List.cons_append, List.nil_append, collectMany] at hn ⊢
      have hrest : ∀ o r, rest ≠ .bytes o :: r := by
        rcases hr with ⟨rfl, _⟩ | rfl <;> simp
      rw [takeBytes_of_not (toks_noBytes hn' rest hrest)]
      simp only
      rw [ih n rest out hr (by simp at hn ⊢; omega)]
      rfl

theorem parse_of_text {s t} (h : AbeText s t) (loose : Bool) : parse loose s = .ok t := by
  have h1 := tokLoop_text h loose 0 [] [] (.inl rfl) (.inl rfl)
  rw [List.append_nil, tokLoop_nil] at h1
  have h2 := collectMany_text h ((toks t).length + 1) [] [] (.inl ⟨rfl, rfl⟩) (by simp)
  simp [Except.map, flush_nil] at h1
  simp at h2
  simp [parse, h1, h2]

/-- `d` closing brackets still to come. -/
def Segs : Nat → Bytes → Prop
  | 0, s => ∃ t, AbeText s t
  | d + 1, s => ∃ i l s', AbeText i l ∧ s = i ++ 0x5d :: s' ∧ Segs d s'

theorem Segs.prepend {d s} (w : Bytes) (h : Segs d s)
    (hw : ∀ i l, AbeText i l → ∃ l', AbeText (w ++ i) l') : Segs d (w ++ s) := by
  cases d with
  | zero => obtain ⟨t, ht⟩ := h; exact hw _ _ ht
  | succ d =>
    obtain ⟨i, l, s', h1, rfl, h3⟩ := h
    obtain ⟨l', h4⟩ := hw _ _ h1
    exact ⟨w ++ i, l', s', h4, by simp, h3⟩

theorem Segs.byte {w b} (h1 : Spells1 w b) (i : Bytes) (l : List ABE) (h : AbeText i l) :
    ∃ l', AbeText (w ++ i) l' := by
  by_cases hn : NoBytesHead l
  · have : Spells w [b] := by simpa using Spells.cons h1 .nil
    exact ⟨_, AbeText.bytes this (by simp) hn h⟩
  · cases h with
    | @bytes w' b' s t hw' hb' hn' ht =>
      rw [← List.append_assoc]
      exact ⟨_, AbeText.bytes (Spells.cons h1 hw') (by simp) hn' ht⟩
    | _ => exact (hn trivial).elim

theorem tokLoop_segs {d acc s r} (h : tokLoop false d acc s = .ok r) : Segs d s := by
  induction hl : s.length using Nat.strongRecOn generalizing d acc s r with
  | _ len ih =>
    cases hb : nextByte stdPlain stdErr s with
    | error e =>
      rw [tokLoop] at h
      split at h <;> (rename_i hx; rw [hb] at hx; cases hx)
      cases h
    | ok tk =>
      cases tk with
      | finished =>
        rw [nextByte_finished_iff] at hb; subst hb
        rw [tokLoop_nil] at h
        split at h
        · cases h
        · rename_i hd; simp at hd; subst hd; exact ⟨[], .nil⟩
      | byte b rest =>
        rw [tokLoop_byte hb] at h
        obtain ⟨w, hw, rfl⟩ := nextByte_std_byte hb
        have hlt := nextByte_byte_lt hb
        exact (ih rest.length (by omega) h rfl).prepend w (Segs.byte hw)
      | ctr k rest =>
        rw [tokLoop_ctr hb] at h
        have hlt := nextByte_ctr_lt hb
        obtain ⟨rfl, he, _⟩ := nextByte_ctr_iff.mp hb
        split at h
        · cases h
        · rename_i d' hd
          cases hr : tokLoop false d' [] rest with
          | error e => rw [hr] at h; cases h
          | ok r' =>
            have hs := ih rest.length (by omega) hr rfl
            cases k with
            | newline => exact absurd he (by decide)
            | colon => cases hd; exact hs.prepend [0x3a] (fun i l h => ⟨_, AbeText.colon h⟩)
            | fslash => cases hd; exact hs.prepend [0x2f] (fun i l h => ⟨_, AbeText.fslash h⟩)
            | obr =>
              cases hd
              obtain ⟨i, l, s', h1, rfl, h3⟩ := hs
              have := h3.prepend (0x5b :: (i ++ [0x5d])) (fun i' l' h' => ⟨.lst l :: l', by
                have := AbeText.lst h1 h'
                simpa using this⟩)
              simpa [CtrChar.asChar] using this
            | cbr =>
              simp only [stepDepth] at hd
              split at hd
              · cases hd
              · cases hd
                obtain ⟨d'', rfl⟩ : ∃ d'', d = d'' + 1 := ⟨d - 1, by omega⟩
                exact ⟨[], [], rest, .nil, rfl, hs⟩

theorem text_of_parse {s t} (h : parseStrict s = .ok t) : AbeText s t := by
  unfold parseStrict at h
  have h0 := h
  unfold parse at h
  split at h
  · cases h
  · rename_i r hr
    obtain ⟨t', ht'⟩ := tokLoop_segs hr
    have := parse_of_text ht' false
    rw [this] at h0
    cases h0
    exact ht'

theorem norm_of_text {s t} (h : AbeText s t) : Norm t := by
  induction h with
  | nil => simp [Norm]
  | colon _ ih => simp [Norm, NormOne, ih]
  | fslash _ ih => simp [Norm, NormOne, ih]
  | lst _ _ ih1 ih2 => simp [Norm, NormOne, ih1, ih2]
  | bytes _ hb hn _ ih => simp [Norm, NormOne, ih, hb, hn]

theorem text_of_norm : (t : List ABE) → Norm t → AbeText (printAbe t) t
  | [], _ => by rw [printAbe]; exact .nil
  | .ctr .colon :: t, h => by
    simp only [Norm] at h
    rw [printAbe, printOne]; exact .colon (text_of_norm t h.2.1)
  | .ctr .fslash :: t, h => by
    simp only [Norm] at h
    rw [printAbe, printOne]; exact .fslash (text_of_norm t h.2.1)
  | .bytes b :: t, h => by
    simp only [Norm, NormOne] at h
    rw [printAbe, printOne]
    exact .bytes (flatMap_escape_spells b) h.1 (h.2.2 b rfl) (text_of_norm t h.2.1)
  | .lst l :: t, h => by
    simp only [Norm, NormOne] at h
    rw [printAbe, printOne]
    have := AbeText.lst (text_of_norm l h.1) (text_of_norm t h.2.1)
    simpa using this

end Verif.Ast

namespace Verif.Spec

theorem Depth.append {a s b s' c} (h : Depth a s b) (h' : Depth b s' c) : Depth a (s ++ s') c := by
  induction h with
  | nil => exact h'
  | byte hw _ ih => rw [List.append_assoc]; exact .byte hw (ih h')
  | delim hc _ ih => exact .delim hc (ih h')
  | opn _ ih => exact .opn (ih h')
  | cls _ ih => exact .cls (ih h')

theorem Depth.spells {w b} (h : Spells w b) (d : Nat) : Depth d w d := by
  induction h with
  | nil => exact .nil
  | cons h1 _ ih => exact .byte h1 ih

end Verif.Spec
