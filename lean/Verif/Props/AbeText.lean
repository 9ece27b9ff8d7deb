import Verif.Lemmas.Tokenize2
/-!
# C36, C37, C38: ABE text

Property theorems about byte text, syntax trees and the component splitter.
-/
namespace Verif.Props
open Verif Verif.Abtxt Verif.Ast Verif.Spec

/-! ## C36 byte text -/

/-- C36: printing any byte string and parsing it (with room for `n` bytes) gives the bytes back, and
fails with the size error exactly when they do not fit. -/
theorem abtxt_roundtrip (bs : Bytes) (n : Nat) :
    parseUptoMax (asAbtxt bs) n = if bs.length ≤ n then .ok bs else .error .fitSlice := by
  rw [asAbtxt_eq]; exact spells_parse (flatMap_escape_spells bs) n

/-- C36: the parser accepts exactly the texts that spell a byte string of at most `n` bytes
according to the grammar, and returns those bytes. -/
theorem abtxt_parse_iff (s bs : Bytes) (n : Nat) :
    parseUptoMax s n = .ok bs ↔ Spells s bs ∧ bs.length ≤ n := by
  constructor
  · intro h
    have hs := parse_spells n h
    refine ⟨hs, ?_⟩
    rw [spells_parse hs] at h
    split at h
    · assumption
    · cases h
  · rintro ⟨hs, hn⟩; rw [spells_parse hs]; simp [hn]

/-- C36: the printed text is printable ASCII. -/
theorem abtxt_printable (bs : Bytes) : ∀ c ∈ asAbtxt bs, Printable c := by
  rw [asAbtxt_eq]
  intro c hc
  simp only [List.mem_flatMap] at hc
  obtain ⟨b, _, hc⟩ := hc
  have key : ∀ b : UInt8, ∀ c ∈ escapeDefault b, 32 ≤ c.toNat ∧ c.toNat ≤ 126 := by
    set_option maxRecDepth 100000 in
    apply all_u8; decide
  exact key b c hc

/-- C36: distinct byte strings have distinct texts. -/
theorem abtxt_injective (a b : Bytes) (h : asAbtxt a = asAbtxt b) : a = b := by
  have h1 := abtxt_roundtrip a (max a.length b.length)
  have h2 := abtxt_roundtrip b (max a.length b.length)
  rw [h, h2] at h1
  simp only [Nat.le_max_left, Nat.le_max_right, if_true] at h1
  injection h1 with h1; exact h1.symm

/-- witness: a string with every kind of escape -/
example : asAbtxt [0, 255, 10, 47, 58, 91, 93, 92, 65, 200] =
    ascii "\\0\\f\\n\\/\\:\\[\\]\\\\A\\xc8" := by decide
example : Spells (ascii "a\\xC8\\n") [97, 200, 10] :=
  .cons (.plain 97 (by decide) (by decide) (by decide))
    (.cons (.hex 67 56 12 8 (.inr (by decide)) (.inl (by decide))) (.cons (.esc 'n' 10 (by decide)) .nil))

/-! ## C37 syntax trees -/

/-- C37: the strict parser decides the grammar: it returns `t` exactly when the text spells `t`. -/
theorem parse_iff_grammar (s : Bytes) (t : List ABE) : parseStrict s = .ok t ↔ AbeText s t :=
  ⟨text_of_parse, fun h => parse_of_text h false⟩

/-- C37: parsing the printed form of a tree gives the tree back exactly for trees in normal form
(no empty and no adjacent byte nodes) - the ones the parser can produce. -/
theorem parse_print (t : List ABE) : parseStrict (printAbe t) = .ok t ↔ Norm t :=
  ⟨fun h => norm_of_text (text_of_parse h), fun h => parse_of_text (text_of_norm t h) false⟩

/-- C37: the parser only produces trees in normal form. -/
theorem parse_norm (s : Bytes) (t : List ABE) (h : parseStrict s = .ok t) : Norm t :=
  norm_of_text (text_of_parse h)

/-- C37: parse, print, parse is parse. -/
theorem parse_print_parse (s : Bytes) (t : List ABE) (h : parseStrict s = .ok t) :
    parseStrict (printAbe t) = .ok t := (parse_print t).mpr (parse_norm s t h)

/-- C37: the loose parser agrees with the strict parser wherever the latter succeeds. -/
theorem parse_loose_extends (s : Bytes) (t : List ABE) (h : parseStrict s = .ok t) :
    parse true s = .ok t := parse_of_text (text_of_parse h) true

/-- C37: accepted texts are balanced - depth never goes negative and ends at zero. -/
theorem parse_balanced (s : Bytes) (t : List ABE) (h : parseStrict s = .ok t) : Depth 0 s 0 := by
  replace h := text_of_parse h
  suffices ∀ d, Depth d s d from this 0
  induction h with
  | nil => exact fun _ => .nil
  | colon _ ih => exact fun d => .delim (.inl rfl) (ih d)
  | fslash _ ih => exact fun d => .delim (.inr rfl) (ih d)
  | lst _ _ ih1 ih2 => exact fun d => .opn ((ih1 (d+1)).append (.cls (ih2 d)))
  | bytes hw _ _ _ ih => exact fun d => (Depth.spells hw d).append (ih d)

/-- witness: nested brackets, both delimiters, an escape -/
example : AbeText (ascii "a:[b/[\\n]]") [.bytes [97], .ctr .colon, .lst [.bytes [98], .ctr .fslash, .lst [.bytes [10]]]] := by
  have key : Norm [.bytes [97], .ctr .colon, .lst [.bytes [98], .ctr .fslash, .lst [.bytes [10]]]] := by
    simp [Norm, NormOne, NoBytesHead]
  exact text_of_norm _ key

/-! ## C38 splitting into components -/

/-- C38: for a list of excluded characters without repetitions, `lk_tokenize_abe` returns exactly the
components described by the grammar `Split` and fails exactly when there is no such split. -/
theorem tokenize_iff_split (s excl : Bytes) (hx : excl.Nodup) (ts : List (UInt8 × Bool × Bytes)) :
    lkTokenize s excl = .ok ts ↔ Split (Excluded excl) 0 s ts := by
  unfold lkTokenize
  rw [← plainIn_exclude_eq excl hx]
  exact ⟨split_of_tokenize, tokenize_of_split⟩

/-- C38 (partial): gluing the returned components gives the text back, except that a separator at the
very end of the text is lost. Full claim: the glued components always equal the text
(false: `tokenize_loses_trailing_separator`). -/
theorem tokenize_rejoin_partial (s excl : Bytes) (hx : excl.Nodup) (ts : List (UInt8 × Bool × Bytes))
    (h : lkTokenize s excl = .ok ts) :
    s = rejoin ts ∨ ∃ k, Sep (Excluded excl) k ∧ s = rejoin ts ++ [k.asChar] := by
  have H := rejoin_split ((tokenize_iff_split s excl hx ts).mp h)
  simp only [if_true, List.nil_append] at H
  rcases H with ⟨rfl, rfl⟩ | H | H
  · exact .inl rfl
  · exact .inl H
  · exact .inr H

/-- C38 counterexample: the text `a:` and the text `a` have the same components. -/
theorem tokenize_loses_trailing_separator :
    lkTokenize (ascii "a:") [] = lkTokenize (ascii "a") [] ∧
    lkTokenize (ascii "a:") [] = .ok [(0, false, ascii "a")] := by
  have h1 : lkTokenize (ascii "a:") [] = .ok [(0, false, ascii "a")] := by
    rw [tokenize_iff_split _ _ (by simp)]
    exact .more (c := [97]) (k := .colon) (.byte (.plain 97 (by decide) (by decide) (by decide)) .nil)
      ⟨by simp [Excluded], rfl⟩ .empty
  have h2 : lkTokenize (ascii "a") [] = .ok [(0, false, ascii "a")] := by
    rw [tokenize_iff_split _ _ (by simp)]
    exact .last (.byte (.plain 97 (by decide) (by decide) (by decide)) .nil) (by decide)
  exact ⟨by rw [h1, h2], h1⟩

/-- C38 counterexample: naming an excluded character twice un-excludes it (the sets are xor-ed). -/
theorem tokenize_double_exclusion_cancels :
    excludeCset (ascii "//") = excludeCset [] ∧ excludeCset (ascii "/") ≠ excludeCset [] := by decide

/-- witness of the splitter hypotheses: separators, an excluded one, brackets -/
example : lkTokenize (ascii "x/y:[:/]") (ascii "/") =
    .ok [(0, false, ascii "x/y"), (58, true, ascii "[:/]")] := by
  have pl : ∀ c : UInt8, 0x20 ≤ c → c ≤ 0x7e → (∀ d ∈ special, c ≠ UInt8.ofNat d.toNat) → Spells1 [c] c :=
    fun c => Spells1.plain c
  rw [tokenize_iff_split _ _ (by decide)]
  exact .more (c := ascii "x/y") (k := .colon)
    (.byte (pl 120 (by decide) (by decide) (by decide)) (.plain (k := .fslash) (by decide : _ ∈ _)
      (.byte (pl 121 (by decide) (by decide) (by decide)) .nil)))
    ⟨(by decide : ¬ _ ∈ _), rfl⟩
    (.last (.grp (i := ascii ":/") (by decide : ¬ _ ∈ _) (by decide : ¬ _ ∈ _)
      (.ctr (k := .colon) (by decide : ¬ _ ∈ _) rfl (.plain (k := .fslash) (by decide : _ ∈ _) .nil)) .nil) (by decide))

end Verif.Props
