import Verif.Model.AbList
import Verif.Spec.AbList
import Verif.Lemmas.Ast
namespace Verif.Abl
open Verif Verif.Ast Verif.Abtxt Verif.Spec

theorem pushBytes_snoc (l : ABList) (c : Option Ctr) (v b : Bytes) :
    pushBytes (l ++ [(c, v)]) b = l ++ [(c, v ++ b)] := by simp [pushBytes]

theorem foldl_items_some (l acc : ABList) (h : ∀ e ∈ l, e.1 ≠ none) : (items l).foldl push acc = acc ++ l := by
  induction l generalizing acc with
  | nil => simp [items]
  | cons e l ih =>
    obtain ⟨c, b⟩ := e
    cases c with
    | none => exact absurd rfl (h _ (List.mem_cons_self))
    | some c =>
      have ih' := ih (acc ++ [(some c, b)]) (fun e he => h e (List.mem_cons_of_mem _ he))
      have : items ((some c, b) :: l) = (.ctr c :: (if b.isEmpty then [] else [ABItem.bytes b])) ++ items l := by
        simp [items]
      rw [this, List.foldl_append]
      have h2 : (ABItem.ctr c :: (if b.isEmpty then [] else [ABItem.bytes b])).foldl push acc = acc ++ [(some c, b)] := by
        cases b with
        | nil => simp [push, pushCtr]
        | cons x xs =>
          simp only [List.isEmpty_cons, List.foldl_cons, push, pushCtr, Bool.false_eq_true, if_false, List.foldl_nil]
          rw [pushBytes_snoc]; simp
      rw [h2, ih']; simp

/-- Drop a silent head. -/
def dropLead : ABList → ABList
  | (none, []) :: r => r
  | l => l

theorem fromItems_items (l : ABList) (h : Delimited l) : fromItems (items l) = dropLead l := by
  cases l with
  | nil => rfl
  | cons e l =>
    obtain ⟨c, b⟩ := e
    have ht : ∀ e ∈ l, e.1 ≠ none := h
    cases c with
    | some c =>
      rw [fromItems, foldl_items_some]
      · rfl
      · intro e he
        rcases List.mem_cons.1 he with rfl | he
        · simp
        · exact ht e he
    | none =>
      cases b with
      | nil =>
        have : items ((none, []) :: l) = items l := by simp [items]
        rw [this, fromItems, foldl_items_some _ _ ht]; rfl
      | cons x xs =>
        have : items ((none, x :: xs) :: l) = .bytes (x :: xs) :: items l := by simp [items]
        rw [this, fromItems, List.foldl_cons, foldl_items_some _ _ ht]; rfl

theorem mapM_itemOf (is : List ABItem) : (is.map ABItem.toAbe).mapM itemOf = some is := by
  induction is with
  | nil => rfl
  | cons i is ih =>
    rw [List.map_cons, List.mapM_cons, ih]
    cases i <;> rfl

theorem ofAbe_toAbe (l : ABList) (h : Delimited l) : ofAbe (toAbe l) = some (dropLead l) := by
  rw [ofAbe, toAbe, mapM_itemOf, Option.map_some, fromItems_items l h]

theorem printAbe_append (a b : List ABE) : printAbe (a ++ b) = printAbe a ++ printAbe b := by
  induction a with
  | nil => rw [List.nil_append, printAbe, List.nil_append]
  | cons e a ih => rw [List.cons_append, printAbe, printAbe, ih, List.append_assoc]

theorem display_eq (l : ABList) : display l = printAbe (toAbe l) := by
  induction l with
  | nil => simp [display, toAbe, items, printAbe]
  | cons e l ih =>
    obtain ⟨c, b⟩ := e
    have h1 : display ((c, b) :: l) = (asStr c ++ asAbtxt b) ++ display l := by simp [display]
    have h2 : toAbe ((c, b) :: l) = (((c.map ABItem.ctr).toList ++ (if b.isEmpty then [] else [ABItem.bytes b])).map
        ABItem.toAbe) ++ toAbe l := by simp [toAbe, items]
    rw [h1, h2, printAbe_append, ih]
    congr 1
    rw [asAbtxt_eq]
    cases c <;> cases b <;> simp [asStr, printAbe, printOne, ABItem.toAbe, printBytes]

theorem norm_tail (l : ABList) (h : ∀ e ∈ l, e.1 ≠ none) : Norm (toAbe l) ∧ NoBytesHead (toAbe l) := by
  induction l with
  | nil => exact ⟨trivial, trivial⟩
  | cons e l ih =>
    obtain ⟨c, b⟩ := e
    obtain ⟨i1, i2⟩ := ih (fun e he => h e (List.mem_cons_of_mem _ he))
    cases c with
    | none => exact absurd rfl (h _ (List.mem_cons_self))
    | some c =>
      cases b with
      | nil =>
        have : toAbe ((some c, []) :: l) = .ctr c :: toAbe l := by simp [toAbe, items, ABItem.toAbe]
        rw [this]
        exact ⟨⟨trivial, i1, by simp⟩, trivial⟩
      | cons x xs =>
        have : toAbe ((some c, x :: xs) :: l) = .ctr c :: .bytes (x :: xs) :: toAbe l := by
          simp [toAbe, items, ABItem.toAbe]
        rw [this]
        exact ⟨⟨trivial, ⟨by simp [NormOne], i1, fun _ _ => i2⟩, by simp⟩, trivial⟩

theorem norm_toAbe (l : ABList) (h : Delimited l) : Norm (toAbe l) := by
  cases l with
  | nil => exact trivial
  | cons e l =>
    obtain ⟨c, b⟩ := e
    obtain ⟨i1, i2⟩ := norm_tail l h
    cases c with
    | some c =>
      refine (norm_tail _ ?_).1
      intro e he
      rcases List.mem_cons.1 he with rfl | he
      · simp
      · exact h e he
    | none =>
      cases b with
      | nil =>
        have : toAbe ((none, []) :: l) = toAbe l := by simp [toAbe, items]
        rw [this]; exact i1
      | cons x xs =>
        have : toAbe ((none, x :: xs) :: l) = .bytes (x :: xs) :: toAbe l := by
          simp [toAbe, items, ABItem.toAbe]
        rw [this]
        exact ⟨by simp [NormOne], i1, fun _ _ => i2⟩

theorem parse_display (l : ABList) (h : Delimited l) : parseAblist (display l) = some (dropLead l) := by
  have hp : parseStrict (printAbe (toAbe l)) = .ok (toAbe l) :=
    parse_of_text (text_of_norm _ (norm_toAbe l h)) false
  rw [parseAblist, display_eq, hp]
  exact ofAbe_toAbe l h

/-- What a parsed text looks like, for any text tree without brackets. -/
theorem ofAbe_tail {s t} (h : AbeText s t) : ∀ {is}, t.mapM itemOf = some is → 
    (NoBytesHead t → ∃ r, AblTail s r ∧ ∀ acc, is.foldl push acc = acc ++ r) ∧
    (¬ NoBytesHead t → ∃ w b s' r, s = w ++ s' ∧ Spells w b ∧ b ≠ [] ∧ AblTail s' r ∧ 
      ∃ is', is = .bytes b :: is' ∧ ∀ acc, is'.foldl push acc = acc ++ r) := by
  induction h with
  | nil =>
    intro is hi
    cases hi
    exact ⟨fun _ => ⟨[], .nil, fun acc => by simp⟩, fun h => absurd trivial h⟩
  | @colon s t ht ih =>
    intro is hi
    refine ⟨fun _ => ?_, fun h => absurd trivial h⟩
    rw [List.mapM_cons] at hi
    cases hm : t.mapM itemOf with
    | none => rw [hm] at hi; cases hi
    | some is' =>
      rw [hm] at hi
      cases hi
      obtain ⟨i1, i2⟩ := ih hm
      by_cases hn : NoBytesHead t
      · obtain ⟨r, hr, hf⟩ := i1 hn
        refine ⟨(some .colon, []) :: r, AblTail.colon (w := []) .nil hr, fun acc => ?_⟩
        simp [push, pushCtr, hf]
      · obtain ⟨w, b, s', r, rfl, hw, hb, hr, is'', rfl, hf⟩ := i2 hn
        refine ⟨(some .colon, b) :: r, AblTail.colon hw hr, fun acc => ?_⟩
        simp [push, pushCtr, hf, pushBytes_snoc]
  | @fslash s t ht ih =>
    intro is hi
    refine ⟨fun _ => ?_, fun h => absurd trivial h⟩
    rw [List.mapM_cons] at hi
    cases hm : t.mapM itemOf with
    | none => rw [hm] at hi; cases hi
    | some is' =>
      rw [hm] at hi
      cases hi
      obtain ⟨i1, i2⟩ := ih hm
      by_cases hn : NoBytesHead t
      · obtain ⟨r, hr, hf⟩ := i1 hn
        refine ⟨(some .fslash, []) :: r, AblTail.fslash (w := []) .nil hr, fun acc => ?_⟩
        simp [push, pushCtr, hf]
      · obtain ⟨w, b, s', r, rfl, hw, hb, hr, is'', rfl, hf⟩ := i2 hn
        refine ⟨(some .fslash, b) :: r, AblTail.fslash hw hr, fun acc => ?_⟩
        simp [push, pushCtr, hf, pushBytes_snoc]
  | lst _ _ _ _ =>
    intro is hi
    rw [List.mapM_cons] at hi
    cases hi
  | @bytes w b s t hw hb hn ht ih =>
    intro is hi
    refine ⟨fun h => absurd h (by simp [NoBytesHead]), fun _ => ?_⟩
    rw [List.mapM_cons] at hi
    cases hm : t.mapM itemOf with
    | none => rw [hm] at hi; cases hi
    | some is' =>
      rw [hm] at hi
      cases hi
      obtain ⟨r, hr, hf⟩ := (ih hm).1 hn
      exact ⟨w, b, s, r, rfl, hw, hb, hr, is', rfl, hf⟩

theorem text_of_ofAbe {s t l} (h : AbeText s t) (ho : ofAbe t = some l) : AblText s l := by
  rw [ofAbe] at ho
  cases hm : t.mapM itemOf with
  | none => rw [hm] at ho; cases ho
  | some is =>
    rw [hm] at ho
    cases ho
    obtain ⟨i1, i2⟩ := ofAbe_tail h hm
    by_cases hn : NoBytesHead t
    · obtain ⟨r, hr, hf⟩ := i1 hn
      rw [fromItems, hf, List.nil_append]; exact .bare hr
    · obtain ⟨w, b, s', r, rfl, hw, hb, hr, is'', rfl, hf⟩ := i2 hn
      rw [fromItems, List.foldl_cons, hf]
      exact .head hw hb hr

theorem delimited_tail {s l} (h : AblTail s l) : ∀ e ∈ l, e.1 ≠ none := by
  induction h with
  | nil => intro e he; cases he
  | colon _ _ ih =>
    intro e he
    rcases List.mem_cons.1 he with rfl | he
    · simp
    · exact ih e he
  | fslash _ _ ih =>
    intro e he
    rcases List.mem_cons.1 he with rfl | he
    · simp
    · exact ih e he

theorem delimited_text {s l} (h : AblText s l) : Delimited l ∧ ¬ SilentHead l := by
  cases h with
  | bare h =>
    have := delimited_tail h
    refine ⟨fun e he => this e (List.mem_of_mem_tail he), ?_⟩
    intro hs
    cases l with
    | nil => cases hs
    | cons e l =>
      have h1 := this e List.mem_cons_self
      rw [SilentHead] at hs
      simp at hs; rw [hs] at h1; exact h1 rfl
  | head hw hb h =>
    refine ⟨delimited_tail h, ?_⟩
    intro hs; rw [SilentHead] at hs; simp at hs; exact hb hs

theorem abeText_tail {s l} (h : AblTail s l) : AbeText s (toAbe l) := by
  induction h with
  | nil => exact .nil
  | @colon w b s l hw ht ih =>
    have hn := (norm_tail l (delimited_tail ht)).2
    cases b with
    | nil =>
      have : toAbe ((some Ctr.colon, []) :: l) = .ctr .colon :: toAbe l := by simp [toAbe, items, ABItem.toAbe]
      rw [this]
      have : w = [] := by cases hw; rfl
      subst this
      exact .colon ih
    | cons x xs =>
      have : toAbe ((some Ctr.colon, x :: xs) :: l) = .ctr .colon :: .bytes (x :: xs) :: toAbe l := by
        simp [toAbe, items, ABItem.toAbe]
      rw [this]
      exact .colon (.bytes hw (by simp) hn ih)
  | @fslash w b s l hw ht ih =>
    have hn := (norm_tail l (delimited_tail ht)).2
    cases b with
    | nil =>
      have : toAbe ((some Ctr.fslash, []) :: l) = .ctr .fslash :: toAbe l := by simp [toAbe, items, ABItem.toAbe]
      rw [this]
      have : w = [] := by cases hw; rfl
      subst this
      exact .fslash ih
    | cons x xs =>
      have : toAbe ((some Ctr.fslash, x :: xs) :: l) = .ctr .fslash :: .bytes (x :: xs) :: toAbe l := by
        simp [toAbe, items, ABItem.toAbe]
      rw [this]
      exact .fslash (.bytes hw (by simp) hn ih)

theorem abeText_of_ablText {s l} (h : AblText s l) : AbeText s (toAbe l) := by
  cases h with
  | bare h => exact abeText_tail h
  | @head w b s l hw hb h =>
    have : toAbe ((none, b) :: l) = .bytes b :: toAbe l := by
      cases b with
      | nil => exact absurd rfl hb
      | cons x xs => simp [toAbe, items, ABItem.toAbe]
    rw [this]
    exact .bytes hw hb (norm_tail _ (delimited_tail h)).2 (abeText_tail h)

theorem dropLead_of_not {l : ABList} (h : ¬ SilentHead l) : dropLead l = l := by
  unfold dropLead
  split
  · exact absurd rfl h
  · rfl

theorem parseAblist_iff' (s : Bytes) (l : ABList) : parseAblist s = some l ↔ AblText s l := by
  constructor
  · intro h
    rw [parseAblist] at h
    split at h
    · rename_i t ht
      exact text_of_ofAbe (text_of_parse ht) h
    · cases h
  · intro h
    have hp := parse_of_text (abeText_of_ablText h) false
    rw [parseAblist, parseStrict, hp]
    obtain ⟨hd, hs⟩ := delimited_text h
    show ofAbe (toAbe l) = some l
    rw [ofAbe_toAbe l hd, dropLead_of_not hs]

theorem mem_takeWhile_not {r : ABList} {e} (h : e ∈ r.takeWhile (fun v => v.1 != some .fslash)) : e.1 ≠ some .fslash := by
  induction r with
  | nil => cases h
  | cons x r ih =>
    rw [List.takeWhile_cons] at h
    split at h
    · rename_i hx
      rcases List.mem_cons.1 h with rfl | h
      · simpa using hx
      · exact ih h
    · cases h

theorem dropWhile_head {r : ABList} : 
    r.dropWhile (fun v => v.1 != some .fslash) = [] ∨ ∃ b t, r.dropWhile (fun v => v.1 != some .fslash) = (some .fslash, b) :: t := by
  induction r with
  | nil => exact .inl rfl
  | cons x r ih =>
    rw [List.dropWhile_cons]
    split
    · exact ih
    · rename_i hx
      right
      obtain ⟨c, b⟩ := x
      have : c = some .fslash := by simpa using hx
      exact ⟨b, r, by rw [this]⟩

theorem split_spec (l : ABList) : SlashSplit l (splitFslash l) ∧ (∀ s r, splitFslash l = s :: r → s.head? = l.head?) := by
  induction hl : l.length using Nat.strongRecOn generalizing l with
  | _ n ih =>
    cases l with
    | nil =>
      rw [splitFslash]
      refine ⟨⟨rfl, ?_, ?_, ?_⟩, ?_⟩ <;> simp
    | cons e r =>
      rw [splitFslash]
      have hlt : (segRest e r).2.length < n := by
        simp only [segRest]
        have := (List.dropWhile_sublist (fun v : ABLV => v.1 != some .fslash) (l := r)).length_le
        simp at hl; omega
      obtain ⟨i, ih2⟩ := ih _ hlt (segRest e r).2 rfl
      refine ⟨⟨?_, ?_, ?_, ?_⟩, ?_⟩
      · rw [List.flatten_cons, i.whole]; simp [segRest, List.takeWhile_append_dropWhile]
      · intro s hs
        rcases List.mem_cons.1 hs with rfl | hs
        · simp [segRest]
        · exact i.nonempty s hs
      · intro s hs e' he
        rcases List.mem_cons.1 hs with rfl | hs
        · exact mem_takeWhile_not (by simpa [segRest] using he)
        · exact i.inside s hs e' he
      · intro s hs
        rw [List.tail_cons] at hs
        cases hsp : splitFslash (segRest e r).2 with
        | nil => rw [hsp] at hs; cases hs
        | cons a as =>
          rw [hsp] at hs
          rcases List.mem_cons.1 hs with rfl | hs
          · have h1 := ih2 s as hsp
            have h2 : s ≠ [] := i.nonempty s (by rw [hsp]; exact List.mem_cons_self)
            cases s with
            | nil => exact absurd rfl h2
            | cons x xs =>
              rcases dropWhile_head (r := r) with h3 | ⟨b, t, h3⟩
              · simp only [segRest] at h1; rw [h3] at h1; cases h1
              · simp only [segRest] at h1; rw [h3] at h1
                simp at h1
                exact ⟨b, xs, by rw [h1]⟩
          · exact i.starts s (by rw [hsp]; exact hs)
      · intro s r' h
        injection h with h _
        rw [← h]; simp [segRest]

theorem split_unique' (l : ABList) (a b : List ABList) (ha : SlashSplit l a) (hb : SlashSplit l b) : a = b := by
  induction a generalizing l b with
  | nil =>
    cases b with
    | nil => rfl
    | cons y b =>
      have h1 := ha.whole
      have h2 := hb.whole
      rw [← h1] at h2
      have h3 := hb.nonempty y List.mem_cons_self
      simp at h2
      exact absurd h2.1 h3
  | cons x a ih =>
    cases b with
    | nil =>
      have h1 := ha.whole
      have h2 := hb.whole
      rw [← h2] at h1
      have h3 := ha.nonempty x List.mem_cons_self
      simp at h1
      exact absurd h1.1 h3
    | cons y b =>
      have hx := ha.nonempty x List.mem_cons_self
      have hy := hb.nonempty y List.mem_cons_self
      cases x with
      | nil => exact absurd rfl hx
      | cons e x =>
      cases y with
      | nil => exact absurd rfl hy
      | cons e' y =>
        have hw : e :: (x ++ a.flatten) = e' :: (y ++ b.flatten) := by
          have := ha.whole.trans hb.whole.symm
          simpa using this
        injection hw with he hw
        subst he
        have key : ∀ (x y : ABList) (p q : List ABList), (∀ e ∈ x, e.1 ≠ some .fslash) → (∀ e ∈ y, e.1 ≠ some .fslash) →
            (∀ s ∈ p, ∃ b r, s = ((some .fslash, b) : ABLV) :: r) → (∀ s ∈ q, ∃ b r, s = ((some .fslash, b) : ABLV) :: r) →
            x ++ p.flatten = y ++ q.flatten → x = y ∧ p.flatten = q.flatten := by
          intro x
          induction x with
          | nil =>
            intro y p q _ h2 h3 h4 h
            cases y with
            | nil => exact ⟨rfl, by simpa using h⟩
            | cons z y =>
              cases p with
              | nil => cases h
              | cons s p =>
                obtain ⟨bb, r, rfl⟩ := h3 s List.mem_cons_self
                simp at h
                exact absurd (by rw [← h.1]) (h2 z List.mem_cons_self)
          | cons w x ihx =>
            intro y p q h1 h2 h3 h4 h
            cases y with
            | nil =>
              cases q with
              | nil => cases h
              | cons s q =>
                obtain ⟨bb, r, rfl⟩ := h4 s List.mem_cons_self
                simp at h
                exact absurd (by rw [h.1]) (h1 w List.mem_cons_self)
            | cons z y =>
              simp only [List.cons_append] at h
              injection h with h5 h
              obtain ⟨h6, h7⟩ := ihx y p q (fun e he => h1 e (List.mem_cons_of_mem _ he))
                (fun e he => h2 e (List.mem_cons_of_mem _ he)) h3 h4 h
              exact ⟨by rw [h5, h6], h7⟩
        obtain ⟨hxy, hf⟩ := key x y a b (ha.inside _ List.mem_cons_self) (hb.inside _ List.mem_cons_self) ha.starts hb.starts hw
        subst hxy
        congr 1
        exact ih a.flatten b
          ⟨rfl, fun s hs => ha.nonempty s (List.mem_cons_of_mem _ hs), fun s hs => ha.inside s (List.mem_cons_of_mem _ hs),
            fun s hs => ha.starts s (List.mem_of_mem_tail hs)⟩
          ⟨hf.symm, fun s hs => hb.nonempty s (List.mem_cons_of_mem _ hs), fun s hs => hb.inside s (List.mem_cons_of_mem _ hs),
            fun s hs => hb.starts s (List.mem_of_mem_tail hs)⟩

end Verif.Abl
