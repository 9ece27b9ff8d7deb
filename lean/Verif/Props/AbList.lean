import Verif.Lemmas.AbList
/-!
# C39: evaluated lists, their text, and their views
-/
namespace Verif.Props
open Verif Verif.Ast Verif.Abtxt Verif.Abl Verif.Spec

/-- The texts `parse_ablist_b` accepts, and what they mean. -/
theorem ablist_parse_iff (s : Bytes) (l : ABList) : parseAblist s = some l ↔ AblText s l := parseAblist_iff' s l

/-- Printing a list and parsing the text gives the list back exactly when every component after the first has a
delimiter (what the type asks for) and the first is not an empty component without one. -/
theorem ablist_roundtrip_iff (l : ABList) : parseAblist (display l) = some l ↔ Delimited l ∧ ¬ SilentHead l := by
  constructor
  · intro h; exact delimited_text ((parseAblist_iff' _ _).1 h)
  · rintro ⟨h1, h2⟩
    rw [parse_display l h1, dropLead_of_not h2]

example : Delimited [(none, [0x61]), (some .colon, []), (some .fslash, [0x3a, 0xff])] ∧
    ¬ SilentHead [(none, [0x61]), (some .colon, []), (some .fslash, [0x3a, 0xff])] := by
  simp [Delimited, SilentHead]

/-- Every delimited list prints to a text that parses; only a silent first component is lost. -/
theorem ablist_print_parses_partial (l : ABList) (h : Delimited l) :
    parseAblist (display l) = some (if l.head? = some (none, []) then l.tail else l) := by
  rw [parse_display l h]
  by_cases hs : SilentHead l
  · rw [if_pos (show l.head? = some (none, []) from hs)]
    cases l with
    | nil => cases hs
    | cons e l => simp [SilentHead] at hs; subst hs; rfl
  · rw [if_neg (show ¬ l.head? = some (none, []) from hs), dropLead_of_not hs]

example : Delimited [(none, []), (some .colon, [0x62])] := by simp [Delimited]

/-- Witness for what is missing: the two-component list `'' : b` prints as `:b`, which parses as the one-component list
`:b`. -/
theorem ablist_silent_head_lost :
    display [(none, []), (some .colon, [0x62])] = ascii ":b" ∧
    parseAblist (display [(none, []), (some .colon, [0x62])]) = some [(some .colon, [0x62])] :=
  ⟨by decide, by rw [parse_display _ (by simp [Delimited])]; rfl⟩

/-- Whatever parses is printed to a text that parses to the same list. -/
theorem ablist_parse_print_parse (s : Bytes) (l : ABList) (h : parseAblist s = some l) :
    parseAblist (display l) = some l :=
  (ablist_roundtrip_iff l).2 (delimited_text ((parseAblist_iff' _ _).1 h))

example : parseAblist (ascii "a:b/") = some [(none, [0x61]), (some .colon, [0x62]), (some .fslash, [])] := by
  have : ascii "a:b/" = display [(none, [0x61]), (some .colon, [0x62]), (some .fslash, [])] := by decide
  rw [this, parse_display _ (by simp [Delimited])]
  rfl

/-- Two lists that print alike are the same list. -/
theorem ablist_display_injective (a b : ABList) (ha : Delimited a) (ha' : ¬ SilentHead a) (hb : Delimited b)
    (hb' : ¬ SilentHead b) (h : display a = display b) : a = b := by
  have h1 := (ablist_roundtrip_iff a).2 ⟨ha, ha'⟩
  rw [h, (ablist_roundtrip_iff b).2 ⟨hb, hb'⟩] at h1
  exact (Option.some.inj h1).symm

example : Delimited [(some .colon, [0x62])] ∧ ¬ SilentHead [(some .colon, [0x62])] := by simp [Delimited, SilentHead]

/-- The syntax-tree form of a list: turning it into nodes and back loses only a silent first component. -/
theorem ablist_nodes_roundtrip (l : ABList) (h : Delimited l) (hs : ¬ SilentHead l) : ofAbe (toAbe l) = some l := by
  rw [ofAbe_toAbe l h, dropLead_of_not hs]

/-- A bracket anywhere is refused; anything else is accepted. -/
theorem ablist_of_nodes_iff (t : List ABE) : (ofAbe t).isSome ↔ ∀ e ∈ t, ∀ l, e ≠ .lst l := by
  rw [ofAbe, Option.isSome_map]
  induction t with
  | nil => simp
  | cons e t ih =>
    rw [List.mapM_cons]
    cases e with
    | lst l => simp [itemOf]
    | ctr c => simp [itemOf] at ih ⊢; rw [← ih]; cases t.mapM itemOf <;> simp
    | bytes b => simp [itemOf] at ih ⊢; rw [← ih]; cases t.mapM itemOf <;> simp

/-- `split_fslash` cuts in front of every later `/`, and that cut is unique. -/
theorem ablist_split_iff (l : ABList) (segs : List ABList) : splitFslash l = segs ↔ SlashSplit l segs :=
  ⟨fun h => h ▸ (split_spec l).1, fun h => split_unique' l _ _ (split_spec l).1 h⟩

example : SlashSplit [(none, [0x61]), (some .fslash, [0x62]), (some .colon, [0x63])]
    [[(none, [0x61])], [(some .fslash, [0x62]), (some .colon, [0x63])]] := by
  constructor <;> simp

/-- The components of a list built from components are those components. -/
theorem ablist_components (es : List Bytes) (d : Ctr) : iterBytes (delimited es d) = es := by
  cases es with
  | nil => rfl
  | cons e es =>
    simp only [delimited, List.map_cons, iterBytes, List.head?_cons, List.map_map, List.nil_append]
    congr 1
    induction es with
    | nil => rfl
    | cons a es ih => rw [List.map_cons, ih]; rfl

/-- `iter_bytes` on a list with a leading delimiter yields an extra empty component in front; otherwise one component
per entry. -/
theorem ablist_components_entry (c : Option Ctr) (b : Bytes) (r : ABList) :
    iterBytes ((c, b) :: r) = (if c = none then [] else [[]]) ++ b :: r.map Prod.snd := by
  cases c <;> simp [iterBytes]

/-- `concat` is the printed text of a list without anything to escape. -/
theorem ablist_concat_plain (l : ABList) (h : ∀ e ∈ l, ∀ c ∈ e.2, Printable c ∧ ∀ k ∈ special, c ≠ UInt8.ofNat k.toNat) :
    concat l = display l := by
  have h1 : concat l = l.flatMap (fun e => asStr e.1 ++ e.2) := by
    cases l with
    | nil => rfl
    | cons e l => simp [concat]
  rw [h1, display]
  have hp : ∀ c : UInt8, (Printable c ∧ ∀ k ∈ special, c ≠ UInt8.ofNat k.toNat) → escapedByte c = false := by
    refine all_u8 _ ?_
    unfold Printable special
    decide +kernel
  induction l with
  | nil => rfl
  | cons e l ih =>
    rw [List.flatMap_cons, List.flatMap_cons, ih (fun e he => h e (List.mem_cons_of_mem _ he)) (by
      cases l with
      | nil => rfl
      | cons e l => simp [concat])]
    congr 2
    rw [asAbtxt, if_pos]
    rw [List.all_eq_true]
    intro c hc
    rw [hp c (h e List.mem_cons_self c hc)]; rfl

example : ∀ e ∈ ([(none, ascii "ab"), (some .colon, ascii "c")] : ABList), ∀ c ∈ e.2,
    Printable c ∧ ∀ k ∈ special, c ≠ UInt8.ofNat k.toNat := by
  unfold Printable special; decide

/-- A list is a plain byte string exactly when it has one component without a delimiter, or none. -/
theorem ablist_exact_iff (l : ABList) (b : Bytes) :
    asExactBytes l = some b ↔ l = [(none, b)] ∨ (l = [] ∧ b = []) := by
  unfold asExactBytes
  split
  · simp [eq_comm]
  · simp
  · rename_i h1 h2
    constructor
    · intro h; cases h
    · rintro (h | ⟨h, _⟩)
      · exact absurd h (h2 b)
      · exact absurd h h1

end Verif.Props
