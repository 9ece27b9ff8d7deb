import Verif.Spec.Options
import Verif.Props.AbList
import Verif.Props.AbeText
import Verif.Model.Options
/-!
# C45: the options of a query
-/
namespace Verif.Props
open Verif Verif.Ast Verif.Abl Verif.Spec Verif.Opt Verif.Pkt Verif.Pred Verif.Query

theorem newest_head {α : Type} (p : α → Bool) (c : List α) (l : α) :
    (c.reverse.filter p).head? = some l ↔ Newest (fun x => p x = true) c l := by
  rw [List.head?_filter, List.find?_eq_some_iff_append]
  constructor
  · rintro ⟨h1, as, bs, h2, h3⟩
    refine ⟨bs.reverse, as.reverse, ?_, h1, fun x hx => ?_⟩
    · have := congrArg List.reverse h2
      simpa using this
    · have := h3 x (List.mem_reverse.1 hx)
      simpa using this
  · rintro ⟨older, newer, rfl, h1, h2⟩
    refine ⟨h1, newer.reverse, older.reverse, by simp, fun x hx => ?_⟩
    have := h2 x (List.mem_reverse.1 hx)
    simpa using this

theorem newest_none {α : Type} (p : α → Bool) (c : List α) : (c.reverse.filter p).head? = none ↔ ∀ x ∈ c, p x = false := by
  rw [List.head?_filter, List.find?_eq_none]
  simp

theorem newest_congr {α : Type} {P Q : α → Prop} {c : List α} (h : ∀ x ∈ c, P x ↔ Q x) (l : α) : Newest P c l ↔ Newest Q c l := by
  constructor
  · rintro ⟨a, b, rfl, h1, h2⟩
    exact ⟨a, b, rfl, (h l (by simp)).1 h1, fun x hx hq => h2 x hx ((h x (by simp [hx])).2 hq)⟩
  · rintro ⟨a, b, rfl, h1, h2⟩
    exact ⟨a, b, rfl, (h l (by simp)).2 h1, fun x hx hq => h2 x hx ((h x (by simp [hx])).1 hq)⟩

theorem newest_unique {α : Type} {P : α → Prop} {c : List α} {l m : α} (h1 : Newest P c l) (h2 : Newest P c m) : l = m := by
  have : DecidablePred P := fun x => Classical.propDecidable _
  have e : ∀ l, Newest P c l → (c.reverse.filter (fun x => decide (P x))).head? = some l := by
    intro l h
    rw [newest_head]
    exact (newest_congr (fun x _ => by simp) l).1 h
  have := (e l h1).symm.trans (e m h2)
  exact Option.some.inj this

/-- For options the filter asks for the name and something after it. -/
theorem startsWith_iff (name : Bytes) {l : ABList} (h : IsOption l) : startsWith [[], name] l = true ↔ Carries name l := by
  obtain ⟨c, b, r, rfl⟩ := h
  unfold startsWith iterBytes
  cases r with
  | nil => simp [Carries]
  | cons e r =>
    simp only [List.length_cons, List.length_nil, List.head?_cons, List.map_cons, List.cons_append, List.nil_append, List.zip_cons_cons,
      List.zip_nil_left, List.all_cons, List.all_nil, Bool.and_true, beq_self_eq_true, Bool.true_and, Bool.and_eq_true, decide_eq_true_eq,
      beq_iff_eq, Carries]
    constructor
    · rintro ⟨_, rfl⟩
      exact ⟨c, e, r, rfl⟩
    · rintro ⟨c', e', r', h⟩
      have h0 := (List.cons.inj h).1
      exact ⟨by omega, (Prod.mk.inj h0).2.symm⟩

/-- What a list found under the name is worth. -/
def worth (l : ABList) : Except (Fault ABList) (Option (Option Bytes)) :=
  match l with
  | [(some .colon, _), (some .colon, v)] => .ok (some (some v))
  | _ => .error (.err l)
theorem option_of_found {c : Conf} {name : Bytes} {l : ABList} (h : (getInner c [[], name]).head? = some l) (hl : Carries name l) :
    getOption c name = worth l := by
  unfold getOption hasOptionalValue getChecked
  rw [List.head?_map, h]
  obtain ⟨d, ⟨e, v⟩, r, rfl⟩ := hl
  simp only [Option.map_some, checked, List.length_cons, List.length_nil]
  cases d with
  | fslash => rfl
  | colon =>
    cases e with
    | none => cases r <;> rfl
    | some e =>
      cases e with
      | fslash => rfl
      | colon => cases r <;> rfl

theorem option_cases {c : Conf} (hc : ∀ l ∈ c, IsOption l) (name : Bytes) :
    (getOption c name = .ok none ∧ ∀ l ∈ c, ¬ Carries name l) ∨
      ∃ l, Newest (Carries name) c l ∧ getOption c name = worth l := by
  cases h : (getInner c [[], name]).head? with
  | none =>
    refine .inl ⟨?_, ?_⟩
    · unfold getOption hasOptionalValue getChecked
      rw [List.head?_map, h]; rfl
    · intro l hl hn
      have := (newest_none _ _).1 h l hl
      rw [(startsWith_iff name (hc l hl)).2 hn] at this
      cases this
  | some l =>
    have h1 := (newest_congr (fun x hx => startsWith_iff name (hc x hx)) l).1 ((newest_head _ _ _).1 h)
    exact .inr ⟨l, h1, option_of_found h h1.choose_spec.choose_spec.2.1⟩

/-- **C45**: a lookup gives the value of the newest option of that name, and only then. -/
theorem option_value_iff {c : Conf} (hc : ∀ l ∈ c, IsOption l) (name v : Bytes) :
    getOption c name = .ok (some (some v)) ↔ Newest (Carries name) c (plainOption name v) := by
  rcases option_cases hc name with ⟨h1, h2⟩ | ⟨l, h1, h2⟩
  · rw [h1]
    constructor
    · nofun
    · rintro ⟨a, b, rfl, h, _⟩
      exact absurd h (h2 _ (by simp))
  · rw [h2]
    constructor
    · intro h
      unfold worth at h
      split at h
      · cases h
        have hn := h1.choose_spec.choose_spec.2.1
        obtain ⟨_, _, _, hn⟩ := hn
        cases hn
        exact h1
      · cases h
    · intro h
      rw [newest_unique h1 h]
      rfl

/-- Nothing is found exactly if no option has that name and a value. -/
theorem option_absent_iff {c : Conf} (hc : ∀ l ∈ c, IsOption l) (name : Bytes) :
    getOption c name = .ok none ↔ ∀ l ∈ c, ¬ Carries name l := by
  rcases option_cases hc name with ⟨h1, h2⟩ | ⟨l, h1, h2⟩
  · exact iff_of_true h1 h2
  · refine iff_of_false ?_ ?_
    · rw [h2]; unfold worth; split <;> nofun
    · intro h
      obtain ⟨a, b, rfl, hn, _⟩ := h1
      exact h l (by simp) hn

/-- An error is given exactly if the newest option of that name has another form than `:name:value`; it is the one reported. -/
theorem option_error_iff {c : Conf} (hc : ∀ l ∈ c, IsOption l) (name : Bytes) (l : ABList) :
    getOption c name = .error (.err l) ↔ Newest (Carries name) c l ∧ ∀ v, l ≠ plainOption name v := by
  rcases option_cases hc name with ⟨h1, h2⟩ | ⟨m, h1, h2⟩
  · rw [h1]
    refine iff_of_false nofun ?_
    rintro ⟨⟨a, b, rfl, hn, _⟩, _⟩
    exact h2 _ (by simp) hn
  · rw [h2]
    constructor
    · intro h
      unfold worth at h
      split at h
      · cases h
      · rename_i hne
        cases h
        exact ⟨h1, fun v hv => hne name v hv⟩
    · rintro ⟨h3, h4⟩
      rw [newest_unique h1 h3] at *
      unfold worth
      split
      · rename_i _ x v
        obtain ⟨_, _, _, hn⟩ := h3.choose_spec.choose_spec.2.1
        cases hn
        exact absurd rfl (h4 v)
      · rfl

/-- A lookup never panics, and never tells that an option is there without a value: the documented `Some(None)` for `:name`
does not occur.  For every list of lists. -/
theorem option_never_bare (c : Conf) (name : Bytes) : getOption c name ≠ .ok (some none) ∧ getOption c name ≠ .error .panic := by
  unfold getOption hasOptionalValue
  cases h : (getChecked c [[], name]).head? with
  | none => exact ⟨nofun, nofun⟩
  | some r =>
    cases r with
    | error l => exact ⟨nofun, nofun⟩
    | ok l =>
      have hlen : 2 ≤ l.length := by
        unfold getChecked at h
        rw [List.head?_map] at h
        cases h2 : (getInner c [[], name]).head? with
        | none => rw [h2] at h; cases h
        | some m =>
          rw [h2, Option.map_some] at h
          have h3 : checked 2 m = .ok l := Option.some.inj h
          unfold checked at h3
          split at h3
          · cases h3
            have := (List.mem_filter.1 (List.mem_of_head? h2)).2
            simp only [startsWith, Bool.and_eq_true, decide_eq_true_eq] at this
            exact this.1
          · cases h3
      simp only [List.length_cons, List.length_nil, reduceCtorEq, if_false]
      obtain ⟨a, b, r, rfl⟩ : ∃ a b r, l = a :: b :: r := by
        match l, hlen with
        | a :: b :: r, _ => exact ⟨a, b, r, rfl⟩
      show (match b :: r with
        | [(some .colon, b)] => (.ok (some (some b)) : Except (Fault ABList) (Option (Option Bytes)))
        | [] => .ok (some none)
        | _ => .error (.err (a :: b :: r))) ≠ _ ∧ (match b :: r with
        | [(some .colon, b)] => (.ok (some (some b)) : Except (Fault ABList) (Option (Option Bytes)))
        | [] => .ok (some none)
        | _ => .error (.err (a :: b :: r))) ≠ _
      constructor <;> split <;> simp_all

/-! ### adding -/

theorem isOption_added (name : Bytes) (vs : List Bytes) : IsOption ((some Ctr.colon, name) :: vs.map fun v => (some Ctr.colon, v)) :=
  ⟨_, _, _, rfl⟩

/-- What can be in the options of a query, whatever is added. -/
theorem addOption_options {c : Conf} (hc : ∀ l ∈ c, IsOption l) (name : Bytes) (vs : List Bytes) : ∀ l ∈ addOption c name vs, IsOption l := by
  intro l hl
  rcases List.mem_append.1 hl with h | h
  · exact hc l h
  · rw [List.mem_singleton.1 h]; exact isOption_added name vs
theorem addOption_delimited {c : Conf} (hc : ∀ l ∈ c, Delimited l) (name : Bytes) (vs : List Bytes) : ∀ l ∈ addOption c name vs, Delimited l := by
  intro l hl
  rcases List.mem_append.1 hl with h | h
  · exact hc l h
  · rw [List.mem_singleton.1 h]
    intro e he
    obtain ⟨v, _, rfl⟩ := List.mem_map.1 he
    nofun
theorem addOptionAbl_options {c d : Conf} (hc : ∀ l ∈ c, IsOption l) {o : ABList} (h : addOptionAbl c o = .ok d) : ∀ l ∈ d, IsOption l := by
  unfold addOptionAbl at h
  split at h
  · cases h
  · cases h
    intro l hl
    rcases List.mem_append.1 hl with h | h
    · exact hc l h
    · rw [List.mem_singleton.1 h]; exact ⟨_, _, _, rfl⟩
  · cases h

theorem getOption_snoc (c : Conf) (l : ABList) (name : Bytes) (h : startsWith [[], name] l = false) :
    getOption (c ++ [l]) name = getOption c name := by
  unfold getOption hasOptionalValue getChecked getInner
  simp [h]

/-- The option just added is the one found, and the others are as before. -/
theorem option_set (c : Conf) (name v : Bytes) : getOption (addOption c name [v]) name = .ok (some (some v)) := by
  have hs : startsWith [[], name] ((some Ctr.colon, name) :: [v].map fun v => (some Ctr.colon, v)) = true :=
    (startsWith_iff name (isOption_added name [v])).2 ⟨_, _, _, rfl⟩
  have : (getInner (addOption c name [v]) [[], name]).head? = some (plainOption name v) := by
    rw [getInner, newest_head]
    exact ⟨c, [], rfl, hs, nofun⟩
  rw [option_of_found this ⟨_, _, _, rfl⟩]
  rfl
theorem option_set_other (c : Conf) (name other : Bytes) (vs : List Bytes) (h : name ≠ other) :
    getOption (addOption c name vs) other = getOption c other := by
  refine getOption_snoc c _ other (Bool.eq_false_iff.2 fun hs => ?_)
  obtain ⟨_, _, _, h1⟩ := (startsWith_iff other (isOption_added name vs)).1 hs
  have h0 := (List.cons.inj h1).1
  exact h (Prod.mk.inj h0).2

/-- An option added without a value, like `:follow`, is never found. -/
theorem bare_option_lost (c : Conf) (name other : Bytes) : getOption (addOption c name []) other = getOption c other := by
  refine getOption_snoc c _ other (Bool.eq_false_iff.2 fun hs => ?_)
  obtain ⟨_, _, _, h1⟩ := (startsWith_iff other (isOption_added name [])).1 hs
  cases h1

/-- An option added with several values hides older ones and is an error. -/
theorem many_values_error (c : Conf) (name v w : Bytes) (vs : List Bytes) :
    getOption (addOption c name (v :: w :: vs)) name =
      .error (.err ((some .colon, name) :: (v :: w :: vs).map fun v => (some .colon, v))) := by
  have hs : startsWith [[], name] ((some Ctr.colon, name) :: (v :: w :: vs).map fun v => (some Ctr.colon, v)) = true :=
    (startsWith_iff name (isOption_added name _)).2 ⟨_, _, _, rfl⟩
  have : (getInner (addOption c name (v :: w :: vs)) [[], name]).head? = some ((some .colon, name) :: (v :: w :: vs).map fun v => (some .colon, v)) := by
    rw [getInner, newest_head]
    exact ⟨c, [], rfl, hs, nofun⟩
  rw [option_of_found this ⟨_, _, _, rfl⟩]
  rfl

/-- A list without a delimiter in front, which only direct use of `ABConf` can add, has its name taken for its value. -/
theorem undelimited_name_is_value (name : Bytes) : getOption [[(none, []), (some .colon, name)]] name = .ok (some (some name)) := by
  have : (getInner [[(none, []), (some Ctr.colon, name)]] [[], name]).head? = some [(none, []), (some Ctr.colon, name)] := by
    simp [getInner, startsWith, iterBytes]
  unfold getOption hasOptionalValue getChecked
  rw [List.head?_map, this]
  rfl

/-! ### printing and reading -/

theorem splitLines_append (a b : Bytes) (h : ∀ c ∈ a, c ≠ 0x0a) : splitLines (a ++ 0x0a :: b) = a :: splitLines b := by
  induction a with
  | nil => rw [List.nil_append, splitLines, if_pos rfl]
  | cons c a ih =>
    rw [List.cons_append, splitLines, if_neg (h c List.mem_cons_self), ih fun d hd => h d (List.mem_cons_of_mem _ hd)]

theorem display_line (l : ABList) : ∀ c ∈ display l, c ≠ 0x0a := by
  intro c hc
  obtain ⟨e, _, he⟩ := List.mem_flatMap.1 hc
  rcases List.mem_append.1 he with h | h
  · match e.1, h with
    | some .colon, h => rw [List.mem_singleton.1 h]; decide
    | some .fslash, h => rw [List.mem_singleton.1 h]; decide
  · have := abtxt_printable e.2 c h
    intro h'
    rw [h'] at this
    exact absurd this.1 (by decide)

theorem displayConf_lines (c : Conf) (r : Bytes) : splitLines (displayConf c ++ r) = c.reverse.map display ++ splitLines r := by
  unfold displayConf
  generalize c.reverse = c
  induction c with
  | nil => rfl
  | cons l c ih =>
    rw [List.flatMap_cons, List.append_assoc, List.append_assoc, List.singleton_append, splitLines_append _ _ (display_line l), ih]
    rfl

theorem mapM_display (c : List ABList) (h : ∀ l ∈ c, Delimited l ∧ ¬ SilentHead l) : (c.map display ++ [[]]).mapM parseAblist = some (c ++ [[]]) := by
  induction c with
  | nil =>
    have : parseAblist [] = some [] := (ablist_roundtrip_iff []).2 ⟨nofun, nofun⟩
    rw [List.map_nil, List.nil_append, List.mapM_cons, this]
    rfl
  | cons l c ih =>
    rw [List.map_cons, List.cons_append, List.mapM_cons, (ablist_roundtrip_iff l).2 (h l List.mem_cons_self),
      ih fun x hx => h x (List.mem_cons_of_mem _ hx)]
    rfl

/-- The text of the options does not begin with the mark of another format: the newest option is not `:%...`. -/
def Unmarked (c : Conf) : Prop := ∀ older r s, c ≠ older ++ [(some Ctr.colon, 0x25 :: r) :: s]

theorem escape_percent (x : UInt8) : (Abtxt.escapeDefault x).head? = some 0x25 → x = 0x25 := by
  revert x; apply Abtxt.all_u8; decide +kernel
theorem escape_ne (x : UInt8) : Abtxt.escapeDefault x ≠ [] := by
  revert x; apply Abtxt.all_u8; decide +kernel

theorem unmarked_strip {c : Conf} (hc : ∀ l ∈ c, IsOption l) (hdel : ∀ l ∈ c, Delimited l) (h : Unmarked c) : stripPrefix (ascii ":%") (displayConf c) = none := by
  unfold stripPrefix
  rw [if_neg]
  intro hp
  have hp : ascii ":%" <+: displayConf c := List.isPrefixOf_iff_prefix.1 hp
  unfold displayConf at hp
  cases hr : c.reverse with
  | nil => rw [hr] at hp; simp [ascii] at hp
  | cons l o =>
    rw [hr, List.flatMap_cons] at hp
    have hc' : c = o.reverse ++ [l] := by
      have := congrArg List.reverse hr
      simpa using this
    obtain ⟨d, b, s, rfl⟩ := hc l (by rw [hc']; simp)
    have hd : d = .colon ∧ ∃ x bs, b = x :: bs ∧ (Abtxt.escapeDefault x).head? = some 0x25 := by
      have e1 : display ((some d, b) :: s) = asStr (some d) ++ (Abtxt.asAbtxt b ++ display s) := by simp [display]
      rw [e1] at hp
      obtain ⟨t, ht⟩ := hp
      have ht : (0x3a : UInt8) :: 0x25 :: t = _ := ht
      cases d with
      | fslash => cases ht
      | colon =>
        refine ⟨rfl, ?_⟩
        have ht : (0x25 : UInt8) :: t = (Abtxt.asAbtxt b ++ display s ++ [0x0a]) ++ _ := (List.cons.inj ht).2
        cases b with
        | nil =>
          exfalso
          cases s with
          | nil => cases ht
          | cons e s =>
            obtain ⟨e, v⟩ := e
            cases e with
            | none =>
              exact hdel ((some Ctr.colon, []) :: (none, v) :: s) (by rw [hc']; simp) (none, v) (by simp) rfl
            | some e => cases e <;> cases ht
        | cons x bs =>
          refine ⟨x, bs, rfl, ?_⟩
          have e2 : Abtxt.asAbtxt (x :: bs) = Abtxt.escapeDefault x ++ Abtxt.asAbtxt bs := by simp [Abtxt.asAbtxt_eq]
          rw [e2] at ht
          have := congrArg List.head? ht
          simp only [List.append_assoc] at this
          obtain ⟨y, ys, hy⟩ := List.exists_cons_of_ne_nil (escape_ne x)
          rw [hy] at this ⊢
          exact this.symm
    obtain ⟨rfl, x, bs, rfl, hx⟩ := hd
    rw [escape_percent x hx] at hc'
    exact h _ _ _ hc'

/-- Reading the printed options gives them back with an empty list in front, so every lookup by name is the same. -/
theorem options_read_back {c : Conf} (hc : ∀ l ∈ c, IsOption l) (hd : ∀ l ∈ c, Delimited l) (hm : Unmarked c) :
    confOf (displayConf c) = some ([] :: c) ∧ ∀ name, getOption ([] :: c) name = getOption c name := by
  have hs : ∀ l ∈ c.reverse, Delimited l ∧ ¬ SilentHead l := by
    intro l hl
    refine ⟨hd l (List.mem_reverse.1 hl), fun h => ?_⟩
    obtain ⟨_, _, _, rfl⟩ := hc l (List.mem_reverse.1 hl)
    cases h
  refine ⟨?_, fun name => ?_⟩
  · unfold confOf
    rw [unmarked_strip hc hd hm]
    have := displayConf_lines c []
    rw [List.append_nil] at this
    simp only
    rw [this]
    show ((c.reverse.map display ++ [[]]).mapM parseAblist).map List.reverse = _
    rw [mapM_display _ hs]
    simp
  · unfold getOption hasOptionalValue getChecked getInner
    have : startsWith [[], name] [] = false := rfl
    simp [this]

/-- An option whose name starts with `%` makes the printed options unreadable. -/
theorem marked_refused : confOf (displayConf [plainOption (ascii "%a") (ascii "b")]) = none := by decide +kernel

/-! ### the mode -/

theorem tableOf_iff (s : Bytes) (t : TableName) : tableOf s = some t ↔ s = tableText t := by
  unfold tableOf
  constructor
  · intro h
    repeat' split at h
    all_goals first | cases h | skip
    all_goals assumption
  · rintro rfl; cases t <;> decide +kernel
theorem orderOf_iff (s : Bytes) (o : Bool) : orderOf s = some o ↔ s = orderText o := by
  unfold orderOf
  constructor
  · intro h
    repeat' split at h
    all_goals first | cases h | skip
    all_goals assumption
  · rintro rfl; cases o <;> decide +kernel

/-- The six texts are read as the six modes and nothing else is. -/
theorem mode_text_iff (s : Bytes) (m : Mode) : modeOf s = some m ↔ s = modeText m := by
  constructor
  · intro h
    unfold modeOf at h
    split at h
    · rename_i a x b hs
      obtain ⟨h1, h2⟩ := Prod.mk.inj hs
      have hx : x = 0x2d := by
        have := List.head?_dropWhile_not (p := (· != 0x2d)) (l := s)
        rw [h2] at this
        simpa using this
      obtain ⟨t, ht, h⟩ := Option.bind_eq_some_iff.1 h
      obtain ⟨o, ho, h⟩ := Option.map_eq_some_iff.1 h
      cases h
      rw [tableOf_iff] at ht
      rw [orderOf_iff] at ho
      rw [← List.takeWhile_append_dropWhile (p := (· != 0x2d)) (l := s), h1, h2, ht, ho, hx]
      rfl
    · cases h
  · rintro rfl
    obtain ⟨t, o⟩ := m
    cases t <;> cases o <;> decide +kernel

/-- A query works in the mode of its newest mode option, and in tree order with the newest first if it has none. -/
theorem mode_iff {c : Conf} (hc : ∀ l ∈ c, IsOption l) (m : Mode) :
    getMode c = .ok m ↔ Newest (Carries (ascii "mode")) c (plainOption (ascii "mode") (modeText m)) ∨
      (m = ⟨.tree, false⟩ ∧ ∀ l ∈ c, ¬ Carries (ascii "mode") l) := by
  rw [← option_value_iff hc, ← option_absent_iff hc]
  unfold getMode mode
  have hb := option_never_bare c (ascii "mode")
  generalize getOption c (ascii "mode") = r at hb
  match r, hb with
  | .error .panic, hb => exact absurd rfl hb.2
  | .error (.err _), _ => simp
  | .ok (some none), hb => exact absurd rfl hb.1
  | .ok none, _ =>
    simp only [Option.getD_none, Mode.default, Except.ok.injEq, reduceCtorEq, false_or, and_true]
    exact eq_comm
  | .ok (some (some v)), _ =>
    simp only [Except.ok.injEq, Option.some.injEq, reduceCtorEq, and_false, or_false]
    rw [← mode_text_iff]
    cases modeOf v with
    | none => simp
    | some m' => simp

/-! ### cases that meet the hypotheses -/

def exOptions : Conf := addOption (addOption (addOption [] (ascii "mode") [ascii "tree-asc"]) (ascii "qid") [[1, 2]]) (ascii "mode") [ascii "log-desc"]
theorem exOptions_meets : (∀ l ∈ exOptions, IsOption l) ∧ (∀ l ∈ exOptions, Delimited l) ∧ Unmarked exOptions ∧
    getMode exOptions = .ok ⟨.log, false⟩ ∧ getOption exOptions (ascii "qid") = .ok (some (some [1, 2])) := by
  refine ⟨?_, ?_, ?_, ?_, ?_⟩
  · intro l hl
    exact addOption_options (addOption_options (addOption_options (c := []) (fun _ h => nomatch h) _ _) _ _) _ _ l hl
  · intro l hl
    exact addOption_delimited (addOption_delimited (addOption_delimited (c := []) (fun _ h => nomatch h) _ _) _ _) _ _ l hl
  · intro o r s h
    have := congrArg List.getLast? h
    rw [List.getLast?_concat] at this
    exact absurd (Option.some.inj this) (by
      intro h
      have := (Prod.mk.inj (List.cons.inj h).1).2
      exact absurd (List.cons.inj this).1 (by decide +kernel))
  · decide +kernel
  · decide +kernel

end Verif.Props
