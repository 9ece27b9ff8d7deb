import Verif.Lemmas.QueryText
/-!
# C62 (and C18, C45): the text of a query read back

`Query::to_str` prints the options, newest first, and the statements, and `Query::parse` adds what it reads.
-/
namespace Verif.Props
open Verif Verif.Ast Verif.Abl Verif.Abe Verif.Abtxt Verif.Pkt Verif.Pred Verif.Opt Verif.QText Verif.Eval Verif.Num Verif.Fit Verif.Spec

theorem text_parse {canon : Bool} {q : Query} {out : List Stmt} (ho : q.preds.iter true = .ok out) (hc : ∀ l ∈ q.conf, IsOption l) (hd : ∀ l ∈ q.conf, Delimited l)
    {sc : Scope} {n : Nat} (hl : ∀ r ∈ out, ∃ t, stmtText canon r = .ok t ∧ LineOf true sc n r t) :
    ∃ t, q.toStr true canon = .ok t ∧ ∀ q0 : Query,
      (∀ p, q0.preds.run true out = .ok p → q0.parse true sc (n + 1) t = .ok ⟨p, q0.conf ++ q.conf.reverse⟩) ∧
      (∀ e, q0.preds.run true out = .error e → q0.parse true sc (n + 1) t = .error e) := by
  obtain ⟨t, h1, h2⟩ := lines_run true canon sc n hl
  refine ⟨displayConf q.conf ++ 0x0a :: t, by simp only [Query.toStr, ho, h1], fun q0 => ?_⟩
  have hrev : ∀ l ∈ q.conf.reverse, l ∈ q.conf := fun l hl => List.mem_reverse.1 hl
  have key : q0.parse true sc (n + 1) (displayConf q.conf ++ 0x0a :: t) =
      withPreds { q0 with conf := q0.conf ++ q.conf.reverse } (q0.preds.run true out) := by
    unfold Query.parse
    rw [displayConf_lines, options_run true sc n (fun l hl => hc l (hrev l hl)) (fun l hl => hd l (hrev l hl))]
    have h3 : splitLines (0x0a :: t) = [] :: splitLines t := splitLines_append [] t (fun _ h => nomatch h)
    rw [h3, Query.addLines, if_pos rfl, h2]
  constructor
  · intro p hp
    rw [key, hp]; rfl
  · intro e hp
    rw [key, hp]; rfl

/-- **C62**: the plain text of a query, read into any query with any functions, adds exactly the statements of the printed query
to it, and its options in the opposite order.  For every query built by adding statements and options. -/
theorem query_text_raw {q : Query} {rs out : List Stmt} (h : Preds.default.run true rs = .ok q.preds) (ho : q.preds.iter true = .ok out)
    (hc : ∀ l ∈ q.conf, IsOption l) (hd : ∀ l ∈ q.conf, Delimited l) (sc : Scope) (n : Nat) :
    ∃ t, q.toStr true false = .ok t ∧ ∀ q0 : Query,
      (∀ p, q0.preds.run true out = .ok p → q0.parse true sc (n + 1) t = .ok ⟨p, q0.conf ++ q.conf.reverse⟩) ∧
      (∀ e, q0.preds.run true out = .error e → q0.parse true sc (n + 1) t = .error e) :=
  text_parse ho hc hd fun _ hr => raw_line true sc n (iter_yields h ho _ hr)

/-- **C62**: the same for the text in which the values are written with functions (`[u64:..]`, `[b:..]`, `[a:..]`), read in the scope
of the library, if its domain and its 16 byte components are plain (`domain_text_iff` tells why). -/
theorem query_text_canonical_partial {q : Query} {rs out : List Stmt} (h : Preds.default.run true rs = .ok q.preds) (ho : q.preds.iter true = .ok out)
    (hp : ∀ r ∈ out, PlainValues r) (hc : ∀ l ∈ q.conf, IsOption l) (hd : ∀ l ∈ q.conf, Delimited l) (p : Params) (n : Nat) :
    ∃ t, q.toStr true true = .ok t ∧ ∀ q0 : Query,
      (∀ s, q0.preds.run true out = .ok s → q0.parse true (coreScope p) (n + 1) t = .ok ⟨s, q0.conf ++ q.conf.reverse⟩) ∧
      (∀ e, q0.preds.run true out = .error e → q0.parse true (coreScope p) (n + 1) t = .error e) :=
  text_parse ho hc hd fun r hr => canonical_line true p n (iter_yields h ho r hr) (hp r hr)

/-- **C18**, partial: reading the text of a query gives a query that selects the same packets.  Left out are the queries that
`printed_same_partial` leaves out. -/
theorem printed_text_same_partial {q : Query} {rs : List Stmt} (h : Preds.default.run true rs = .ok q.preds) (hr : ∀ r ∈ rs, Plain r)
    (hsat : ∃ p x t c, Shows p x ∧ AllSat rs x t c) (hhash : OneHash rs → ∃ r ∈ rs, r.kind = .field .hash ∧ r.op = .equal)
    (hc : ∀ l ∈ q.conf, IsOption l) (hd : ∀ l ∈ q.conf, Delimited l) (sc : Scope) (n : Nat) :
    ∃ t q', q.toStr true false = .ok t ∧ Query.empty.parse true sc (n + 1) t = .ok q' ∧ q'.conf = q.conf.reverse ∧
      ∀ p x, Shows p x → q'.preds.test p = q.preds.test p := by
  obtain ⟨out, s', ho, hrun, hsame⟩ := printed_same_partial h hr hsat hhash
  obtain ⟨t, h1, h2⟩ := query_text_raw h ho hc hd sc n
  exact ⟨t, _, h1, (h2 Query.empty).1 s' hrun, by simp [Query.empty], fun p x hx => (hsame p x hx).2⟩
/-- The same for the text with functions. -/
theorem printed_canonical_same_partial {q : Query} {rs : List Stmt} (h : Preds.default.run true rs = .ok q.preds) (hr : ∀ r ∈ rs, Plain r)
    (hsat : ∃ p x t c, Shows p x ∧ AllSat rs x t c) (hhash : OneHash rs → ∃ r ∈ rs, r.kind = .field .hash ∧ r.op = .equal)
    (hp : ∀ out, q.preds.iter true = .ok out → ∀ r ∈ out, PlainValues r)
    (hc : ∀ l ∈ q.conf, IsOption l) (hd : ∀ l ∈ q.conf, Delimited l) (p : Params) (n : Nat) :
    ∃ t q', q.toStr true true = .ok t ∧ Query.empty.parse true (coreScope p) (n + 1) t = .ok q' ∧ q'.conf = q.conf.reverse ∧
      ∀ p x, Shows p x → q'.preds.test p = q.preds.test p := by
  obtain ⟨out, s', ho, hrun, hsame⟩ := printed_same_partial h hr hsat hhash
  obtain ⟨t, h1, h2⟩ := query_text_canonical_partial h ho (hp out ho) hc hd p n
  exact ⟨t, _, h1, (h2 Query.empty).1 s' hrun, by simp [Query.empty], fun p x hx => (hsame p x hx).2⟩

/-! ### domains -/

theorem escape_grows (x : UInt8) : escapeDefault x = [x] ∨ 2 ≤ (escapeDefault x).length := by
  revert x; apply Abtxt.all_u8; decide +kernel
theorem escape_plain (x : UInt8) : escapeDefault x = [x] → Self x := by
  revert x; apply Abtxt.all_u8; decide +kernel

theorem abtxt_plain {t : Bytes} (h : asAbtxt t = t) : ∀ c ∈ t, PlainChar c := by
  rw [asAbtxt_eq] at h
  have hlen : ∀ t : Bytes, t.length ≤ (t.flatMap escapeDefault).length := by
    intro t
    induction t with
    | nil => exact Nat.le_refl _
    | cons c t ih =>
      rw [List.flatMap_cons, List.length_append, List.length_cons]
      rcases escape_grows c with h | h
      · rw [h, List.length_singleton]; omega
      · omega
  induction t with
  | nil => exact fun _ h => nomatch h
  | cons c t ih =>
    rw [List.flatMap_cons] at h
    rcases escape_grows c with h1 | h1
    · rw [h1] at h
      have h2 : t.flatMap escapeDefault = t := (List.cons.inj h).2
      intro d hd
      rcases List.mem_cons.1 hd with rfl | hd
      · exact escape_plain _ h1
      · exact ih h2 d hd
    · have := congrArg List.length h
      rw [List.length_append, List.length_cons] at this
      have := hlen t
      omega

theorem abtxt_head (t : Bytes) (x : UInt8) (hx : x = 0 ∨ x = 255) : (asAbtxt t).head? ≠ some x := by
  intro h
  have := abtxt_printable t x (List.mem_of_head? h)
  rcases hx with rfl | rfl
  · exact absurd this.1 (by decide)
  · exact absurd this.2 (by decide)

/-- **C62**: a statement about a domain that is printed with functions reads back as that domain exactly if all bytes after the filling are
plain characters.  (The bytes are escaped twice.) -/
theorem domain_text_iff (o : TestOp) (b : Bytes) (hb : b.length = 16) (p : Params) (n : Nat) :
    (∃ t, stmtText true ⟨.field .domain, o, [(none, b)]⟩ = .ok t ∧
      evalLine true (coreScope p) (n + 1) t = .ok [(none, ascii "domain"), (some .colon, [opByte o]), (some .colon, b)]) ↔ PlainFilled b := by
  have hcan := canonical_value (k := .field .domain) (b := b) (by rw [hb]; rfl) (fun _ h => by cases h)
  have htext : stmtText true ⟨.field .domain, o, [(none, b)]⟩ = .ok (printAbe (stmtAbe ⟨.field .domain, o, [(none, b)]⟩ (abToAbe b))) := by
    unfold stmtText
    simp only [if_true, hcan]
    rfl
  constructor
  · rintro ⟨t, h1, h2⟩
    rw [htext] at h1
    cases h1
    have key : ∀ (id : Bytes) (x : UInt8), (x = 0 ∨ x = 255) → (id ≠ [] ∧ ∀ c ∈ id, Self c) →
        (∀ top y, (coreScope p).func top id [y] true = .ofOption (pad [y] true x true false)) → abToAbe b = callAbe id (asAbtxt (cutPrefixEq x b)) →
        PlainFilled b := by
      intro id x hx hid hf he
      have hbx : b = List.replicate (b.takeWhile (· == x)).length x ++ cutPrefixEq x b := by
        have h := List.takeWhile_append_dropWhile (p := (· == x)) (l := b)
        have h3 : b.takeWhile (· == x) = List.replicate (b.takeWhile (· == x)).length x := by
          rw [List.eq_replicate_iff]
          refine ⟨rfl, fun c hc => ?_⟩
          have : ∀ l : Bytes, c ∈ l.takeWhile (· == x) → c = x := by
            intro l
            induction l with
            | nil => exact fun h => nomatch h
            | cons d l ih =>
              rw [List.takeWhile_cons]
              split
              · rename_i hd
                intro h
                rcases List.mem_cons.1 h with rfl | h
                · exact beq_iff_eq.1 hd
                · exact ih h
              · exact fun h => nomatch h
          exact this b hc
        rw [cutPrefixEq, ← h3, h]
      suffices hs : asAbtxt (cutPrefixEq x b) = cutPrefixEq x b from
        ⟨_, x, _, hx, hbx, abtxt_plain hs⟩
      cases hpad : pad [asAbtxt (cutPrefixEq x b)] true x true false with
      | none =>
        exfalso
        have ht := bracket_text hid (spells_abtxt (asAbtxt (cutPrefixEq x b))) .nil
        rw [List.append_nil, ← call_printed _ _ hid.2, ← he] at ht
        have ht2 : AbeText (printAbe (stmtAbe ⟨.field .domain, o, [(none, b)]⟩ (abToAbe b)))
            (.bytes (ascii "domain") :: .ctr .colon :: .bytes [opByte o] :: .ctr .colon :: [.lst (toAbe (callList id [asAbtxt (cutPrefixEq x b)]))]) := by
          simp only [stmtAbe, printAbe, printOne, printBytes_eq]
          refine .bytes (spells_abtxt _) (by decide) trivial ?_
          refine AbeText.colon (s := asAbtxt [opByte o] ++ ([Ctr.colon.asChar] ++ printAbe (abToAbe b))) ?_
          refine .bytes (spells_abtxt _) nofun trivial ?_
          exact AbeText.colon ht
        unfold evalLine at h2
        rw [show parseStrict _ = _ from parse_of_text ht2 false] at h2
        simp only at h2
        rw [eval] at h2
        have hm : ∀ top, matchExpr (coreScope p) top (.lst (toAbe (callList id [asAbtxt (cutPrefixEq x b)]))) = .err := by
          intro top
          rw [match_callList _ _ id hid.1 _ (by simp)]
          simp only [call, if_true, List.drop_succ_cons, List.drop_zero, hf, hpad, AR.ofOption, ER.map]
        have he2 : ∀ top, evalItems (coreScope p) top (.bytes (ascii "domain") :: .ctr .colon :: .bytes [opByte o] :: .ctr .colon ::
            [.lst (toAbe (callList id [asAbtxt (cutPrefixEq x b)]))]) = .err := by
          intro top
          rw [evalItems, evalItems, evalItems, evalItems, evalItems, hm]
          rfl
        rw [he2] at h2
        cases h2
      | some r =>
        have hr : Reads (coreScope p) (topAt true (coreScope p) n) (abToAbe b) [.bytes r] := by
          rw [he]
          exact reads_call _ _ hid (by rw [hf, hpad]; rfl)
        rw [line_reads true _ n _ hr, push_bytes] at h2
        have hrb : r = b := by
          have h3 := Except.ok.inj h2
          have h4 := (List.cons.inj (List.cons.inj h3).2).2
          exact (Prod.mk.inj (List.cons.inj h4).1).2
        rw [hrb, pad_default_length] at hpad
        have := fit_back_cut x 16 _ _ hpad
        rw [cutPrefixEq_of_head x _ (abtxt_head _ x hx)] at this
        exact this.symm
    by_cases h255 : b.headD 0 = 255
    · refine key (ascii "f") 255 (.inr rfl) asc_f (core_hasText p).f ?_
      unfold abToAbe callAbe
      simp only [if_pos h255, if_pos hb]
    · refine key (ascii "a") 0 (.inl rfl) asc_a (core_hasText p).a ?_
      unfold abToAbe callAbe
      simp only [if_neg h255, if_pos hb]
      rfl
  · intro hp
    refine ⟨_, htext, ?_⟩
    rw [line_reads true _ n _ (reads_ab _ (core_hasText p) _ hb hp)]
    rfl

/-- A domain of one byte 1 is printed as text that names the domain of the four characters `\x01`: no error, another query. -/
theorem domain_text_changes (p : Params) (n : Nat) :
    let b : Bytes := List.replicate 15 0 ++ [1]
    let b' : Bytes := List.replicate 12 0 ++ ascii "\\x01"
    ∃ t, stmtText true ⟨.field .domain, .equal, [(none, b)]⟩ = .ok t ∧ b' ≠ b ∧
      evalLine true (coreScope p) (n + 1) t = .ok [(none, ascii "domain"), (some .colon, ascii "="), (some .colon, b')] := by
  intro b b'
  refine ⟨printAbe (stmtAbe ⟨.field .domain, .equal, [(none, b)]⟩ (callAbe (ascii "a") (ascii "\\x01"))), by decide +kernel, by decide +kernel, ?_⟩
  rw [line_reads true _ n _ (reads_call (b := b') (coreScope p) _ asc_a ?_)]
  · rfl
  · rw [(core_hasText p).a]
    have : pad [ascii "\\x01"] true 0 true false = some b' := by decide +kernel
    rw [this]; rfl

/-! ### options -/

/-- **C45**: after printing and reading, a lookup finds the option that was added first, not the one added last. -/
theorem printed_option_oldest_iff {c : Conf} (hc : ∀ l ∈ c, IsOption l) (name v : Bytes) :
    getOption c.reverse name = .ok (some (some v)) ↔
      ∃ older newer, c = older ++ plainOption name v :: newer ∧ ∀ l ∈ older, ¬ Carries name l := by
  rw [option_value_iff (fun l hl => hc l (List.mem_reverse.1 hl))]
  constructor
  · rintro ⟨o, m, h1, _, h3⟩
    refine ⟨m.reverse, o.reverse, ?_, fun l hl => h3 l (List.mem_reverse.1 hl)⟩
    have := congrArg List.reverse h1
    simpa using this
  · rintro ⟨o, m, rfl, h3⟩
    refine ⟨m.reverse, o.reverse, by simp, ⟨_, _, _, rfl⟩, fun l hl => h3 l (List.mem_reverse.1 hl)⟩

/-- **C45**, partial: lookups are kept for a name that was set once. -/
theorem printed_option_once_partial {older newer : Conf} {name v : Bytes} (ho : ∀ l ∈ older, IsOption l) (hn : ∀ l ∈ newer, IsOption l)
    (h1 : ∀ l ∈ older, ¬ Carries name l) (h2 : ∀ l ∈ newer, ¬ Carries name l) :
    getOption (older ++ plainOption name v :: newer) name = .ok (some (some v)) ∧
      getOption (older ++ plainOption name v :: newer).reverse name = .ok (some (some v)) := by
  have hc : ∀ l ∈ older ++ plainOption name v :: newer, IsOption l := by
    intro l hl
    rcases List.mem_append.1 hl with h | h
    · exact ho l h
    · rcases List.mem_cons.1 h with rfl | h
      · exact ⟨_, _, _, rfl⟩
      · exact hn l h
  exact ⟨(option_value_iff hc name v).2 ⟨older, newer, rfl, ⟨_, _, _, rfl⟩, h2⟩,
    (printed_option_oldest_iff hc name v).2 ⟨older, newer, rfl, h1⟩⟩

/-- A query whose mode was set twice: printed and read back it has the other mode. -/
theorem printed_mode_changes (sc : Scope) (n : Nat) :
    let q : Query := ⟨.default, addOption (addOption [] (ascii "mode") [ascii "tree-asc"]) (ascii "mode") [ascii "log-desc"]⟩
    ∃ t q', q.toStr true false = .ok t ∧ Query.empty.parse true sc (n + 1) t = .ok q' ∧
      getOption q.conf (ascii "mode") = .ok (some (some (ascii "log-desc"))) ∧
      getOption q'.conf (ascii "mode") = .ok (some (some (ascii "tree-asc"))) := by
  intro q
  have ho : q.preds.iter true = .ok [] := by decide +kernel
  have hc : ∀ l ∈ q.conf, IsOption l := addOption_options (addOption_options (c := []) (fun _ h => nomatch h) _ _) _ _
  obtain ⟨t, h1, h2⟩ := query_text_raw (q := q) (rs := []) rfl ho hc
    (addOption_delimited (addOption_delimited (c := []) (fun _ h => nomatch h) _ _) _ _) sc n
  refine ⟨t, _, h1, (h2 Query.empty).1 _ rfl, option_set _ _ _, ?_⟩
  have h3 : (Query.empty.conf ++ q.conf.reverse) = q.conf.reverse := rfl
  rw [h3]
  refine (printed_option_oldest_iff hc _ _).2 ⟨[], _, rfl, fun _ h => nomatch h⟩

/-! ### aborts -/

/-- A line with a single word aborts the process: `pop_front` on the empty rest of the list. -/
theorem one_word_aborts (dbg : Bool) (sc : Scope) (n : Nat) (q : Query) (w : Bytes) (hw : w ≠ []) :
    q.parse dbg sc (n + 1) (asAbtxt w) = .error .panic := by
  have ht : AbeText (asAbtxt w) [.bytes w] := by
    have := AbeText.bytes (spells_abtxt w) hw (t := []) trivial .nil
    rwa [List.append_nil] at this
  have hne : asAbtxt w ≠ [] := by
    intro h
    rw [h] at ht
    generalize hs : ([] : Bytes) = s at ht
    cases ht with
    | bytes hsp hb _ _ =>
      rename_i u _ _
      cases hsp with
      | nil => exact hb rfl
      | cons h1 _ => cases h1 <;> cases hs
  have hsplit : splitLines (asAbtxt w) = [asAbtxt w] := by
    have : ∀ a : Bytes, a ≠ [] → (∀ c ∈ a, c ≠ 0x0a) → splitLines a = [a] := by
      intro a
      induction a with
      | nil => intro h; exact absurd rfl h
      | cons c a ih =>
        intro _ hc
        rw [splitLines, if_neg (hc c List.mem_cons_self)]
        cases a with
        | nil => rfl
        | cons d a => rw [ih nofun fun x hx => hc x (List.mem_cons_of_mem _ hx)]
    exact this _ hne (abtxt_line w)
  unfold Query.parse
  rw [hsplit, Query.addLines, if_neg hne]
  unfold evalLine
  rw [show parseStrict _ = _ from parse_of_text ht false]
  simp only
  rw [eval]
  rfl

/-- `lk_query_push` with a field the predicates do not support aborts the process, for every operator and value. -/
theorem push_unsupported_aborts (dbg : Bool) (o : TestOp) (val : Bytes) :
    ∀ f ∈ [ascii "data", ascii "signature", ascii "rspacename", ascii "comp0", ascii "comp1", ascii "comp2", ascii "comp3", ascii "comp4",
      ascii "comp5", ascii "comp6", ascii "comp7"], Query.empty.push dbg f [opByte o] val = .error .panic := by
  intro f hf
  have h : ∃ k, ruleOf f = some (.todo k) ∧ (k = 1#8 ∨ k = 2#8 ∨ k = 4#8) := by
    revert f; decide +kernel
  have hne : f ≠ [] := by revert f; decide +kernel
  obtain ⟨k, h1, h2⟩ := h
  have h3 : ∀ dbg, ∃ s, Preds.default.addTo dbg .type .mask1 k = .ok s := by
    intro dbg
    rcases h2 with rfl | rfl | rfl <;> cases dbg <;> exact ⟨_, rfl⟩
  obtain ⟨s, h3⟩ := h3 dbg
  unfold Query.push
  rw [if_neg hne, h1, extOp_byte]
  simp only [Preds.addExt, ExtStmt.stmts, Preds.run, Preds.and]
  show (match (match (match Preds.default.addTo dbg .type .mask1 k with
    | .error e => Except.error e
    | .ok _ => .error .panic : PRes Preds) with
    | .error e => Except.error e
    | .ok s => .ok s : PRes Preds) with
    | .ok p => Except.ok ({ Query.empty with preds := p } : Query)
    | .error e => .error e) = _
  rw [h3]

/-! ### a query that meets the hypotheses -/

/-- `domain:=:[a:hi]`, `create:>:[u64:5]`, `prefix:=:/a` with the option `:mode:log-desc`. -/
def exText : Query where
  preds := (Preds.default.run true [⟨.field .domain, .equal, [(none, List.replicate 14 0 ++ ascii "hi")]⟩,
    ⟨.field .create, .greater, [(none, [0, 0, 0, 0, 0, 0, 0, 5])]⟩, ⟨.pre, .equal, [(some .fslash, ascii "a")]⟩]).toOption.getD .default
  conf := addOption [] (ascii "mode") [ascii "log-desc"]

theorem exText_run : Preds.default.run true [⟨.field .domain, .equal, [(none, List.replicate 14 0 ++ ascii "hi")]⟩,
    ⟨.field .create, .greater, [(none, [0, 0, 0, 0, 0, 0, 0, 5])]⟩, ⟨.pre, .equal, [(some .fslash, ascii "a")]⟩] = .ok exText.preds := by
  have h : (Preds.default.run true [⟨.field .domain, .equal, [(none, List.replicate 14 0 ++ ascii "hi")]⟩,
    ⟨.field .create, .greater, [(none, [0, 0, 0, 0, 0, 0, 0, 5])]⟩, ⟨.pre, .equal, [(some .fslash, ascii "a")]⟩]).toOption.isSome = true := by decide +kernel
  unfold exText
  generalize Preds.default.run true _ = r at h
  cases r with
  | error e => cases h
  | ok s => rfl

/-- What it prints, in both ways. -/
theorem exText_prints : exText.toStr true true = .ok (ascii ":mode:log-desc\n\ntype:1:[b2:00000010]\ndomain:=:[a:hi]\nprefix:=:/a\ndepth:>:[u8:0]\ncreate:>:[u64:5]\n") := by
  decide +kernel

/-- It meets the hypotheses of `query_text_raw` and `query_text_canonical_partial`. -/
theorem exText_meets : ∃ out, exText.preds.iter true = .ok out ∧ (∀ r ∈ out, PlainValues r) ∧ (∀ l ∈ exText.conf, IsOption l) ∧
    ∀ l ∈ exText.conf, Delimited l := by
  refine ⟨[⟨.field .type, .mask1, [(none, [2])]⟩, ⟨.field .domain, .equal, [(none, List.replicate 14 0 ++ ascii "hi")]⟩,
    ⟨.pre, .equal, [(some .fslash, ascii "a")]⟩, ⟨.field .depth, .greater, [(none, [0])]⟩,
    ⟨.field .create, .greater, [(none, [0, 0, 0, 0, 0, 0, 0, 5])]⟩], by decide +kernel, ?_,
    addOption_options (c := []) (fun _ h => nomatch h) _ _, addOption_delimited (c := []) (fun _ h => nomatch h) _ _⟩
  intro r hr
  simp only [List.mem_cons, List.not_mem_nil, or_false] at hr
  rcases hr with rfl | rfl | rfl | rfl | rfl <;> intro e he <;> rw [List.mem_singleton.1 he]
  · rintro (h | ⟨h, _⟩) <;> cases h
  · intro _
    exact ⟨14, 0, ascii "hi", .inl rfl, rfl, by decide +kernel⟩
  · rintro (h | ⟨_, h⟩) <;> cases h
  · rintro (h | ⟨h, _⟩) <;> cases h
  · rintro (h | ⟨h, _⟩) <;> cases h

end Verif.Props
