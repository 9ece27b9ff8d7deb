import Verif.Lemmas.Scopes
/-!
# C40: encoding bytes as text, and C13: spaces as text
-/
namespace Verif.Props
open Verif Verif.Ast Verif.Abl Verif.Abe Verif.Abtxt Verif.Num Verif.Fit Verif.Spec Verif.Eval

/-! ## C40 -/

/-- In any scope whose encoders are right on these bytes, `lk_encode` gives, for every option text, a text that
evaluates to exactly the bytes. -/
theorem encode_sound (dbg : Bool) (sc : Scope) (n : Nat) (bytes opts : Bytes)
    (hs : ∀ id args, (id = [] ∨ NamesEncoder opts id) → sc.enc id args bytes ≠ .abort ∧
      ∀ st, sc.enc id args bytes = .value st → EvalsTo dbg sc (n + 1) st bytes) :
    ∃ st, lkEncode dbg sc (n + 1) bytes opts = .ok st ∧ EvalsTo dbg sc (n + 1) st bytes := by
  unfold lkEncode encode
  cases hp : parseStrict opts with
  | error e => exact ⟨_, rfl, evalsTo_abtxt dbg sc n bytes⟩
  | ok abe =>
    simp only
    have h := encLoop_sound dbg sc n bytes true (if abe.isEmpty then [] else splitBy isFslash abe) (by
      intro seg hseg id args ho
      refine hs id args ?_
      rcases optOf_fn ho with h | h
      · exact .inl h
      · refine .inr ⟨abe, hp, ?_⟩
        split at hseg
        · cases hseg
        · exact splitBy_mem isFslash abe seg hseg _ h)
    rw [← encodeAbe] at h
    cases hr : encodeAbe (topAt dbg sc (n + 1)) bytes abe true with
    | ok st => exact ⟨st, rfl, h.2 st hr⟩
    | err => exact ⟨_, rfl, evalsTo_abtxt dbg sc n bytes⟩
    | abort => exact absurd hr h.1

theorem lkEval_of_evalsTo {dbg : Bool} {sc : Scope} {n : Nat} {st bytes : Bytes} (h : EvalsTo dbg sc n st bytes) :
    lkEval dbg sc n st = .ok bytes := by
  obtain ⟨abe, l, h1, h2, h3⟩ := h
  rw [lkEval, h1]
  simp only [h2]
  rcases h3 with rfl | ⟨rfl, rfl⟩ <;> simp [ER.map, concat, asStr]

/-- Spaces that can be written and read back: at most eight components, and not empty. -/
def TextSpace (bytes : Bytes) : Prop := ∀ cs, IsSpace bytes cs → 1 ≤ cs.length ∧ cs.length ≤ 8

theorem tableEnc_value {fns : List Fn} {id : Bytes} {opts : List ABE} {b : Bytes} :
    tableEnc fns id opts b = .noValue ∨ ∃ f ∈ fns, f.id = id ∧ ∃ e, f.toAbe = some e ∧ tableEnc fns id opts b = e b opts := by
  unfold tableEnc
  split
  · rename_i f e h
    have h1 := List.find?_some h
    have h2 := List.mem_of_find?_eq_some h
    simp at h1
    refine .inr ⟨_, h2, ?_, e, rfl, rfl⟩
    exact h1
  · exact .inl rfl

/-- An encoder of the scope answers right on these bytes. -/
def Right (dbg : Bool) (sc : Scope) (n : Nat) (bytes : Bytes) (r : AR Bytes) : Prop :=
  r ≠ .abort ∧ ∀ st, r = .value st → EvalsTo dbg sc n st bytes

theorem right_noValue (dbg : Bool) (sc : Scope) (n : Nat) (bytes : Bytes) : Right dbg sc n bytes .noValue :=
  ⟨by simp, by simp⟩

theorem right_orElse {dbg : Bool} {sc : Scope} {n : Nat} {bytes : Bytes} {r : AR Bytes} {f : Unit → AR Bytes}
    (h1 : Right dbg sc n bytes r) (h2 : Right dbg sc n bytes (f ())) : Right dbg sc n bytes (r.orElse f) := by
  cases r with
  | noValue => exact h2
  | value v => exact h1
  | err => exact h1
  | abort => exact absurd rfl h1.1

theorem right_pair {dbg : Bool} {sc : Scope} {n : Nat} {bytes : Bytes} {a b : Scope} {id : Bytes} {opts : List ABE}
    (h1 : Right dbg sc n bytes (a.enc id opts bytes)) (h2 : Right dbg sc n bytes (b.enc id opts bytes)) :
    Right dbg sc n bytes ((a.pair b).enc id opts bytes) := right_orElse h1 h2

theorem right_table {dbg : Bool} {sc : Scope} {n : Nat} {bytes : Bytes} {fns : List Fn} {id : Bytes} {opts : List ABE}
    (h : ∀ f ∈ fns, f.id = id → ∀ e, f.toAbe = some e → Right dbg sc n bytes (e bytes opts)) :
    Right dbg sc n bytes (tableEnc fns id opts bytes) := by
  rcases tableEnc_value (fns := fns) (id := id) (opts := opts) (b := bytes) with h0 | ⟨f, hf, hid, e, he, h1⟩
  · rw [h0]; exact right_noValue dbg sc n bytes
  · rw [h1]; exact h f hf hid e he

theorem right_uint (dbg : Bool) (sc : Scope) (n : Nat) (id : Bytes) (hid : id ≠ [] ∧ ∀ c ∈ id, Self c) (k : Nat)
    (hf : ∀ top x, sc.func top id [x] true = .ofOption (parseUint k x)) (b : Bytes) (opts : List ABE) :
    Right dbg sc (n + 1) b (idEnc id (encUint k) b opts) :=
  ⟨by unfold idEnc; split <;> simp, fun st h => uintEnc_evals dbg sc n hid k hf b opts st h⟩

theorem right_bin (dbg : Bool) (sc : Scope) (n : Nat) (id : Bytes) (hid : id ≠ [] ∧ ∀ c ∈ id, Self c) (radix : Nat)
    (hr : radix = 2 ∨ radix = 16)
    (hf : ∀ top x, sc.func top id [x] true = .ofOption (bin radix x)) (b : Bytes) (hb : Numeral b) (opts : List ABE) :
    Right dbg sc (n + 1) b (encBin id radix b opts) := by
  refine ⟨?_, fun st h => encBin_evals dbg sc n hid radix hr hf b hb opts st h⟩
  unfold encBin
  split
  · simp
  · split <;> simp

theorem encB_not_abort (b : Bytes) (opts : List ABE) : encB b opts ≠ .abort := by
  unfold encB
  split
  · simp
  · rename_i hne
    clear hne
    fun_induction encBLoop b opts with
    | case1 => simp
    | case2 => simp
    | case3 => simp
    | case4 _ _ _ _ _ ih => exact ih
    | case5 _ _ _ ih => exact ih

theorem displayComps_cons (c : Bytes) (cs : List Bytes) : ∃ r, displayComps (c :: cs) = 0x2f :: r := by
  rw [displayComps, List.flatMap_cons, fmtSegm]
  exact ⟨_, rfl⟩

theorem ofSpace_of_isSpace {bytes : Bytes} {cs : List Bytes} (h : IsSpace bytes cs) (hl : cs.length ≤ 8) :
    ofSpace (Space.tryFromIter cs) = .ok bytes := by
  rw [(space_build_iff cs bytes).2 ⟨h, hl⟩]; rfl

theorem comps_ne {bytes : Bytes} {cs : List Bytes} (h : IsSpace bytes cs) : ∀ c ∈ cs, c ≠ [] := by
  intro c hc he
  have := (h.comps c hc).1
  rw [he] at this
  simp at this

theorem right_space (dbg : Bool) (p : Params) (n : Nat) (b : Bytes) (hb : TextSpace b) (opts : List ABE) :
    Right dbg (coreScope p) (n + 2) b (encodeSp b opts) := by
  unfold encodeSp
  cases hc : Space.checkComponents b with
  | error e => exact right_noValue _ _ _ _
  | ok k =>
    obtain ⟨cs, hcs, hk⟩ := (space_check_iff b k).1 hc
    have hd : displaySpace b = .ok (displayComps cs) := by
      rw [displaySpace, space_iter b cs hcs]; rfl
    simp only [hd]
    refine ⟨by simp, fun st h => ?_⟩
    cases h
    obtain ⟨h1, h8⟩ := hb cs hcs
    obtain ⟨c, cs', rfl⟩ : ∃ c cs', cs = c :: cs' := by
      cases cs with
      | nil => simp at h1
      | cons c cs' => exact ⟨c, cs', rfl⟩
    have hne := comps_ne hcs
    have htext : AbeText (0x5b :: 0x2f :: (displayComps (c :: cs') ++ [0x5d]))
        [.lst (.ctr .fslash :: segNodes (c :: cs'))] := by
      have := AbeText.lst (AbeText.fslash (display_text (c :: cs') hne).1) .nil
      exact this
    refine ⟨_, [(none, b)], parse_of_text htext false, ?_, .inl rfl⟩
    have hs : segNodes (c :: cs') = .ctr .fslash :: segNode c :: segNodes cs' := rfl
    have hm : (coreScope p).mac (topAt dbg (coreScope p) (n + 1)) [] (segNodes (c :: cs')) = .value b := by
      rw [core_mac]
      show ((eval dbg (coreScope p) (n + 1) (segNodes (c :: cs'))).bind spaceOfAblist).toAR = _
      rw [slashed_eval dbg _ (core_hasText p) n _ hne]
      show (spaceOfAblist (slashed (c :: cs'))).toAR = _
      rw [spaceOf_slashed _ hne, ofSpace_of_isSpace hcs h8]; rfl
    rw [topAt] at hm
    rw [eval, evalItems, evalItems, matchExpr]
    simp only [shape]
    rw [hs, macroCall, macroCall.run, ← hs, hm]
    rfl

/-- **C40**, partial.  In `core_scope` the text `lk_encode` returns evaluates to exactly the bytes, and encoding never
aborts, for every byte string and every option text, with two exceptions: `b2` and `b16` when the bytes are not a
number without leading zeros, and `s` when the bytes are the empty space or a space of more than eight components.
The exceptions are real: `encode_b16_aborts`, `encode_space_aborts` below. -/
theorem lk_encode_core_partial (dbg : Bool) (p : Params) (n : Nat) (bytes opts : Bytes) (hlen : bytes.length < 2 ^ 64)
    (hnum : NamesEncoder opts (ascii "b2") ∨ NamesEncoder opts (ascii "b16") → Numeral bytes)
    (hsp : NamesEncoder opts (ascii "s") → TextSpace bytes) :
    ∃ st, lkEncode dbg (coreScope p) (n + 2) bytes opts = .ok st ∧
      EvalsTo dbg (coreScope p) (n + 2) st bytes ∧ lkEval dbg (coreScope p) (n + 2) st = .ok bytes := by
  suffices h : ∀ id args, (id = [] ∨ NamesEncoder opts id) →
      Right dbg (coreScope p) (n + 2) bytes ((coreScope p).enc id args bytes) by
    obtain ⟨st, h1, h2⟩ := encode_sound dbg (coreScope p) (n + 1) bytes opts h
    exact ⟨st, h1, h2, lkEval_of_evalsTo h2⟩
  intro id args hn
  have ht := core_hasText p
  have htab : ∀ fns : List Fn, (∀ f ∈ fns, f.id = id → ∀ e, f.toAbe = some e →
      Right dbg (coreScope p) (n + 2) bytes (e bytes args)) → Right dbg (coreScope p) (n + 2) bytes (tableEnc fns id args bytes) :=
    fun fns h => right_table h
  have h1 : Right dbg (coreScope p) (n + 2) bytes (tableEnc (bytesFns p.utf8) id args bytes) := by
    refine htab _ fun f hf hid e he => ?_
    simp only [bytesFns, List.mem_cons, List.not_mem_nil, or_false] at hf
    rcases hf with rfl | rfl | rfl | rfl | rfl | rfl | rfl | rfl | rfl | rfl | rfl | rfl | rfl | rfl | rfl | rfl | rfl
    all_goals first | cases he; done | skip
    cases he
    exact ⟨by simp [encodeA], fun st h => encodeA_evals dbg _ ht (n + 1) bytes args st hlen h⟩
  have h2 : Right dbg (coreScope p) (n + 2) bytes (tableEnc uintFns id args bytes) := by
    refine htab _ fun f hf hid e he => ?_
    simp only [uintFns, List.mem_cons, List.not_mem_nil, or_false] at hf
    rcases hf with rfl | rfl | rfl | rfl | rfl | rfl | rfl | rfl | rfl | rfl | rfl | rfl | rfl | rfl | rfl
    all_goals first | cases he; done | skip
    all_goals cases he
    · exact right_uint dbg _ (n + 1) _ (by decide +kernel) 1 (fun top x => (core_uint p top x).1) _ _
    · exact right_uint dbg _ (n + 1) _ (by decide +kernel) 2 (fun top x => (core_uint p top x).2.1) _ _
    · exact right_uint dbg _ (n + 1) _ (by decide +kernel) 4 (fun top x => (core_uint p top x).2.2.1) _ _
    · exact right_uint dbg _ (n + 1) _ (by decide +kernel) 8 (fun top x => (core_uint p top x).2.2.2.1) _ _
    · exact right_uint dbg _ (n + 1) _ (by decide +kernel) 16 (fun top x => (core_uint p top x).2.2.2.2) _ _
  have hne : ∀ x : Bytes, x ≠ [] → id = x → NamesEncoder opts x := by
    rintro x hx rfl
    exact hn.resolve_left hx
  have h3 : Right dbg (coreScope p) (n + 2) bytes (tableEnc baseFns id args bytes) := by
    refine htab _ fun f hf hid e he => ?_
    simp only [baseFns, List.mem_cons, List.not_mem_nil, or_false] at hf
    rcases hf with rfl | rfl | rfl | rfl | rfl | rfl | rfl | rfl
    all_goals first | cases he; done | skip
    all_goals cases he
    · exact right_bin dbg _ (n + 1) _ (by decide +kernel) 2 (.inl rfl) (fun top x => (core_base p top x).1) _
        (hnum (.inl (hne _ (by decide +kernel) hid.symm))) _
    · exact right_bin dbg _ (n + 1) _ (by decide +kernel) 16 (.inr rfl) (fun top x => (core_base p top x).2.1) _
        (hnum (.inr (hne _ (by decide +kernel) hid.symm))) _
    · refine ⟨encB_not_abort _ _, fun st h => ?_⟩
      rw [encB_value h]
      exact b_evals dbg _ ht (n + 1) bytes
    · refine ⟨by simp, fun st h => ?_⟩
      cases h
      refine evalsTo_bracket dbg _ (n + 1) (by decide +kernel) (by decide +kernel) (escSlash_spells _ (std_chars bytes)) ?_
      rw [(core_base p _ _).2.2, b64_std_roundtrip]; rfl
  have hnone : ∀ fns : List Fn, (∀ f ∈ fns, f.toAbe = none) →
      Right dbg (coreScope p) (n + 2) bytes (tableEnc fns id args bytes) := by
    intro fns h
    refine htab _ fun f hf hid e he => ?_
    rw [h f hf] at he; cases he
  have h4 := hnone commentFns (by intro f hf; simp only [commentFns, List.mem_cons, List.not_mem_nil, or_false] at hf; subst hf; rfl)
  have h5 := hnone (helpFns p) (by intro f hf; simp only [helpFns, List.mem_cons, List.not_mem_nil, or_false] at hf; subst hf; rfl)
  have h6 := hnone logicFns (by
    intro f hf; simp only [logicFns, List.mem_cons, List.not_mem_nil, or_false] at hf; rcases hf with rfl | rfl <;> rfl)
  have h7 := hnone encodeFns (by
    intro f hf; simp only [encodeFns, List.mem_cons, List.not_mem_nil, or_false] at hf; rcases hf with rfl | rfl | rfl | rfl <;> rfl)
  have h8 : Right dbg (coreScope p) (n + 2) bytes (tableEnc (lnsFns p) id args bytes) := by
    refine htab _ fun f hf hid e he => ?_
    simp only [lnsFns, List.mem_cons, List.not_mem_nil, or_false] at hf
    have lit : ∀ (k v : Bytes), k ≠ [] → (∀ c ∈ k, Self c) → (∀ c ∈ v, Self c) → ∀ b,
        (∀ top, (coreScope p).func top k [v] true = .value b) → EvalsTo dbg (coreScope p) (n + 2) (bracket k v) b :=
      fun k v hk hs hv b hf => evalsTo_bracket dbg _ (n + 1) hk hs (spells_self v hv) (hf _)
    rcases hf with rfl | rfl
    · cases he
      dsimp only
      cases hf : fit 32 bytes with
      | none => exact right_noValue _ _ _ _
      | some g =>
        obtain ⟨rfl, _⟩ := (fit_exact 32 bytes g).1 hf
        dsimp only
        split
        · rename_i h0
          refine ⟨by simp, fun st h => ?_⟩
          cases h
          rw [h0]
          exact lit _ _ (by decide +kernel) (by decide +kernel) (by decide +kernel) _ (fun top => (core_lns p top).1)
        · split
          · rename_i h0
            refine ⟨by simp, fun st h => ?_⟩
            cases h
            rw [h0]
            exact lit _ _ (by decide +kernel) (by decide +kernel) (by decide +kernel) _ (fun top => (core_lns p top).2.1)
          · split
            · rename_i h0
              refine ⟨by simp, fun st h => ?_⟩
              cases h
              rw [h0]
              exact lit _ _ (by decide +kernel) (by decide +kernel) (by decide +kernel) _ (fun top => (core_lns p top).2.2.1)
            · exact right_noValue _ _ _ _
    · cases he
      dsimp only
      split
      · rename_i h0
        refine ⟨by simp, fun st h => ?_⟩
        cases h
        rw [h0]
        exact lit _ _ (by decide +kernel) (by decide +kernel) (by decide +kernel) _ (fun top => (core_lns p top).2.2.2)
      · exact right_noValue _ _ _ _
  have h9 : Right dbg (coreScope p) (n + 2) bytes (tableEnc (stampFns p) id args bytes) := by
    refine htab _ fun f hf hid e he => ?_
    simp only [stampFns, List.mem_cons, List.not_mem_nil, or_false] at hf
    rcases hf with rfl | rfl | rfl | rfl
    all_goals first | cases he; done | skip
    cases he
    exact right_noValue _ _ _ _
  have h10 : Right dbg (coreScope p) (n + 2) bytes (tableEnc spaceFns id args bytes) := by
    refine htab _ fun f hf hid e he => ?_
    simp only [spaceFns, List.mem_cons, List.not_mem_nil, or_false] at hf
    rcases hf with rfl | rfl | rfl
    all_goals first | cases he; done | skip
    cases he
    exact right_space dbg p n bytes (hsp (hne _ (by decide +kernel) hid.symm)) args
  exact right_pair (right_pair (right_pair (right_pair (right_pair h1 h2) h3)
    (right_pair (right_pair (right_pair h4 h5) h6) h7)) h8) (right_pair h9 h10)

/-- Example: options naming `u8`, `b16` and the fallback, on bytes for which `b16` is fine. -/
example : Numeral [1, 0] ∧ (∀ cs, IsSpace (encodeSpace [[97]]) cs → 1 ≤ cs.length ∧ cs.length ≤ 8) := by
  refine ⟨.inr ⟨by decide, by decide, by decide⟩, fun cs h => ?_⟩
  have : cs = [[97]] := space_unique _ _ _ h ⟨by simp [ValidComps], rfl, by decide⟩
  subst this
  decide

/-- The exceptions for `b2` and `b16` are exact: the encoder's text evaluates to the bytes if and only if they are a
number without leading zeros. -/
theorem encode_b16_iff (dbg : Bool) (p : Params) (n : Nat) (bytes : Bytes) :
    EvalsTo dbg (coreScope p) (n + 1) (bracket (ascii "b16") (encDigits 16 bytes)) bytes ↔ Numeral bytes := by
  constructor
  · rintro ⟨abe, l, h1, h2, h3⟩
    have ht : AbeText (bracket (ascii "b16") (encDigits 16 bytes) ++ [])
        [.lst (toAbe (callList (ascii "b16") [encDigits 16 bytes]))] :=
      bracket_text (by decide +kernel) (spells_self _ fun c hc => (encDigits_mem 16 bytes c hc).1) .nil
    rw [List.append_nil] at ht
    have := parse_of_text ht false
    rw [parseStrict, this] at h1
    cases h1
    rw [eval, evalItems, evalItems, match_callList _ _ _ (by decide +kernel) _ (by simp)] at h2
    simp only [call, if_true, List.drop_succ_cons, List.drop_zero] at h2
    rw [(core_base p _ _).2.1] at h2
    rw [← bin_enc 16 (.inr rfl)]
    cases hb : bin 16 (encDigits 16 bytes) with
    | none => rw [hb] at h2; cases h2
    | some v =>
      rw [hb] at h2
      have : l = [(none, v)] := by
        have h2' : (ER.ok [((none : Option Ctr), v)]) = .ok l := h2
        cases h2'; rfl
      rw [this] at h3
      rcases h3 with h3 | ⟨h3, _⟩
      · cases h3; rfl
      · cases h3
  · intro h
    exact encBin_evals dbg _ n (by decide +kernel) 16 (.inr rfl) (fun top x => (core_base p top x).2.1) bytes h [] _ rfl

theorem parse_self (s : Bytes) (hne : s ≠ []) (h : ∀ c ∈ s, Self c) : parseStrict s = .ok [.bytes s] := by
  have := AbeText.bytes (spells_self s h) hne (t := []) trivial .nil
  rw [List.append_nil] at this
  exact parse_of_text this false

/-- Encoding with the name of one encoder as options. -/
theorem lkEncode_one (dbg : Bool) (sc : Scope) (n : Nat) (bytes id st : Bytes) (hne : id ≠ []) (h : ∀ c ∈ id, Self c)
    (he : sc.enc id [] bytes = .value st) :
    lkEncode dbg sc n bytes id = if dbg && !recheck (topAt dbg sc n) st bytes then .abort else .ok st := by
  have h1 : encode (topAt dbg sc n) bytes id true = if dbg && !recheck (topAt dbg sc n) st bytes then .abort else .ok st := by
    rw [encode, parse_self id hne h]
    simp only [encodeAbe, List.isEmpty_cons, Bool.false_eq_true, if_false]
    have h2 : splitBy isFslash [.bytes id] = [[.bytes id]] := rfl
    have h3 : (topAt dbg sc n).enc id [] bytes = .value st := he
    rw [h2, encLoop]
    simp only [optOf, h3]
    rfl
  rw [lkEncode, h1]
  cases (dbg && !recheck (topAt dbg sc n) st bytes) <;> rfl

/-- **Negative.**  With debug assertions (the shipped profile) encoding the bytes `00 01` with `b16` aborts; without
them the text `[b16:0001]` is returned, which evaluates to `01`. -/
theorem encode_b16_aborts (p : Params) (n : Nat) :
    lkEncode true (coreScope p) (n + 1) [0, 1] (ascii "b16") = .abort ∧
    lkEncode false (coreScope p) (n + 1) [0, 1] (ascii "b16") = .ok (ascii "[b16:0001]") := by
  have he : (coreScope p).enc (ascii "b16") [] [0, 1] = .value (ascii "[b16:0001]") := rfl
  have hr : recheck (topAt true (coreScope p) (n + 1)) (ascii "[b16:0001]") [0, 1] = false := by
    cases h : recheck (topAt true (coreScope p) (n + 1)) (ascii "[b16:0001]") [0, 1] with
    | false => rfl
    | true =>
      have h2 := (encode_b16_iff true p n [0, 1]).1 ((evalsTo_recheck true _ _ _ _).2 h)
      rcases h2 with h2 | ⟨_, _, h2⟩
      · cases h2
      · exact absurd rfl h2
  rw [lkEncode_one _ _ _ _ _ _ (by decide +kernel) (by decide +kernel) he,
    lkEncode_one _ _ _ _ _ _ (by decide +kernel) (by decide +kernel) he, hr]
  exact ⟨rfl, rfl⟩

/-- **Negative.**  The empty byte string is a valid space, `s` prints it as `[/]`, and that text has no value: encoding
aborts with debug assertions. -/
theorem encode_space_aborts (p : Params) (n : Nat) :
    lkEncode true (coreScope p) (n + 1) [] (ascii "s") = .abort ∧
    lkEncode false (coreScope p) (n + 1) [] (ascii "s") = .ok (ascii "[/]") ∧
    lkEval false (coreScope p) (n + 1) (ascii "[/]") = .err := by
  have hq : parseStrict (ascii "[/]") = .ok [.lst [.ctr .fslash]] :=
    parse_of_text (AbeText.lst (AbeText.fslash .nil) .nil) false
  have hc : Space.checkComponents [] = .ok 0 := (space_check_iff [] 0).2 ⟨[], ⟨by simp [ValidComps], rfl, by simp⟩, rfl⟩
  have hi : Space.iter [] = .ok [] := space_iter [] [] ⟨by simp [ValidComps], rfl, by simp⟩
  have he0 : encodeSp [] [] = .value (ascii "[/]") := by
    rw [encodeSp, hc]
    simp only [displaySpace, hi]
    rfl
  have he : (coreScope p).enc (ascii "s") [] [] = .value (ascii "[/]") := by
    show AR.orElse .noValue (fun _ => AR.orElse .noValue (fun _ => encodeSp [] [])) = _
    rw [he0]; rfl
  have hr : recheck (topAt true (coreScope p) (n + 1)) (ascii "[/]") [] = false := by
    rw [recheck, hq]; rfl
  rw [lkEncode_one _ _ _ _ _ _ (by decide +kernel) (by decide +kernel) he,
    lkEncode_one _ _ _ _ _ _ (by decide +kernel) (by decide +kernel) he, hr, lkEval, hq]
  exact ⟨rfl, rfl, rfl⟩

/-- The documentation says a final `/:` falls back to plain text.  It does not: only an empty option does, and `/:`
makes strict encoding fail when no other option has a value. -/
theorem encode_colon_no_fallback (dbg : Bool) (p : Params) (n : Nat) (bytes : Bytes) :
    encode (topAt dbg (coreScope p) n) bytes (ascii "zz/:") false = .err ∧
    encode (topAt dbg (coreScope p) n) bytes (ascii "zz/") false = .ok (asAbtxt bytes) := by
  have hz : Spells (ascii "zz") (ascii "zz") := spells_self _ (by decide +kernel)
  have hne : ascii "zz" ≠ [] := by decide +kernel
  have h1 : parseStrict (ascii "zz/:") = .ok [.bytes (ascii "zz"), .ctr .fslash, .ctr .colon] :=
    parse_of_text (AbeText.bytes hz hne (t := [.ctr .fslash, .ctr .colon]) trivial (AbeText.fslash (AbeText.colon .nil))) false
  have h2 : parseStrict (ascii "zz/") = .ok [.bytes (ascii "zz"), .ctr .fslash] :=
    parse_of_text (AbeText.bytes hz hne (t := [.ctr .fslash]) trivial (AbeText.fslash .nil)) false
  rw [encode, encode, h1, h2]
  exact ⟨rfl, rfl⟩

/-! ## C13 -/

/-- **C13** in one scope: the printed form of a space of at most eight components evaluates back to the same bytes. -/
theorem space_text_roundtrip (dbg : Bool) (sc : Scope) (ht : HasText sc) (n : Nat) (bs : Bytes) (cs : List Bytes)
    (h : IsSpace bs cs) (hl : cs.length ≤ 8) :
    ∃ text, displaySpace bs = .ok text ∧ spaceStr dbg sc (n + 1) text = .ok bs := by
  refine ⟨displayComps cs, ?_, ?_⟩
  · rw [displaySpace, space_iter bs cs h]; rfl
  · have hne := comps_ne h
    have hp : parseStrict (displayComps cs) = .ok (segNodes cs) := parse_of_text (display_text cs hne).1 false
    rw [spaceStr, hp]
    simp only [check_segNodes, if_true]
    rw [slashed_eval dbg sc ht n cs hne]
    show spaceOfAblist (slashed cs) = _
    rw [spaceOf_slashed cs hne, ofSpace_of_isSpace h hl]

/-- **C13.**  For `space_str` (basic scope) and for the scope of queries (core scope). -/
theorem space_text (dbg : Bool) (p : Params) (n : Nat) (bs : Bytes) (cs : List Bytes) (h : IsSpace bs cs) (hl : cs.length ≤ 8) :
    ∃ text, displaySpace bs = .ok text ∧ spaceStr dbg (basicScope p) (n + 1) text = .ok bs ∧
      spaceStr dbg (coreScope p) (n + 1) text = .ok bs := by
  obtain ⟨t, h1, h2⟩ := space_text_roundtrip dbg _ (basic_hasText p) n bs cs h hl
  obtain ⟨t', h3, h4⟩ := space_text_roundtrip dbg _ (core_hasText p) n bs cs h hl
  rw [h1] at h3
  cases h3
  exact ⟨t, h1, h2, h4⟩

/-- Two different spaces are never printed the same. -/
theorem space_text_injective (p : Params) (a b : Bytes) (ca cb : List Bytes) (ha : IsSpace a ca) (hb : IsSpace b cb)
    (hla : ca.length ≤ 8) (hlb : cb.length ≤ 8) (h : displaySpace a = displaySpace b) : a = b := by
  obtain ⟨t, h1, h2, _⟩ := space_text false p 0 a ca ha hla
  obtain ⟨t', h3, h4, _⟩ := space_text false p 0 b cb hb hlb
  rw [h1, h3] at h
  cases h
  rw [h2] at h4
  cases h4
  rfl

/-- Example: a component of 16 bytes that starts with zeros and one that starts with 255, one of 32 bytes, and one with
characters that need escapes. -/
example : IsSpace (encodeSpace [List.replicate 15 0 ++ [0x2f], 255 :: List.replicate 15 1, List.replicate 32 7, [0x5b, 0x3a]])
    [List.replicate 15 0 ++ [0x2f], 255 :: List.replicate 15 1, List.replicate 32 7, [0x5b, 0x3a]] :=
  ⟨by simp [ValidComps], rfl, by decide⟩

/-- **Negative.**  A space of nine components passes the byte check but its printed form cannot be read. -/
theorem space_text_nine (dbg : Bool) (p : Params) (n : Nat) :
    ∃ bs cs text, IsSpace bs cs ∧ Space.checkComponents bs = .ok 9 ∧ displaySpace bs = .ok text ∧
      spaceStr dbg (basicScope p) (n + 1) text ≠ .ok bs := by
  have hv : IsSpace (encodeSpace (List.replicate 9 [97])) (List.replicate 9 [97]) := by
    refine ⟨?_, rfl, by decide⟩
    intro c hc
    rw [(List.mem_replicate.1 hc).2]
    decide
  refine ⟨_, _, displayComps (List.replicate 9 [97]), hv, ?_, ?_, ?_⟩
  · exact (space_check_iff _ 9).2 ⟨_, hv, List.length_replicate⟩
  · rw [displaySpace, space_iter _ _ hv]; rfl
  · have hne := comps_ne hv
    have hp : parseStrict (displayComps (List.replicate 9 [97])) = .ok (segNodes (List.replicate 9 [97])) :=
      parse_of_text (display_text _ hne).1 false
    rw [spaceStr, hp]
    simp only [check_segNodes, if_true]
    rw [slashed_eval dbg _ (basic_hasText p) n _ hne]
    show spaceOfAblist (slashed _) ≠ _
    rw [spaceOf_slashed _ hne]
    cases hf : Space.tryFromIter (List.replicate 9 [97]) with
    | ok b =>
      have := ((space_build_iff _ _).1 hf).2
      rw [List.length_replicate] at this
      omega
    | error e => cases e <;> simp [ofSpace]

/-- **Negative.**  The tree form of a value (`ToABE`, used to print queries) escapes twice: the 16-byte value ending in
`:` gives a tree whose value is `\:`. -/
theorem tree_form_double_escape (dbg : Bool) (p : Params) (n : Nat) :
    eval dbg (coreScope p) (n + 1) (abToAbe (List.replicate 15 0 ++ [0x3a])) =
      .ok [(none, List.replicate 14 0 ++ [0x5c, 0x3a])] := by
  have h : abToAbe (List.replicate 15 0 ++ [0x3a]) = [.lst (toAbe (callList (ascii "a") [[0x5c, 0x3a]]))] := by
    have h1 : cutPrefixNulls (List.replicate 15 0 ++ [0x3a]) = [0x3a] := by decide +kernel
    have h2 : asAbtxt [0x3a] = [0x5c, 0x3a] := by decide +kernel
    have hl : (List.replicate 15 0 ++ [0x3a] : Bytes).length = 16 := by decide
    rw [abToAbe, if_neg (by decide)]
    simp only [if_pos hl, h1, h2]
    rfl
  rw [h, eval, evalItems, evalItems, match_callList _ _ _ (by decide +kernel) _ (by simp),
    call_value _ _ _ _ (List.replicate 14 0 ++ [0x5c, 0x3a]) (by rw [(core_hasText p).a]; rfl)]
  rfl

/-- The tree form is right for values without characters that need escaping. -/
theorem tree_form_partial (dbg : Bool) (sc : Scope) (ht : HasText sc) (n : Nat) (b : Bytes) (h16 : b.length = 16)
    (h255 : b.headD 0 ≠ 255) (hplain : asAbtxt (cutPrefixNulls b) = cutPrefixNulls b) :
    eval dbg sc (n + 1) (abToAbe b) = .ok [(none, b)] := by
  have h : abToAbe b = [.lst (toAbe (callList (ascii "a") [cutPrefixNulls b]))] ∨ cutPrefixNulls b = [] := by
    unfold abToAbe
    rw [if_neg h255]
    simp only [if_pos h16, hplain]
    cases hc : cutPrefixNulls b with
    | nil => exact .inr rfl
    | cons x xs => exact .inl rfl
  have hm : matchExpr sc ⟨eval dbg sc n, sc.enc, dbg⟩ (.lst (toAbe (callList (ascii "a") [cutPrefixNulls b]))) = .ok (.bytes b) := by
    rw [match_callList _ _ _ (by decide +kernel) _ (by simp), call_value _ _ _ _ b (by rw [ht.a, pad_a16 b h16]; rfl)]; rfl
  rcases h with h | h
  · rw [h, eval, evalItems, evalItems, hm]; rfl
  · have h2 : abToAbe b = [.lst [.bytes (ascii "a"), .ctr .colon, .bytes []]] := by
      unfold abToAbe
      rw [if_neg h255]
      have hz : asAbtxt [] = [] := by rw [asAbtxt_eq]; rfl
      simp only [if_pos h16, h, hz]
    have h3 : matchExpr sc ⟨eval dbg sc n, sc.enc, dbg⟩ (.lst [.bytes (ascii "a"), .ctr .colon, .bytes []]) = 
        matchExpr sc ⟨eval dbg sc n, sc.enc, dbg⟩ (.lst (toAbe (callList (ascii "a") [cutPrefixNulls b]))) := by
      rw [h]; rfl
    rw [h2, eval, evalItems, evalItems, h3, hm]; rfl

end Verif.Props
