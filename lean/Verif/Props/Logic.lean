import Verif.Props.Pipe
/-!
# `size?`, `val?`, `or` and `2mini`
-/
namespace Verif.Props
open Verif Verif.Ast Verif.Abl Verif.Abe Verif.Num Verif.Eval Verif.Spec

theorem core_logic (p : Params) (top : Top) (i : Bool) (b op v : Bytes) :
    (coreScope p).func top (ascii "size?") [b, op, v] i = .ofOption (sizeTest [b, op, v]) ∧
    (coreScope p).func top (ascii "val?") [b, op, v] i = .ofOption (valTest [b, op, v]) := by
  have h : ∀ id r, tableFunc (bytesFns p.utf8) top id [b, op, v] i = .noValue → tableFunc uintFns top id [b, op, v] i = .noValue →
      tableFunc baseFns top id [b, op, v] i = .noValue → tableFunc commentFns top id [b, op, v] i = .noValue →
      tableFunc (helpFns p) top id [b, op, v] i = .noValue → tableFunc logicFns top id [b, op, v] i = .ofOption r →
      (coreScope p).func top id [b, op, v] i = .ofOption r := by
    intro id r h1 h2 h3 h4 h5 h6
    show AR.orElse (AR.orElse (AR.orElse (AR.orElse (AR.orElse (tableFunc (bytesFns p.utf8) top id [b, op, v] i) fun _ =>
      tableFunc uintFns top id [b, op, v] i) fun _ => tableFunc baseFns top id [b, op, v] i) fun _ =>
      AR.orElse (AR.orElse (AR.orElse (tableFunc commentFns top id [b, op, v] i) fun _ => tableFunc (helpFns p) top id [b, op, v] i)
        fun _ => tableFunc logicFns top id [b, op, v] i) _) _) _ = _
    rw [h1, h2, h3, h4, h5, h6]; simp
  exact ⟨h _ _ rfl rfl rfl rfl rfl rfl, h _ _ rfl rfl rfl rfl rfl rfl⟩

/-- `[../size?:=:N]` gives the value unchanged exactly if it has `N` bytes. -/
theorem size_test_iff (p : Params) (top : Top) (i : Bool) (b op v r : Bytes) :
    (coreScope p).func top (ascii "size?") [b, op, v] i = .value r ↔ op = ascii "=" ∧ parseUsize v = some b.length ∧ r = b := by
  rw [(core_logic p top i b op v).1]
  simp only [sizeTest]
  cases h : parseUsize v with
  | none => simp only [AR.ofOption]; exact ⟨nofun, fun h => by cases h.2.1⟩
  | some n =>
    simp only
    by_cases h1 : op = ascii "="
    · rw [if_pos h1]
      by_cases h2 : b.length = n
      · rw [if_neg (by simpa using h2)]
        simp only [AR.ofOption, AR.value.injEq, Option.some.injEq]
        exact ⟨fun h => ⟨h1, h2.symm, h.symm⟩, fun h => h.2.2.symm⟩
      · rw [if_pos h2]
        simp only [AR.ofOption, Option.some.injEq]
        exact ⟨nofun, fun h => absurd h.2.1.symm h2⟩
    · rw [if_neg h1]
      simp only [AR.ofOption]
      exact ⟨nofun, fun h => absurd h.1 h1⟩

/-- `[../val?:=:v]` gives the value unchanged exactly if it is `v`. -/
theorem val_test_iff (p : Params) (top : Top) (i : Bool) (b op v r : Bytes) :
    (coreScope p).func top (ascii "val?") [b, op, v] i = .value r ↔ op = ascii "=" ∧ v = b ∧ r = b := by
  rw [(core_logic p top i b op v).2]
  simp only [valTest]
  by_cases h1 : op = ascii "="
  · rw [if_pos h1]
    by_cases h2 : b = v
    · rw [if_neg (by simpa using h2)]
      simp only [AR.ofOption, AR.value.injEq]
      exact ⟨fun h => ⟨h1, h2.symm, h.symm⟩, fun h => h.2.2.symm⟩
    · rw [if_pos h2]
      simp only [AR.ofOption]
      exact ⟨nofun, fun h => absurd h.2.1.symm h2⟩
  · rw [if_neg h1]
    simp only [AR.ofOption]
    exact ⟨nofun, fun h => absurd h.1 h1⟩

theorem orLoop_noValue (top : Top) (os : List (List ABE)) : orLoop top os ≠ .noValue := by
  induction os with
  | nil => nofun
  | cons o os ih =>
    rw [orLoop]
    split <;> first | exact ih | (intro h; cases h)

theorem core_or (p : Params) (top : Top) (l : List ABE) : (coreScope p).mac top (ascii "or") l = orMac top l := by
  have h : orMac top l ≠ .noValue := by
    unfold orMac
    split
    · exact orLoop_noValue top _
    · nofun
  show AR.orElse (AR.orElse (AR.orElse (orMac top l) _) _) _ = orMac top l
  generalize orMac top l = r at h
  cases r <;> first | exact absurd rfl h | rfl

theorem splitBy_part (o : List ABE) (ho : ∀ e ∈ o, e ≠ .ctr .colon) (l : List ABE) :
    splitBy isColon (o ++ .ctr .colon :: l) = o :: splitBy isColon l := by
  induction o with
  | nil => rfl
  | cons e o ih =>
    have h1 : isColon e = false := by
      cases e with
      | ctr c => cases c with
        | colon => exact absurd rfl (ho _ List.mem_cons_self)
        | fslash => rfl
      | bytes b => rfl
      | lst k => rfl
    rw [List.cons_append, splitBy, if_neg (by rw [h1]; simp), ih fun e he => ho e (by simp [he])]

theorem splitBy_last (o : List ABE) (ho : ∀ e ∈ o, e ≠ .ctr .colon) : splitBy isColon o = [o] := by
  induction o with
  | nil => rfl
  | cons e o ih =>
    have h1 : isColon e = false := by
      cases e with
      | ctr c => cases c with
        | colon => exact absurd rfl (ho _ List.mem_cons_self)
        | fslash => rfl
      | bytes b => rfl
      | lst k => rfl
    rw [splitBy, if_neg (by rw [h1]; simp), ih fun e he => ho e (by simp [he])]

theorem splitBy_args (os : List (List ABE)) (ho : ∀ o ∈ os, ∀ e ∈ o, e ≠ .ctr .colon) : splitBy isColon (argsOf os) = [] :: os := by
  have key : ∀ (o : List ABE) (os : List (List ABE)), (∀ e ∈ o, e ≠ .ctr .colon) → (∀ o ∈ os, ∀ e ∈ o, e ≠ .ctr .colon) →
      splitBy isColon (o ++ argsOf os) = o :: os := by
    intro o os
    induction os generalizing o with
    | nil => intro h1 _; simp only [argsOf, List.flatMap_nil, List.append_nil]; exact splitBy_last o h1
    | cons o' os ih =>
      intro h1 h2
      have he : argsOf (o' :: os) = .ctr .colon :: (o' ++ argsOf os) := rfl
      rw [he, splitBy_part o h1, ih o' (h2 _ List.mem_cons_self) fun o hm => h2 o (by simp [hm])]
  exact key [] os (by simp) ho

/-- `[/or:a:b:..]` gives the text of the first alternative that evaluates without error. -/
theorem or_iff (p : Params) (top : Top) (os : List (List ABE)) (ho : ∀ o ∈ os, ∀ e ∈ o, e ≠ .ctr .colon) (r : Bytes) :
    (coreScope p).mac top (ascii "or") (argsOf os) = .value r ↔
      ∃ bad o good l, os = bad ++ o :: good ∧ (∀ x ∈ bad, top.eval x = .err) ∧ top.eval o = .ok l ∧ r = concat l := by
  rw [core_or]
  unfold orMac
  rw [splitBy_args os ho]
  simp only
  clear ho
  induction os with
  | nil =>
    rw [orLoop]
    exact ⟨nofun, fun ⟨bad, o, good, l, h, _⟩ => by cases bad <;> cases h⟩
  | cons o os ih =>
    rw [orLoop]
    cases h : top.eval o with
    | ok l =>
      simp only [AR.value.injEq]
      constructor
      · rintro rfl
        exact ⟨[], o, os, l, rfl, by simp, h, rfl⟩
      · rintro ⟨bad, o', good, l', h1, h2, h3, rfl⟩
        cases bad with
        | nil => cases h1; rw [h] at h3; cases h3; rfl
        | cons x bad =>
          cases h1
          have := h2 o List.mem_cons_self
          rw [h] at this; cases this
    | err =>
      simp only
      rw [ih]
      constructor
      · rintro ⟨bad, o', good, l', rfl, h2, h3, rfl⟩
        refine ⟨o :: bad, o', good, l', rfl, ?_, h3, rfl⟩
        intro x hx
        rcases List.mem_cons.1 hx with rfl | hx
        · exact h
        · exact h2 x hx
      · rintro ⟨bad, o', good, l', h1, h2, h3, rfl⟩
        cases bad with
        | nil => cases h1; rw [h] at h3; cases h3
        | cons x bad =>
          cases h1
          exact ⟨bad, o', good, l', rfl, fun x hx => h2 x (by simp [hx]), h3, rfl⟩
    | abort =>
      simp only
      constructor
      · nofun
      · rintro ⟨bad, o', good, l', h1, h2, h3, rfl⟩
        cases bad with
        | nil => cases h1; rw [h] at h3; cases h3
        | cons x bad =>
          cases h1
          have := h2 o List.mem_cons_self
          rw [h] at this; cases this

/-- Up to twelve bytes are abbreviated to their base64 text; of more, the first six and the last two characters are kept. -/
theorem mini_b64 (v : Bytes) : (v.length ≤ 12 → miniB64 v = base64 v) ∧
    (12 < v.length → ∃ m, miniB64 v = (base64 v).take 6 ++ m ++ (base64 v).drop ((base64 v).length - 2) ∧ m.length = (v.length / 8 + 1) / 2 ∧
      ∀ c ∈ m, c = 0x3a ∨ c = 0x2e) := by
  unfold miniB64
  constructor
  · intro h; simp only; rw [if_pos h]
  · intro h
    simp only
    rw [if_neg (by omega)]
    refine ⟨List.replicate (v.length / 8 / 2) 0x3a ++ (if v.length / 8 % 2 ≠ 0 then [0x2e] else []), by simp only [List.append_assoc], ?_, ?_⟩
    · rw [List.length_append, List.length_replicate]
      split
      · simp only [List.length_singleton]; omega
      · simp only [List.length_nil]; omega
    · intro c hc
      rcases List.mem_append.1 hc with hc | hc
      · exact .inl (List.mem_replicate.1 hc).2
      · split at hc
        · exact .inr (List.mem_singleton.1 hc)
        · cases hc

/-- A case: the value of the inner bracket contains a colon and a slash and is one argument; the result of the first call is
the first argument of the second. -/
theorem exPipe (p : Params) (top : Top) : Br (coreScope p) top
    [.ctr .colon, .bytes (ascii "a"), .lst [.ctr .colon, .bytes (ascii ":/")], .ctr .fslash, .bytes (ascii "val?"), .ctr .colon, .bytes (ascii "="), .ctr .colon,
      .bytes (ascii "a"), .bytes (ascii ":/"), .ctr .fslash, .bytes (ascii "size?"), .ctr .colon, .bytes (ascii "="), .ctr .colon, .bytes (ascii "3")] (ascii "a:/") := by
  have hin : Br (coreScope p) top [.ctr .colon, .bytes (ascii ":/")] (ascii ":/") :=
    .text (args := [[.bytes (ascii ":/")]]) (vs := [ascii ":/"]) (cs := []) (by simp) (.cons (.bytes .nil) .nil) (by simp) .done
  exact .text (args := [[.bytes (ascii "a"), .lst [.ctr .colon, .bytes (ascii ":/")]]]) (vs := [ascii "a:/"])
    (cs := [([.bytes (ascii "val?")], [[.bytes (ascii "=")], [.bytes (ascii "a"), .bytes (ascii ":/")]]), ([.bytes (ascii "size?")], [[.bytes (ascii "=")], [.bytes (ascii "3")]])])
    (by simp) (.cons (.bytes (.lst hin .nil)) .nil) (by simp)
    (.call (vs := [ascii "=", ascii "a:/"]) (.bytes .nil) (.cons (.bytes .nil) (.cons (.bytes (.bytes .nil)) .nil)) (by simp)
      ((val_test_iff p top false _ _ _ _).2 ⟨rfl, rfl, rfl⟩)
      (.call (vs := [ascii "=", ascii "3"]) (.bytes .nil) (.cons (.bytes .nil) (.cons (.bytes .nil) .nil)) (by simp)
        ((size_test_iff p top false _ _ _ _).2 ⟨rfl, by decide +kernel, rfl⟩) .done))

/-- The check that function names are not expressions only sees names of two parts alone in the bracket. -/
theorem name_of_parts (sc : Scope) (top : Top) (h : sc.func top (ascii "abc") [] true = .value []) :
    matchExpr sc top (.lst [.bytes (ascii "a"), .lst [.ctr .colon, .bytes (ascii "b")], .lst [.ctr .colon, .bytes (ascii "c")]]) = .ok (.bytes []) ∧
    matchExpr sc top (.lst [.bytes (ascii "a"), .lst [.ctr .colon, .bytes (ascii "bc")]]) = .err := by
  refine ⟨(bracket_value_iff _ _).2 ?_, by rw [matchExpr]; rfl⟩
  have hin : ∀ b, Br sc top [.ctr .colon, .bytes b] b := fun b => by
    have := Br.text (sc := sc) (top := top) (args := [[.bytes b]]) (vs := [b]) (cs := []) (out := b) (by simp)
      (.cons (by have := Arg.bytes (sc := sc) (top := top) (b := b) .nil; rwa [List.append_nil] at this) .nil) (by simp)
      (by simp only [List.flatten_cons, List.flatten_nil, List.append_nil]; exact .done)
    exact this
  exact .call (b := ascii "a") (more := [.lst [.ctr .colon, .bytes (ascii "b")], .lst [.ctr .colon, .bytes (ascii "c")]]) (args := []) (cs := []) (vs := [])
    (i := ascii "abc") (.bytes (.lst (hin _) (.lst (hin _) .nil))) (by simp) .nil (by simp) h .done

end Verif.Props
