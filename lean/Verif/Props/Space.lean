import Verif.Lemmas.Rooted
/-!
# C10, C11, C12: spaces and rooted spaces
-/
namespace Verif.Props
open Verif Verif.Spec Verif.Space

/-! ## C10 a space is its list of components -/

/-- C10: building a space from components succeeds exactly when there are at most 8, each has 1..200
bytes and the encoding fits 242 bytes; the result is the encoding. -/
theorem space_build_iff (cs : List Bytes) (bs : Bytes) :
    Space.tryFromIter cs = .ok bs ↔ IsSpace bs cs ∧ cs.length ≤ 8 := by
  have := extendFromIter_iff isSpace_nil cs bs
  simpa [Space.tryFromIter] using this

/-- C10: building never panics. -/
theorem space_build_no_panic (cs : List Bytes) : Space.tryFromIter cs ≠ .error .panic :=
  extendFromIter_no_panic isSpace_nil cs

/-- C10: iterating an encoded space gives its components. -/
theorem space_iter (bs : Bytes) (cs : List Bytes) (h : IsSpace bs cs) : Space.iter bs = .ok cs := by
  rw [h.enc]; exact iter_encode h.comps

/-- C10: the byte check accepts exactly the encodings of component lists, and counts the components. -/
theorem space_check_iff (bs : Bytes) (n : Nat) :
    Space.checkComponents bs = .ok n ↔ ∃ cs, IsSpace bs cs ∧ cs.length = n := by
  unfold Space.checkComponents
  split
  · rename_i h; simp only [maxSize] at h
    simp only [reduceCtorEq, false_iff]
    rintro ⟨cs, hs, _⟩; have := hs.size; omega
  · rename_i h; simp only [maxSize] at h
    rw [checkLoop_iff]
    constructor
    · rintro ⟨cs, hv, he, hn⟩; exact ⟨cs, ⟨hv, he, by omega⟩, by omega⟩
    · rintro ⟨cs, hs, hn⟩; exact ⟨cs, hs.comps, hs.enc, by omega⟩

/-- C10: a byte string encodes at most one component list. -/
theorem space_unique (bs : Bytes) (a b : List Bytes) (ha : IsSpace bs a) (hb : IsSpace bs b) : a = b :=
  ha.unique hb

/-- C10: distinct component lists have distinct encodings. -/
theorem space_injective (a b : List Bytes) (x y : Bytes) (ha : IsSpace x a) (hb : IsSpace y b) :
    x = y ↔ a = b := by
  constructor
  · rintro rfl; exact ha.unique hb
  · rintro rfl; rw [ha.enc, hb.enc]

/-- C10, limit of the code: the byte check accepts nine components although a space "holds up to 8". -/
theorem space_check_accepts_nine :
    ∃ bs cs, Space.checkComponents bs = .ok 9 ∧ IsSpace bs cs ∧ cs.length = 9 ∧
      ∀ bs', Space.tryFromIter cs ≠ .ok bs' := by
  have hsp : IsSpace (encodeSpace (List.replicate 9 [65])) (List.replicate 9 [65]) :=
    ⟨by intro c hc; rw [List.eq_of_mem_replicate hc]; decide, rfl, by decide⟩
  refine ⟨_, _, (space_check_iff _ 9).2 ⟨_, hsp, rfl⟩, hsp, rfl, ?_⟩
  intro bs' h
  have := ((space_build_iff _ _).1 h).2
  simp at this

/-- C10, limit of the code: `components()` fails on every non-empty space. -/
theorem space_components_fails (bs : Bytes) (cs : List Bytes) (h : IsSpace bs cs) :
    Space.components bs = if cs = [] then .ok [] else .error (.err .tailLength) := by
  unfold Space.components
  rw [space_iter bs cs h, h.enc]
  cases cs with
  | nil => rfl
  | cons => simp

/-- witness -/
example : IsSpace [5, 104, 101, 108, 108, 111, 2, 0, 47] [ascii "hello", [0, 47]] :=
  ⟨by intro c hc; simp [ascii] at hc; rcases hc with rfl | rfl <;> decide, by decide, by decide⟩
example : Space.tryFromIter [ascii "hello", [0, 47]] = .ok [5, 104, 101, 108, 108, 111, 2, 0, 47] := by
  rw [space_build_iff]
  exact ⟨⟨by intro c hc; simp [ascii] at hc; rcases hc with rfl | rfl <;> decide, by decide, by decide⟩,
    by decide⟩

/-! ## C11 editing operations act on the component list -/

section C11
variable {bs : Bytes} {cs : List Bytes}

/-- C11 push -/
theorem space_push (h : IsSpace bs cs) (c r : Bytes) :
    Space.tryPush bs c = .ok r ↔ IsSpace r (cs ++ [c]) := by
  rw [tryPush_iff]
  constructor
  · rintro ⟨h1, rfl, h3⟩
    exact ⟨ValidComps.append_iff.2 ⟨h.comps, ValidComps.cons_iff.2 ⟨h1, .nil⟩⟩,
      by rw [encodeSpace_append, ← h.enc], h3⟩
  · intro hr
    exact ⟨hr.comps c (by simp), by rw [hr.enc, encodeSpace_append, ← h.enc], hr.size⟩

/-- C11 push at the front -/
theorem space_push_front (h : IsSpace bs cs) (c r : Bytes) :
    Space.tryPushFront bs c = .ok r ↔ IsSpace r (c :: cs) := by
  rw [tryPushFront_iff]
  constructor
  · rintro ⟨h1, rfl, h3⟩
    exact ⟨ValidComps.cons_iff.2 ⟨h1, h.comps⟩, by rw [h.enc, ← encodeSpace_append]; rfl, h3⟩
  · intro hr
    exact ⟨hr.comps c (by simp), by rw [hr.enc, h.enc, ← encodeSpace_append]; rfl, hr.size⟩

/-- C11 prepend a space -/
theorem space_prepend (h : IsSpace bs cs) {p : Bytes} {ps : List Bytes} (hp : IsSpace p ps) (r : Bytes) :
    Space.tryPrepend bs p = .ok r ↔ IsSpace r (ps ++ cs) := by
  unfold Space.tryPrepend
  split <;> (rename_i hl; simp only [maxSize] at hl)
  · simp only [reduceCtorEq, false_iff]
    intro hr
    have := hr.size
    rw [hr.enc, encodeSpace_append, ← hp.enc, ← h.enc, List.length_append] at this; omega
  · simp only [Except.ok.injEq]
    constructor
    · rintro rfl
      exact ⟨ValidComps.append_iff.2 ⟨hp.comps, h.comps⟩, by rw [encodeSpace_append, ← hp.enc, ← h.enc],
        by rw [List.length_append]; omega⟩
    · intro hr; rw [hr.enc, encodeSpace_append, ← hp.enc, ← h.enc]

/-- C11 append a space (`try_append`, `try_join`) -/
theorem space_append (h : IsSpace bs cs) {p : Bytes} {ps : List Bytes} (hp : IsSpace p ps) (r : Bytes) :
    Space.tryAppend bs p = .ok r ↔ IsSpace r (cs ++ ps) ∧ (cs ++ ps).length ≤ 8 := by
  unfold Space.tryAppend
  rw [space_iter p ps hp]
  exact extendFromIter_iff h ps r

/-- C11 split off the last component -/
theorem space_split_last (h : IsSpace bs cs) :
    Space.splitLast bs = .ok (encodeSpace cs.dropLast, cs.getLast?.map fun c => encodeSpace [c]) := by
  rw [h.enc]; exact splitLast_enc h.comps

/-- C11 parent -/
theorem space_parent (h : IsSpace bs cs) :
    Space.parent bs = .ok (if cs = [] then none else some (encodeSpace cs.dropLast)) := by
  unfold Space.parent
  rw [space_split_last h, h.enc]
  cases cs <;> simp

/-- C11 split off the first component -/
theorem space_split_first (h : IsSpace bs cs) :
    Space.splitFirst bs = .ok (cs.head?.map fun c => (c, encodeSpace cs.tail)) := by
  rw [h.enc]
  cases cs with
  | nil => rfl
  | cons c tl =>
    have hc := (ValidComps.cons_iff.1 h.comps).1
    rw [encodeSpace_cons]
    simp only [Space.splitFirst, ofNat_len hc.2]
    rw [if_neg (by simp)]; simp

/-- C11 first component -/
theorem space_first (h : IsSpace bs cs) : Space.first bs = .ok (cs.headD []) := by
  rw [h.enc]
  cases cs with
  | nil => rfl
  | cons c tl =>
    have hc := (ValidComps.cons_iff.1 h.comps).1
    rw [encodeSpace_cons]
    simp only [Space.first, ofNat_len hc.2]
    rw [if_neg (by simp)]; simp

/-- C11 head -/
theorem space_head (h : IsSpace bs cs) : Space.head bs = .ok cs.head? := by
  rw [h.enc]
  cases cs with
  | nil => rfl
  | cons c tl =>
    have hc := (ValidComps.cons_iff.1 h.comps).1
    unfold Space.head
    rw [encodeSpace_cons, iterNext_enc hc]; rfl

/-- C11 tail -/
theorem space_tail (h : IsSpace bs cs) : Space.tail bs = .ok (encodeSpace cs.tail) := by
  rw [h.enc]
  cases cs with
  | nil => rfl
  | cons c tl =>
    have hc := (ValidComps.cons_iff.1 h.comps).1
    unfold Space.tail
    rw [encodeSpace_cons, iterNext_enc hc]; rfl

/-- C11 pop -/
theorem space_pop (h : IsSpace bs cs) : Space.pop bs = .ok (encodeSpace cs.dropLast, cs.getLast?) := by
  unfold Space.pop
  rw [space_split_last h]
  cases hg : cs.getLast? with
  | none => rfl
  | some c =>
    have hc := h.comps c (List.mem_of_getLast? hg)
    simp only [Option.map_some]
    unfold Space.head
    rw [encodeSpace_cons, iterNext_enc hc]

/-- C11 split at an index (an index past the end gives everything and nothing) -/
theorem space_split_at (h : IsSpace bs cs) (n : Nat) :
    Space.splitAt bs n = .ok (encodeSpace (cs.take n), encodeSpace (cs.drop n)) := by
  rw [h.enc]; exact splitAt_enc h.comps n

/-- C11: byte prefix is component prefix. -/
theorem space_starts_with (h : IsSpace bs cs) {p : Bytes} {ps : List Bytes} (hp : IsSpace p ps) :
    Space.startsWith bs p = true ↔ ps <+: cs := by
  unfold Space.startsWith
  rw [List.isPrefixOf_iff_prefix, hp.enc, h.enc, prefix_encode h.comps hp.comps]

/-- C11 strip a prefix -/
theorem space_strip_prefix (h : IsSpace bs cs) {p : Bytes} {ps : List Bytes} (hp : IsSpace p ps) (r : Bytes) :
    Space.stripPrefix bs p = some r ↔ ∃ rs, cs = ps ++ rs ∧ IsSpace r rs := by
  unfold Space.stripPrefix
  have hsw := space_starts_with h hp
  unfold Space.startsWith at hsw
  cases hpf : p.isPrefixOf bs with
  | false =>
    simp only [Bool.not_false, if_true, reduceCtorEq, false_iff]
    rintro ⟨rs, rfl, _⟩
    rw [hpf] at hsw
    exact absurd (hsw.2 ⟨rs, rfl⟩) (by simp)
  | true =>
    obtain ⟨rs, rfl⟩ := hsw.1 hpf
    have hb : bs = p ++ encodeSpace rs := by rw [h.enc, hp.enc, encodeSpace_append]
    have hrs : IsSpace (encodeSpace rs) rs :=
      ⟨(ValidComps.append_iff.1 h.comps).2, rfl, by have := h.size; rw [hb, List.length_append] at this; omega⟩
    rw [hb]
    simp only [Bool.not_true, Bool.false_eq_true, if_false, List.drop_left, Option.some.injEq]
    constructor
    · rintro rfl; exact ⟨rs, rfl, hrs⟩
    · rintro ⟨rs', he, hr⟩
      have := List.append_cancel_left he
      subst this; exact hr.enc.symm

/-- C11 drop the last component in place -/
theorem space_truncate_last (h : IsSpace bs cs) :
    Space.truncateLast bs = .ok (encodeSpace cs.dropLast) := by
  unfold Space.truncateLast
  rw [space_iter bs cs h]
  cases hg : cs.getLast? with
  | none =>
    have : cs = [] := List.getLast?_eq_none_iff.1 hg
    subst this; simpa using h.enc
  | some c =>
    obtain ⟨l, rfl⟩ := List.getLast?_eq_some_iff.1 hg
    rw [h.enc, encodeSpace_append]
    simp

/-- C11: `scan_space` lists the non-empty prefixes in order of length. -/
theorem space_scan (h : IsSpace bs cs) :
    Space.scanSpace bs = .ok ((List.range cs.length).map fun k => encodeSpace (cs.take (k + 1))) := by
  unfold Space.scanSpace
  have := scanFrom_enc [] cs h.comps
  rw [h.enc]; simpa using this

/-- C11: `to_array` is total on spaces of at most 8 components and panics on longer ones. -/
theorem space_to_array (h : IsSpace bs cs) :
    Space.toArray bs = if cs.length ≤ 8 then .ok cs else .error .panic := by
  unfold Space.toArray
  rw [space_iter bs cs h]
  by_cases h8 : cs.length ≤ 8
  · rw [if_pos h8]; exact if_neg (by unfold maxDepth; omega)
  · rw [if_neg h8]; exact if_pos (by unfold maxDepth; omega)

end C11

/-- witness: `/ab` is not a component prefix of `/abc` although its characters are a prefix -/
example : Space.startsWith (encodeSpace [ascii "abc"]) (encodeSpace [ascii "ab"]) = false := by decide
example : Space.startsWith (encodeSpace [ascii "ab", ascii "c"]) (encodeSpace [ascii "ab"]) = true := by decide

/-! ## C12 rooted spaces -/

/-- C12: rooting a valid space of at most eight components gives the rooted form of its components
(in both build profiles). -/
theorem rooted_of_space (dbg : Bool) (bs : Bytes) (cs : List Bytes) (h : IsSpace bs cs)
    (h8 : cs.length ≤ 8) : Rooted.tryIntoRooted dbg bs = .ok (rootedOf cs) := by
  rw [Rooted.tryIntoRooted_enc dbg h, List.take_of_length_le h8]

/-- C12: building a rooted space component by component. -/
theorem rooted_build_iff (cs : List Bytes) (r : Bytes) :
    Rooted.tryFromIter cs = .ok r ↔ r = rootedOf cs ∧ IsSpace (encodeSpace cs) cs ∧ cs.length ≤ 8 := by
  have := Rooted.extendFromIter_enc [] cs isSpace_nil (by simp) r
  simpa [Rooted.tryFromIter, rootedOf] using this

/-- C12: appending one component to a rooted space. -/
theorem rooted_append_iff (cs : List Bytes) (c r : Bytes) (h : IsSpace (encodeSpace cs) cs)
    (h8 : cs.length ≤ 8) :
    Rooted.tryAppendComponent (rootedOf cs) c = .ok r ↔
      r = rootedOf (cs ++ [c]) ∧ IsSpace (encodeSpace (cs ++ [c])) (cs ++ [c]) ∧ cs.length + 1 ≤ 8 :=
  Rooted.tryAppendComponent_enc cs c h h8 r

/-- C12: the rooted form is accepted by the validity check. -/
theorem rooted_check_accepts (cs : List Bytes) (h : IsSpace (encodeSpace cs) cs) (h8 : cs.length ≤ 8) :
    Rooted.checkComponents (rootedOf cs) = .ok () := by
  rw [Rooted.checkComponents_iff]
  unfold rootedOf
  split
  · exact .inl rfl
  · exact .inr ⟨_, cs, h, h8, rfl, fun hl => by simp; omega⟩

/-- C12: reading a component by index, the whole list, a range, the last one, the depth and the space. -/
theorem rooted_access (cs : List Bytes) (h : IsSpace (encodeSpace cs) cs) (h8 : cs.length ≤ 8) :
    Rooted.depth (rootedOf cs) = cs.length ∧
    Rooted.iter (rootedOf cs) = .ok cs ∧
    Rooted.space (rootedOf cs) = .ok (encodeSpace cs) ∧
    Rooted.last (rootedOf cs) = .ok (cs.getLastD []) ∧
    (∀ i, i < 8 → Rooted.comp (rootedOf cs) i = .ok (cs.getD i [])) ∧
    (∀ a b, a ≤ b → b ≤ 8 → Rooted.range (rootedOf cs) a b = .ok (encodeSpace ((cs.take b).drop a))) := by
  by_cases hcs : cs = []
  · subst hcs
    refine ⟨rfl, rfl, rfl, rfl, ?_, ?_⟩
    · intro i hi
      simp [Rooted.comp, rootedOf, Rooted.preIdxComp, Space.first]
      omega
    · intro a b hab hb
      have hg : ∀ k, k < 9 → (List.replicate 9 (0 : UInt8))[k]? = some 0 := by
        intro k hk; rw [List.getElem?_replicate, if_pos hk]
      simp only [Rooted.range, rootedOf, Rooted.fields, if_true, List.isEmpty_nil]
      rw [hg a (by omega), hg b (by omega)]
      simp
  · have hroot : rootedOf cs = rootedWith (UInt8.ofNat cs.length) cs := by simp [rootedOf, hcs]
    have hd : (UInt8.ofNat cs.length).toNat = cs.length := by simp; omega
    have hcomp : ∀ i, i < 8 → Rooted.comp (rootedOf cs) i = .ok (cs.getD i []) := by
      intro i hi; rw [hroot]; exact Rooted.comp_rootedWith h.comps h8 h.size hi
    have hdepth : Rooted.depth (rootedOf cs) = cs.length := by
      unfold Rooted.depth; rw [hroot, Rooted.rootedWith_head, hd]
    refine ⟨hdepth, ?_, ?_, ?_, hcomp, ?_⟩
    · rw [hroot]; exact Rooted.iter_rootedWith h.comps h8 h.size hd
    · unfold Rooted.space; rw [hroot, Rooted.fields_rootedWith h8 h.size]
    · unfold Rooted.last
      rw [hdepth, hcomp _ (by omega)]
      congr 1
      rw [List.getD_eq_getElem?_getD, ← List.getLast?_eq_getElem?, List.getLastD_eq_getLast?]
    · intro a b hab hb
      rw [hroot]; exact Rooted.range_rootedWith h8 h.size hab hb

/-- C12: exactly which byte strings the validity check accepts: the empty one, and a depth byte followed
by the correct offsets and a space of at most 8 components, where the depth byte is only checked when
there are fewer than 8 components. -/
theorem rooted_check_iff (r : Bytes) :
    Rooted.checkComponents r = .ok () ↔ r = [] ∨
      ∃ d cs, IsSpace (encodeSpace cs) cs ∧ cs.length ≤ 8 ∧ r = rootedWith d cs ∧
        (cs.length < 8 → d.toNat = cs.length) :=
  Rooted.checkComponents_iff r

/-- C12: distinct component lists have distinct rooted forms. -/
theorem rooted_injective (a b : List Bytes) (ha : IsSpace (encodeSpace a) a) (hb : IsSpace (encodeSpace b) b)
    (ha8 : a.length ≤ 8) (hb8 : b.length ≤ 8) (h : rootedOf a = rootedOf b) : a = b := by
  have h1 := (rooted_access a ha ha8).2.1
  rw [h, (rooted_access b hb hb8).2.1] at h1
  injection h1 with h1; exact h1.symm

/-- C12 (converse direction), partial.  Full statement: every accepted `r` is `rootedOf cs` for exactly one
`cs`.  Missing: values with eight components whose depth byte is wrong, and the eight zero bytes (see the
two counterexamples below). -/
theorem rooted_check_canonical_partial (r sp : Bytes) (l : List Bytes)
    (hok : Rooted.checkComponents r = .ok ()) (hsp : Rooted.space r = .ok sp)
    (hl : Space.iter sp = .ok l) (hd : l.length < 8 ∨ Rooted.depth r = l.length)
    (h0 : r ≠ List.replicate 8 0) :
    r = rootedOf l ∧
      ∀ cs, IsSpace (encodeSpace cs) cs → cs.length ≤ 8 → r = rootedOf cs → cs = l := by
  have hr : r = rootedOf l ∧ IsSpace (encodeSpace l) l ∧ l.length ≤ 8 := by
    rcases (rooted_check_iff r).1 hok with rfl | ⟨d, cs, hs, h8, rfl, hdd⟩
    · have : sp = [] := by
        simp [Rooted.space, Rooted.fields] at hsp; exact hsp
      subst this
      rw [iter_nil] at hl
      injection hl with hl; subst hl
      exact ⟨rfl, isSpace_nil, by simp⟩
    · unfold Rooted.space at hsp
      rw [Rooted.fields_rootedWith h8 hs.size] at hsp
      injection hsp with hsp; subst hsp
      rw [iter_encode hs.comps] at hl
      injection hl with hl; subst hl
      unfold Rooted.depth at hd
      rw [Rooted.rootedWith_head] at hd
      have hdl : d.toNat = cs.length := by rcases hd with hd | hd; exact hdd hd; exact hd
      have hde : d = UInt8.ofNat cs.length := by
        apply UInt8.toNat_inj.1; rw [hdl]; simp; omega
      subst hde
      refine ⟨?_, hs, h8⟩
      unfold rootedOf
      split
      · subst cs; exact absurd (by decide) h0
      · rfl
  exact ⟨hr.1, fun cs hs h8 h => rooted_injective cs l hs hr.2.1 h8 hr.2.2 (h.symm.trans hr.1)⟩

/-- C12, counterexample: with eight components the depth byte is not checked; such a value is accepted and
reading its components panics. -/
theorem rooted_depth_byte_unchecked :
    ∃ r, Rooted.checkComponents r = .ok () ∧ Rooted.depth r = 200 ∧ Rooted.iter r = .error .panic ∧
      Rooted.last r = .error .panic := by
  refine ⟨rootedWith 200 (List.replicate 8 [65]), (rooted_check_iff _).2 (.inr ⟨200, _, ?_, ?_, rfl, ?_⟩),
    by decide, by decide, by decide⟩
  · exact ⟨by intro c hc; rw [List.eq_of_mem_replicate hc]; decide, rfl, by decide⟩
  · decide
  · decide

/-- C12, counterexample: with eight components a smaller depth byte is accepted too, and then reading the
components of the rooted space loses some that its space still has. -/
theorem rooted_depth_byte_hides :
    ∃ r sp, Rooted.checkComponents r = .ok () ∧ Rooted.iter r = .ok [] ∧ Rooted.space r = .ok sp ∧
      Space.iter sp = .ok (List.replicate 8 [65]) := by
  have hs : IsSpace (encodeSpace (List.replicate 8 [65])) (List.replicate 8 [65]) :=
    ⟨by intro c hc; rw [List.eq_of_mem_replicate hc]; decide, rfl, by decide⟩
  exact ⟨rootedWith 0 (List.replicate 8 [65]), _,
    (rooted_check_iff _).2 (.inr ⟨0, _, hs, by decide, rfl, by decide⟩), by decide, by rfl, space_iter _ _ hs⟩

/-- C12, counterexample: the space without components has a second accepted encoding. -/
theorem rooted_two_empty :
    Rooted.checkComponents [] = .ok () ∧ Rooted.checkComponents (List.replicate 8 0) = .ok () ∧
      Rooted.iter [] = .ok [] ∧ Rooted.iter (List.replicate 8 0) = .ok [] := by decide

/-- C12, counterexample: rooting a space with more than eight components silently keeps eight. -/
theorem rooting_truncates (dbg : Bool) (bs : Bytes) (cs : List Bytes) (h : IsSpace bs cs) :
    Rooted.tryIntoRooted dbg bs = .ok (rootedOf (cs.take 8)) := Rooted.tryIntoRooted_enc dbg h

/-- C12: the constant constructor for one component. -/
theorem rooted_one (c : Bytes) (r : Bytes) :
    Rooted.rspace1 c = .ok r ↔ 1 ≤ c.length ∧ c.length < 200 ∧ r = rootedOf [c] := by
  have hshape : (1 : UInt8) :: List.replicate 7 (UInt8.ofNat (c.length + 1)) ++ UInt8.ofNat c.length :: c =
      rootedOf [c] := by
    simp [rootedOf, rootedWith, endOffset, List.range_succ, encodeSpace]
  unfold Rooted.rspace1
  rw [hshape]
  by_cases hl : c.length < 200
  · rw [if_neg (by unfold Space.maxComponent; omega)]
    by_cases h1 : 1 ≤ c.length
    · have hs : IsSpace (encodeSpace [c]) [c] :=
        ⟨ValidComps.cons_iff.2 ⟨⟨h1, by omega⟩, .nil⟩, rfl, by simp; omega⟩
      simp only [rooted_check_accepts [c] hs (by simp), Except.ok.injEq]
      constructor
      · rintro rfl; exact ⟨h1, hl, rfl⟩
      · rintro ⟨_, _, rfl⟩; rfl
    · have : c = [] := by cases c; rfl; simp at h1
      subst this
      have hbad : Rooted.checkComponents (rootedOf [[]]) = .error .zeroComponent := by decide
      simp only [hbad]
      simp
  · rw [if_pos (by unfold Space.maxComponent; omega)]
    simp; omega

/-- witness: the value from the test in `rooted_space.rs:389-392` -/
example : rootedOf [ascii "he", ascii "llo"] = [2, 3, 7, 7, 7, 7, 7, 7, 2, 104, 101, 3, 108, 108, 111] := by
  decide
example : IsSpace (encodeSpace [ascii "he", ascii "llo"]) [ascii "he", ascii "llo"] :=
  ⟨by intro c hc; simp [ascii] at hc; rcases hc with rfl | rfl <;> decide, rfl, by decide⟩

end Verif.Props
