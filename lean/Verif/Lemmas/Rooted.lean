import Verif.Lemmas.Space
/-!
Lemmas about rooted spaces.
-/
namespace Verif.Rooted
open Verif Verif.Spec Verif.Space

@[simp] theorem endOffset_zero (cs : List Bytes) : endOffset cs 0 = 0 := by simp [endOffset]
@[simp] theorem endOffset_nil (k : Nat) : endOffset [] k = 0 := by simp [endOffset]
theorem endOffset_cons (c : Bytes) (cs : List Bytes) (k : Nat) :
    endOffset (c :: cs) (k + 1) = c.length + 1 + endOffset cs k := by
  simp [endOffset]; omega
theorem endOffset_ge (cs : List Bytes) {k : Nat} (h : cs.length ≤ k) :
    endOffset cs k = (encodeSpace cs).length := by
  simp [endOffset, List.take_of_length_le h]
theorem endOffset_le (cs : List Bytes) (k : Nat) : endOffset cs k ≤ (encodeSpace cs).length := by
  have : encodeSpace cs = encodeSpace (cs.take k) ++ encodeSpace (cs.drop k) := by
    rw [← encodeSpace_append, List.take_append_drop]
  rw [this]; simp [endOffset]
theorem endOffset_mono (cs : List Bytes) {a b : Nat} (h : a ≤ b) : endOffset cs a ≤ endOffset cs b := by
  have := endOffset_le (cs.take b) a
  simpa [endOffset, List.take_take, Nat.min_eq_left h] using this
theorem endOffset_append (cs ds : List Bytes) {k : Nat} (h : k ≤ cs.length) :
    endOffset (cs ++ ds) k = endOffset cs k := by
  simp [endOffset, List.take_append_of_le_length h]

theorem take_endOffset (cs : List Bytes) (k : Nat) :
    (encodeSpace cs).take (endOffset cs k) = encodeSpace (cs.take k) := by
  have : encodeSpace cs = encodeSpace (cs.take k) ++ encodeSpace (cs.drop k) := by
    rw [← encodeSpace_append, List.take_append_drop]
  rw [this]; simp [endOffset]
theorem drop_endOffset (cs : List Bytes) (k : Nat) :
    (encodeSpace cs).drop (endOffset cs k) = encodeSpace (cs.drop k) := by
  have : encodeSpace cs = encodeSpace (cs.take k) ++ encodeSpace (cs.drop k) := by
    rw [← encodeSpace_append, List.take_append_drop]
  rw [this]; simp [endOffset]
theorem slice_endOffset (cs : List Bytes) {a b : Nat} (h : a ≤ b) :
    ((encodeSpace cs).drop (endOffset cs a)).take (endOffset cs b - endOffset cs a) =
      encodeSpace ((cs.take b).drop a) := by
  have : endOffset (cs.take b) a = endOffset cs a := by
    simp [endOffset, List.take_take, Nat.min_eq_left h]
  rw [← drop_endOffset, ← take_endOffset, List.drop_take, this]

theorem checkLoop_iff (ends : List UInt8) (i len ptr : Nat) (it : Bytes) :
    checkLoop ends i len ptr it = .ok () ↔
      ∃ cs rest, ValidComps cs ∧ it = encodeSpace cs ++ rest ∧ cs.length ≤ ends.length ∧
        (cs.length < ends.length → rest = [] ∧ len = i + cs.length) ∧
        ends.map UInt8.toNat = (List.range ends.length).map (fun k => ptr + endOffset cs (k + 1)) := by
  induction ends generalizing i len ptr it with
  | nil =>
    simp only [checkLoop, List.map_nil, List.length_nil, List.range_zero, Nat.not_lt_zero,
      true_iff]
    exact ⟨[], it, .nil, by simp, by simp, by simp, trivial⟩
  | cons e es ih =>
    unfold checkLoop
    match h : nextSpC it with
    | some (.error er) =>
      simp only [reduceCtorEq, false_iff]
      rintro ⟨cs, rest, hv, rfl, hle, hlt, _⟩
      cases cs with
      | nil =>
        obtain ⟨rfl, _⟩ := hlt (by simp)
        simp [nextSpC] at h
      | cons c cs =>
        rw [ValidComps.cons_iff] at hv
        rw [encodeSpace_cons, List.cons_append, List.append_assoc, nextSpC_enc hv.1] at h; cases h
    | none =>
      have := nextSpC_none.1 h; subst this
      simp only []
      constructor
      · intro hx
        split at hx
        · cases hx
        · split at hx
          · cases hx
          · rename_i h1 h2
            obtain ⟨cs, rest, hv, he, hle, hlt, hm⟩ := (ih _ _ _ _).1 hx
            have hcs : cs = [] := by
              cases cs with
              | nil => rfl
              | cons => simp at he
            subst hcs
            refine ⟨[], [], .nil, rfl, by simp, fun _ => ⟨rfl, by simp; omega⟩, ?_⟩
            simp only [List.map_cons, List.length_cons, List.range_succ_eq_map, List.map_map]
            simp at hm h2
            simp [h2, hm, Function.comp_def]
      · rintro ⟨cs, rest, hv, he, hle, hlt, hm⟩
        have hcs : cs = [] := by
          cases cs with
          | nil => rfl
          | cons => simp at he
        subst hcs
        obtain ⟨rfl, hl⟩ := hlt (by simp)
        simp only [List.length_nil, Nat.add_zero] at hl
        simp only [List.map_cons, List.length_cons, List.range_succ_eq_map, List.map_map,
          List.cons.injEq, endOffset_nil, Nat.add_zero] at hm
        rw [if_neg (by simp [hl]), if_neg (by simp [hm.1])]
        refine (ih _ _ _ _).2 ⟨[], [], .nil, rfl, by simp, fun _ => ⟨rfl, by simp; omega⟩, ?_⟩
        simpa [Function.comp_def] using hm.2
    | some (.ok (s, r)) =>
      obtain ⟨c, hc, rfl, rfl⟩ := nextSpC_ok h
      simp only [List.length_cons]
      constructor
      · intro hx
        split at hx
        · cases hx
        · rename_i h1
          obtain ⟨cs, rest, hv, he, hle, hlt, hm⟩ := (ih _ _ _ _).1 hx
          refine ⟨c :: cs, rest, ValidComps.cons_iff.2 ⟨hc, hv⟩, by simp [he], by simpa using hle, ?_, ?_⟩
          · intro hl
            obtain ⟨h2, h3⟩ := hlt (by simpa using hl)
            exact ⟨h2, by simp; omega⟩
          · simp only [List.map_cons, List.range_succ_eq_map, List.map_map,
              endOffset_cons, List.cons.injEq, endOffset_zero]
            refine ⟨by omega, ?_⟩
            rw [hm]
            apply List.map_congr_left
            intro k _
            simp; omega
      · rintro ⟨cs, rest, hv, he, hle, hlt, hm⟩
        cases cs with
        | nil =>
          obtain ⟨rfl, _⟩ := hlt (by simp)
          simp at he
        | cons d cs =>
          rw [ValidComps.cons_iff] at hv
          have h' := h
          rw [he, encodeSpace_cons, List.cons_append, List.append_assoc, nextSpC_enc hv.1] at h'
          injection h' with h'; injection h' with h'; injection h' with h1 h2
          injection h1 with h1 h1'
          subst h1'
          simp only [List.map_cons, List.range_succ_eq_map, List.map_map,
              endOffset_cons, List.cons.injEq, endOffset_zero] at hm
          rw [if_neg (by simp; omega)]
          refine (ih _ _ _ _).2 ⟨cs, rest, hv.2, h2.symm, by simpa using hle, ?_, ?_⟩
          · intro hl
            obtain ⟨h3, h4⟩ := hlt (by simpa using hl)
            exact ⟨h3, by simp at h4; omega⟩
          · rw [hm.2]
            apply List.map_congr_left
            intro k _
            simp; omega

theorem rootedWith_length (d : UInt8) (cs : List Bytes) :
    (rootedWith d cs).length = 8 + (encodeSpace cs).length := by
  simp [rootedWith]; omega

theorem rootedWith_take8 (d : UInt8) (cs : List Bytes) :
    ((rootedWith d cs).take 8).drop 1 = (List.range 7).map (fun k => UInt8.ofNat (endOffset cs (k + 1))) := by
  simp [rootedWith]
theorem rootedWith_drop8 (d : UInt8) (cs : List Bytes) :
    (rootedWith d cs).drop 8 = encodeSpace cs := by
  simp [rootedWith]
theorem rootedWith_head (d : UInt8) (cs : List Bytes) : (rootedWith d cs).headD 0 = d := by
  simp [rootedWith]
theorem rootedWith_not_empty (d : UInt8) (cs : List Bytes) : (rootedWith d cs).isEmpty = false := by
  simp [rootedWith]

/-- the nine offsets -/
theorem ptrs_eq {cs : List Bytes} (h8 : cs.length ≤ 8) :
    (0 : UInt8) :: (List.range 7).map (fun k => UInt8.ofNat (endOffset cs (k + 1))) ++
        [UInt8.ofNat (encodeSpace cs).length] =
      (List.range 9).map (fun k => UInt8.ofNat (endOffset cs k)) := by
  rw [← endOffset_ge cs h8]
  simp [List.range_succ]

theorem fields_rootedWith {d : UInt8} {cs : List Bytes} (h8 : cs.length ≤ 8)
    (hs : (encodeSpace cs).length ≤ 242) :
    fields (rootedWith d cs) =
      .ok (d, (List.range 9).map (fun k => UInt8.ofNat (endOffset cs k)), encodeSpace cs) := by
  unfold fields
  rw [rootedWith_not_empty, rootedWith_length, rootedWith_take8, rootedWith_drop8, rootedWith_head]
  simp only [Bool.false_eq_true, if_false]
  rw [if_neg (by omega), if_neg (by omega), ptrs_eq h8]

theorem ofNat_toNat_of {n : Nat} (h : n ≤ 242) : (UInt8.ofNat n).toNat = n := by simp; omega

theorem checkComponents_iff (r : Bytes) :
    checkComponents r = .ok () ↔ r = [] ∨
      ∃ d cs, IsSpace (encodeSpace cs) cs ∧ cs.length ≤ 8 ∧ r = rootedWith d cs ∧
        (cs.length < 8 → d.toNat = cs.length) := by
  by_cases hr : r = []
  · subst hr; simp [checkComponents]
  have hre : r.isEmpty = false := by cases r <;> simp at hr ⊢
  simp only [hr, false_or]
  constructor
  · intro h
    unfold checkComponents at h
    rw [hre] at h
    simp only [Bool.false_eq_true, if_false] at h
    split at h
    · cases h
    · split at h
      · cases h
      · rename_i h1 h2
        simp only [maxRooted] at h2
        unfold fields at h
        rw [hre] at h
        simp only [Bool.false_eq_true, if_false, if_neg h1] at h
        split at h
        · cases h
        · rename_i h3
          simp only [maxSize] at h3
          rw [if_neg (by omega)] at h
          obtain ⟨cs, rest, hv, he, hle, hlt, hm⟩ := (checkLoop_iff _ _ _ _ _).1 h
          have hl7 : ((r.take 8).drop 1).length = 7 := by simp; omega
          have hlen : (List.drop 1 (0 :: List.drop 1 (List.take 8 r) ++
              [UInt8.ofNat (List.drop 8 r).length])).length = 8 := by
            simp at hl7 ⊢; omega
          rw [hlen] at hle hlt hm
          have hm' : ((r.take 8).drop 1).map UInt8.toNat ++ [(r.drop 8).length] =
              (List.range 7).map (fun k => endOffset cs (k + 1)) ++ [endOffset cs 8] := by
            rw [List.range_succ] at hm
            simp only [List.cons_append, List.drop_succ_cons, List.drop_zero, List.map_append,
              List.map_cons, List.map_nil, ofNat_toNat_of (Nat.not_lt.1 h3), Nat.zero_add] at hm
            exact hm
          obtain ⟨hma, hmb⟩ := List.append_inj hm' (by rw [List.length_map, hl7]; simp)
          have hsize : (r.drop 8).length = (encodeSpace cs).length := by
            injection hmb with hmb _; rw [hmb, endOffset_ge cs hle]
          have hrest : rest = [] := by
            have := congrArg List.length he
            rw [hsize, List.length_append] at this
            exact List.eq_nil_of_length_eq_zero (by omega)
          subst hrest
          rw [List.append_nil] at he
          refine ⟨r.headD 0, cs, ⟨hv, rfl, by omega⟩, hle, ?_, ?_⟩
          · cases r with
            | nil => simp at hr
            | cons d tl =>
              simp only [List.headD_cons, rootedWith, List.cons_append]
              congr 1
              have ht : tl = tl.take 7 ++ tl.drop 7 := (List.take_append_drop _ _).symm
              simp only [List.take_succ_cons, List.drop_succ_cons, List.drop_zero] at hma he
              rw [ht, he]
              congr 1
              have := congrArg (List.map UInt8.ofNat) hma
              simpa [List.map_map, Function.comp_def] using this
          · intro hlt8; have := (hlt hlt8).2; omega
  · rintro ⟨d, cs, hsp, h8, rfl, hd⟩
    have hsz := hsp.size
    unfold checkComponents
    rw [rootedWith_not_empty, rootedWith_length, fields_rootedWith h8 hsz]
    simp only [Bool.false_eq_true, if_false]
    rw [if_neg (by omega), if_neg (by unfold maxRooted; omega), if_neg (by unfold maxSize; omega),
      checkLoop_iff]
    have hl : (List.drop 1 (List.map (fun k => UInt8.ofNat (endOffset cs k)) (List.range 9))) =
        (List.range 8).map (fun k => UInt8.ofNat (endOffset cs (k + 1))) := by
      rw [List.range_succ_eq_map (n := 8)]
      simp [Function.comp_def]
    rw [hl]
    refine ⟨cs, [], hsp.comps, by simp, by simpa using h8, ?_, ?_⟩
    · intro h; simp at h; exact ⟨rfl, by rw [hd h]; simp⟩
    · simp only [List.map_map, List.length_map, List.length_range]
      apply List.map_congr_left
      intro k _
      have := endOffset_le cs (k + 1)
      simp; omega

theorem preIdxComp_rootedWith {d : UInt8} {cs : List Bytes} (h8 : cs.length ≤ 8)
    (hs : (encodeSpace cs).length ≤ 242) {i : Nat} (hi : i < 8) :
    preIdxComp (rootedWith d cs) i = .ok (encodeSpace ((cs.take (i + 1)).drop i)) := by
  unfold preIdxComp
  rw [rootedWith_not_empty, rootedWith_length, rootedWith_take8, rootedWith_drop8]
  simp only [Bool.false_eq_true, if_false]
  rw [if_neg (by omega), ptrs_eq h8]
  have hg : ∀ k, k < 9 → (List.map (fun k => UInt8.ofNat (endOffset cs k)) (List.range 9)).getD k 0 =
      UInt8.ofNat (endOffset cs k) := by
    intro k hk
    simp [List.getD_eq_getElem?_getD, hk]
  rw [hg i (by omega), hg (i + 1) (by omega)]
  have h1 := endOffset_le cs i
  have h2 := endOffset_le cs (i + 1)
  have h3 := endOffset_mono cs (Nat.le_succ i)
  have hsub : (UInt8.ofNat (endOffset cs (i + 1)) - UInt8.ofNat (endOffset cs i)).toNat =
      endOffset cs (i + 1) - endOffset cs i := by
    rw [UInt8.toNat_sub_of_le]
    · rw [ofNat_toNat_of (by omega), ofNat_toNat_of (by omega)]
    · rw [UInt8.le_iff_toNat_le, ofNat_toNat_of (by omega), ofNat_toNat_of (by omega)]; exact h3
  rw [hsub, ofNat_toNat_of (by omega), if_neg (by omega), slice_endOffset cs (Nat.le_succ i)]

theorem comp_rootedWith {d : UInt8} {cs : List Bytes} (hv : ValidComps cs) (h8 : cs.length ≤ 8)
    (hs : (encodeSpace cs).length ≤ 242) {i : Nat} (hi : i < 8) :
    comp (rootedWith d cs) i = .ok (cs.getD i []) := by
  unfold comp
  rw [if_neg (by omega), preIdxComp_rootedWith h8 hs hi]
  simp only []
  by_cases h : i < cs.length
  · have : (cs.take (i + 1)).drop i = [cs[i]] := by
      rw [List.drop_take]
      simp only [Nat.add_sub_cancel_left]
      rw [List.take_one, List.head?_drop, List.getElem?_eq_getElem h]; rfl
    rw [this]
    have hc := hv cs[i] (List.getElem_mem h)
    rw [encodeSpace_cons]
    simp only [first, ofNat_len hc.2, encodeSpace_nil, List.append_nil]
    rw [if_neg (by simp)]
    simp [List.getD_eq_getElem?_getD, h]
  · have : (cs.take (i + 1)).drop i = [] := by
      apply List.drop_of_length_le; rw [List.length_take]; omega
    rw [this]
    simp [first, List.getD_eq_getElem?_getD, List.getElem?_eq_none (Nat.not_lt.1 h)]

theorem range_rootedWith {d : UInt8} {cs : List Bytes} (h8 : cs.length ≤ 8)
    (hs : (encodeSpace cs).length ≤ 242) {a b : Nat} (hab : a ≤ b) (hb : b ≤ 8) :
    range (rootedWith d cs) a b = .ok (encodeSpace ((cs.take b).drop a)) := by
  unfold range
  rw [fields_rootedWith h8 hs]
  have hg : ∀ k, k < 9 → (List.map (fun k => UInt8.ofNat (endOffset cs k)) (List.range 9))[k]? =
      some (UInt8.ofNat (endOffset cs k)) := by
    intro k hk; simp [hk]
  simp only []
  rw [hg a (by omega), hg b (by omega)]
  have h1 := endOffset_le cs a
  have h2 := endOffset_le cs b
  have h3 := endOffset_mono cs hab
  simp only []
  rw [ofNat_toNat_of (by omega), ofNat_toNat_of (by omega), if_neg (by omega), slice_endOffset cs hab]

theorem mapM_ok {α β ε : Type} (f : α → Except ε β) (g : α → β) (l : List α)
    (h : ∀ x ∈ l, f x = .ok (g x)) : l.mapM f = .ok (l.map g) := by
  induction l with
  | nil => rfl
  | cons a l ih =>
    rw [List.mapM_cons, h a (by simp), ih (fun x hx => h x (by simp [hx]))]
    rfl

theorem iter_rootedWith {d : UInt8} {cs : List Bytes} (hv : ValidComps cs) (h8 : cs.length ≤ 8)
    (hs : (encodeSpace cs).length ≤ 242) (hd : d.toNat = cs.length) :
    iter (rootedWith d cs) = .ok cs := by
  unfold iter depth
  rw [rootedWith_head, hd]
  rw [mapM_ok _ (fun i => cs.getD i [])]
  · congr 1
    apply List.ext_getElem
    · simp
    · intro i h1 h2; simp [List.getD_eq_getElem?_getD, h2]
  · intro i hi
    exact comp_rootedWith hv h8 hs (by have := List.mem_range.1 hi; omega)

theorem rootLoop_enc (n : Nat) (offs : List UInt8) (copied : Bytes) (count : Nat) {cs : List Bytes}
    (h : ValidComps cs) :
    rootLoop n offs copied count (encodeSpace cs) =
      .ok (offs ++ (List.range n).map (fun k => UInt8.ofNat (copied.length + endOffset cs k)),
        copied ++ encodeSpace (cs.take n), count + min n cs.length) := by
  induction n generalizing offs copied count cs with
  | zero => simp [rootLoop]
  | succ n ih =>
    unfold rootLoop
    cases cs with
    | nil =>
      have h0 := ih (offs ++ [UInt8.ofNat copied.length]) copied count h
      rw [encodeSpace_nil] at h0 ⊢
      simp only [nextSpC]
      rw [h0]
      simp [List.range_succ_eq_map, Function.comp_def]
    | cons c cs =>
      rw [ValidComps.cons_iff] at h
      rw [encodeSpace_cons, nextSpC_enc h.1]
      simp only []
      rw [ih _ _ _ h.2]
      simp only [List.range_succ_eq_map, List.map_cons, List.map_map, List.append_assoc,
        List.cons_append, List.nil_append, endOffset_zero, Nat.add_zero, List.take_succ_cons,
        encodeSpace_cons, List.length_cons, List.length_append]
      congr 2
      · congr 2
        apply List.map_congr_left
        intro k _
        simp only [Function.comp, endOffset_cons]
        congr 1; omega
      · congr 1; omega

theorem tryIntoRooted_enc (dbg : Bool) {sp : Bytes} {cs : List Bytes} (h : IsSpace sp cs) :
    tryIntoRooted dbg sp = .ok (rootedOf (cs.take 8)) := by
  obtain ⟨hv, rfl, hs⟩ := h
  unfold tryIntoRooted
  cases cs with
  | nil => rfl
  | cons c cs =>
    have hne : (encodeSpace (c :: cs)).isEmpty = false := by simp
    rw [hne]
    simp only [Bool.false_eq_true, if_false]
    rw [if_neg (by unfold maxSize; omega), rootLoop_enc 8 _ _ _ hv]
    simp only [List.nil_append, List.length_nil, Nat.zero_add]
    have hdata : UInt8.ofNat (min 8 (c :: cs).length) ::
        (List.drop 1 (List.map (fun k => UInt8.ofNat (endOffset (c :: cs) k)) (List.range 8))) ++
          encodeSpace ((c :: cs).take 8) = rootedOf ((c :: cs).take 8) := by
      unfold rootedOf rootedWith
      rw [if_neg (by simp)]
      rw [List.length_take]
      congr 2
      rw [List.range_succ_eq_map (n := 7)]
      simp only [List.map_cons, List.drop_succ_cons, List.drop_zero, List.map_map]
      apply List.map_congr_left
      intro k hk
      have hk := List.mem_range.1 hk
      simp only [Function.comp, endOffset, List.take_take]
      rw [Nat.min_eq_left (by omega)]
    rw [hdata]
    cases dbg with
    | false => rfl
    | true =>
      have hchk : checkComponents (rootedOf ((c :: cs).take 8)) = .ok () := by
        rw [checkComponents_iff]; right
        refine ⟨UInt8.ofNat ((c :: cs).take 8).length, (c :: cs).take 8, ⟨hv.take 8, rfl, ?_⟩, ?_, ?_, ?_⟩
        · have := endOffset_le (c :: cs) 8
          unfold endOffset at this; omega
        · simp; omega
        · unfold rootedOf; rw [if_neg (by simp)]
        · intro hl; simp at hl ⊢; omega
      simp only [if_true]
      rw [hchk]

theorem tryAppendComponent_enc (cs : List Bytes) (c : Bytes) (hs : IsSpace (encodeSpace cs) cs)
    (h8 : cs.length ≤ 8) (r : Bytes) :
    tryAppendComponent (rootedOf cs) c = .ok r ↔
      r = rootedOf (cs ++ [c]) ∧ IsSpace (encodeSpace (cs ++ [c])) (cs ++ [c]) ∧ cs.length + 1 ≤ 8 := by
  have hsz := hs.size
  have hbs : (if (rootedOf cs).isEmpty = true then List.replicate 8 (0 : UInt8) else rootedOf cs) =
      rootedWith (UInt8.ofNat cs.length) cs := by
    unfold rootedOf
    split
    · subst cs; decide
    · rename_i hx
      rw [rootedWith_not_empty]; simp
  have hc : c.isEmpty = true ↔ c.length = 0 := by cases c <;> simp
  have hd : (UInt8.ofNat cs.length).toNat = cs.length := by simp; omega
  unfold tryAppendComponent
  split
  · rename_i h; simp only [maxComponent] at h
    simp only [reduceCtorEq, false_iff]
    rintro ⟨_, h2, _⟩
    have := h2.comps c (by simp); omega
  · rename_i h; simp only [maxComponent] at h
    split
    · rename_i h0
      simp only [reduceCtorEq, false_iff]
      rintro ⟨_, h2, _⟩
      have := h2.comps c (by simp); rw [hc] at h0; omega
    · rename_i h0; rw [hc] at h0
      simp only [hbs, rootedWith_head, rootedWith_length, hd]
      have hcc : 1 ≤ c.length ∧ c.length ≤ 200 := by omega
      split
      · rename_i h1; simp only [maxDepth] at h1
        simp only [reduceCtorEq, false_iff]
        rintro ⟨_, _, h3⟩; omega
      · rename_i h1; simp only [maxDepth] at h1
        split
        · rename_i h2; simp only [maxRooted] at h2
          simp only [reduceCtorEq, false_iff]
          rintro ⟨_, h3, _⟩
          have := h3.size
          simp at this; omega
        · rename_i h2; simp only [maxRooted] at h2
          have hsp : IsSpace (encodeSpace (cs ++ [c])) (cs ++ [c]) :=
            ⟨ValidComps.append_iff.2 ⟨hs.comps, ValidComps.cons_iff.2 ⟨hcc, .nil⟩⟩, rfl, by
              simp; omega⟩
          rw [if_neg (by simp [rootedWith])]
          simp only [Except.ok.injEq]
          have hgoal : List.take (cs.length + 1)
                (UInt8.ofNat (cs.length + 1) :: List.drop 1 (rootedWith (UInt8.ofNat cs.length) cs) ++
                  UInt8.ofNat c.length :: c) ++
              List.replicate (8 - (cs.length + 1))
                (UInt8.ofNat ((UInt8.ofNat (cs.length + 1) ::
                  List.drop 1 (rootedWith (UInt8.ofNat cs.length) cs) ++
                  UInt8.ofNat c.length :: c).length - 8)) ++
              List.drop 8 (UInt8.ofNat (cs.length + 1) ::
                  List.drop 1 (rootedWith (UInt8.ofNat cs.length) cs) ++ UInt8.ofNat c.length :: c) =
              rootedOf (cs ++ [c]) := by
            have hr : List.drop 1 (rootedWith (UInt8.ofNat cs.length) cs) =
                (List.range 7).map (fun k => UInt8.ofNat (endOffset cs (k + 1))) ++ encodeSpace cs := by
              simp [rootedWith]
            rw [hr]
            unfold rootedOf rootedWith
            rw [if_neg (by simp)]
            have h7 : ((List.range 7).map (fun k => UInt8.ofNat (endOffset cs (k + 1)))).length = 7 := by simp
            have hdrop : List.drop 8 (UInt8.ofNat (cs.length + 1) ::
                (List.map (fun k => UInt8.ofNat (endOffset cs (k + 1))) (List.range 7) ++
                encodeSpace cs) ++ UInt8.ofNat c.length :: c) = encodeSpace (cs ++ [c]) := by
              rw [List.cons_append, List.drop_succ_cons, List.append_assoc, List.drop_left' h7]; simp
            rw [hdrop]
            congr 1
            have htake : List.take (cs.length + 1) (UInt8.ofNat (cs.length + 1) ::
                (List.map (fun k => UInt8.ofNat (endOffset cs (k + 1))) (List.range 7) ++
                encodeSpace cs) ++ UInt8.ofNat c.length :: c) =
                UInt8.ofNat (cs.length + 1) ::
                  ((List.range cs.length).map (fun k => UInt8.ofNat (endOffset cs (k + 1)))) := by
              rw [List.cons_append, List.take_succ_cons, List.append_assoc,
                List.take_append_of_le_length (by rw [h7]; omega), ← List.map_take, List.take_range,
                Nat.min_eq_left (by omega)]
            rw [htake]
            have hL : (UInt8.ofNat (cs.length + 1) ::
                (List.map (fun k => UInt8.ofNat (endOffset cs (k + 1))) (List.range 7) ++
                encodeSpace cs) ++ UInt8.ofNat c.length :: c).length - 8 =
                (encodeSpace (cs ++ [c])).length := by
              simp
            rw [hL, List.length_append, List.cons_append]
            congr 1
            apply List.ext_getElem
            · simp; omega
            · intro i hi1 hi2
              simp only [List.getElem_map, List.getElem_range]
              by_cases hi : i < cs.length
              · rw [List.getElem_append_left (by simpa using hi)]
                simp only [List.getElem_map, List.getElem_range]
                rw [endOffset_append _ _ (by omega)]
              · rw [List.getElem_append_right (by simpa using hi)]
                simp only [List.getElem_replicate]
                rw [endOffset_ge _ (by simp; omega)]
          rw [hgoal]
          constructor
          · rintro rfl; exact ⟨rfl, hsp, by omega⟩
          · rintro ⟨rfl, _⟩; rfl

theorem extendFromIter_enc (cs ds : List Bytes) (hs : IsSpace (encodeSpace cs) cs)
    (h8 : cs.length ≤ 8) (r : Bytes) :
    extendFromIter (rootedOf cs) ds = .ok r ↔
      r = rootedOf (cs ++ ds) ∧ IsSpace (encodeSpace (cs ++ ds)) (cs ++ ds) ∧
        (cs ++ ds).length ≤ 8 := by
  induction ds generalizing cs with
  | nil =>
    simp only [extendFromIter, Except.ok.injEq, List.append_nil]
    constructor
    · rintro rfl; exact ⟨rfl, hs, h8⟩
    · rintro ⟨rfl, _⟩; rfl
  | cons c ds ih =>
    unfold extendFromIter
    cases h : tryAppendComponent (rootedOf cs) c with
    | error e =>
      simp only [reduceCtorEq, false_iff]
      rintro ⟨_, h2, h3⟩
      have hp : cs ++ c :: ds = (cs ++ [c]) ++ ds := by simp
      rw [hp] at h2 h3
      have := (tryAppendComponent_enc cs c hs h8 (rootedOf (cs ++ [c]))).2
        ⟨rfl, ⟨(ValidComps.append_iff.1 h2.comps).1, rfl, by
          have := h2.size; rw [encodeSpace_append, List.length_append] at this; omega⟩, by simp at h3; omega⟩
      rw [h] at this; cases this
    | ok r' =>
      obtain ⟨rfl, h2, h3⟩ := (tryAppendComponent_enc cs c hs h8 r').1 h
      simp only []
      rw [ih (cs ++ [c]) h2 (by simp; omega)]
      simp

end Verif.Rooted
