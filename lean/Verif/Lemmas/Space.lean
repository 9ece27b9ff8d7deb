import Verif.Model.RootedSpace
import Verif.Spec.Space
/-!
Lemmas about spaces.
-/
namespace Verif.Spec
open Verif

theorem ValidComps.nil : ValidComps [] := by simp [ValidComps]
theorem ValidComps.cons_iff {c : Bytes} {cs : List Bytes} :
    ValidComps (c :: cs) ↔ (1 ≤ c.length ∧ c.length ≤ 200) ∧ ValidComps cs := by
  simp [ValidComps]
theorem ValidComps.append_iff {a b : List Bytes} :
    ValidComps (a ++ b) ↔ ValidComps a ∧ ValidComps b := by
  simp only [ValidComps, List.mem_append]
  constructor
  · intro h; exact ⟨fun c hc => h c (.inl hc), fun c hc => h c (.inr hc)⟩
  · rintro ⟨h1, h2⟩ c (hc | hc)
    · exact h1 c hc
    · exact h2 c hc
theorem ValidComps.sublist {a b : List Bytes} (h : ValidComps b) (hs : ∀ x ∈ a, x ∈ b) :
    ValidComps a := fun c hc => h c (hs c hc)
theorem ValidComps.take {b : List Bytes} (n : Nat) (h : ValidComps b) : ValidComps (b.take n) :=
  h.sublist fun _ hx => List.mem_of_mem_take hx
theorem ValidComps.drop {b : List Bytes} (n : Nat) (h : ValidComps b) : ValidComps (b.drop n) :=
  h.sublist fun _ hx => List.mem_of_mem_drop hx

end Verif.Spec
namespace Verif.Space
open Verif Verif.Spec

theorem ofNat_len {c : Bytes} (h : c.length ≤ 200) : (UInt8.ofNat c.length).toNat = c.length := by
  simp; omega

@[simp] theorem encodeSpace_nil : encodeSpace [] = [] := rfl
@[simp] theorem encodeSpace_cons (c : Bytes) (cs : List Bytes) :
    encodeSpace (c :: cs) = UInt8.ofNat c.length :: (c ++ encodeSpace cs) := by
  simp [encodeSpace]
@[simp] theorem encodeSpace_append (a b : List Bytes) :
    encodeSpace (a ++ b) = encodeSpace a ++ encodeSpace b := by
  simp [encodeSpace]

theorem iterNext_enc {c : Bytes} {r : Bytes} (h : 1 ≤ c.length ∧ c.length ≤ 200) :
    iterNext (UInt8.ofNat c.length :: (c ++ r)) = .item c r := by
  simp only [iterNext, ofNat_len h.2, maxComponent]
  rw [if_neg (by omega), if_neg (by simp)]
  simp

theorem nextSpC_enc {c : Bytes} {r : Bytes} (h : 1 ≤ c.length ∧ c.length ≤ 200) :
    nextSpC (UInt8.ofNat c.length :: (c ++ r)) = some (.ok (UInt8.ofNat c.length :: c, r)) := by
  simp only [nextSpC, ofNat_len h.2, maxComponent]
  rw [if_neg (by omega), if_neg (by omega), if_neg (by simp; omega)]
  simp

/-- shape of a successful step of the checked iterator -/
theorem nextSpC_ok {sp s r : Bytes} (h : nextSpC sp = some (.ok (s, r))) :
    ∃ c, (1 ≤ c.length ∧ c.length ≤ 200) ∧ s = UInt8.ofNat c.length :: c ∧
      sp = UInt8.ofNat c.length :: (c ++ r) := by
  unfold nextSpC at h
  split at h
  · cases h
  · rename_i l tl
    split at h
    · cases h
    · split at h
      · cases h
      · split at h
        · cases h
        · rename_i h1 h2 h3
          simp only [maxComponent] at h1
          injection h with h; injection h with h; injection h with hs hr
          have hl : (tl.take l.toNat).length = l.toNat := by simp; omega
          refine ⟨tl.take l.toNat, by omega, ?_, ?_⟩
          · rw [hl]; simpa using hs.symm
          · rw [hl, ← hr]; simp

theorem iter_nil : iter [] = .ok [] := by
  rw [iter]; rfl

theorem iter_item {sp c r : Bytes} (h : iterNext sp = .item c r) :
    iter sp = (match iter r with | .error e => .error e | .ok cs => .ok (c :: cs)) := by
  rw [iter]
  split <;> (rename_i hx; rw [h] at hx; cases hx)
  cases iter r <;> rfl

theorem iter_encode {cs : List Bytes} (h : ValidComps cs) : iter (encodeSpace cs) = .ok cs := by
  induction cs with
  | nil => exact iter_nil
  | cons c cs ih =>
    rw [ValidComps.cons_iff] at h
    rw [encodeSpace_cons, iter_item (iterNext_enc h.1), ih h.2]

theorem encode_inj {a b : List Bytes} (ha : ValidComps a) (hb : ValidComps b)
    (h : encodeSpace a = encodeSpace b) : a = b := by
  have h1 := iter_encode ha
  rw [h, iter_encode hb] at h1
  injection h1 with h1; exact h1.symm

theorem _root_.Verif.Spec.IsSpace.unique {bs : Bytes} {a b : List Bytes} (ha : IsSpace bs a) (hb : IsSpace bs b) :
    a = b := encode_inj ha.comps hb.comps (ha.enc.symm.trans hb.enc)

theorem checkLoop_ok {sp s r : Bytes} (i : Nat) (h : nextSpC sp = some (.ok (s, r))) :
    checkLoop sp i = checkLoop r (i + 1) := by
  rw [checkLoop]
  split <;> (rename_i hx; rw [h] at hx; cases hx)
  rfl

theorem checkLoop_err {sp : Bytes} {e} (i : Nat) (h : nextSpC sp = some (.error e)) :
    checkLoop sp i = .error e := by
  rw [checkLoop]
  split <;> (rename_i hx; rw [h] at hx; cases hx)
  rfl

theorem nextSpC_none {sp : Bytes} : nextSpC sp = none ↔ sp = [] := by
  unfold nextSpC
  split
  · simp
  · split
    · simp
    · split
      · simp
      · split <;> simp

theorem checkLoop_iff (sp : Bytes) (i n : Nat) :
    checkLoop sp i = .ok n ↔ ∃ cs, ValidComps cs ∧ sp = encodeSpace cs ∧ n = i + cs.length := by
  induction hl : sp.length using Nat.strongRecOn generalizing sp i with
  | _ len ih =>
    match h : nextSpC sp with
    | none =>
      have := nextSpC_none.1 h; subst this
      rw [checkLoop]
      simp only [nextSpC]
      constructor
      · intro h; injection h with h; exact ⟨[], .nil, rfl, by simp [h]⟩
      · rintro ⟨cs, hv, he, rfl⟩
        cases cs with
        | nil => simp
        | cons => simp at he
    | some (.error e) =>
      rw [checkLoop_err i h]
      constructor
      · intro h; cases h
      · rintro ⟨cs, hv, he, rfl⟩
        cases cs with
        | nil => subst he; simp [nextSpC] at h
        | cons c cs =>
          rw [ValidComps.cons_iff] at hv
          rw [he, encodeSpace_cons, nextSpC_enc hv.1] at h; cases h
    | some (.ok (s, r)) =>
      rw [checkLoop_ok i h, ih r.length (hl ▸ nextSpC_lt h) r (i + 1) rfl]
      obtain ⟨c, hc, rfl, rfl⟩ := nextSpC_ok h
      constructor
      · rintro ⟨cs, hv, rfl, rfl⟩
        exact ⟨c :: cs, ValidComps.cons_iff.2 ⟨hc, hv⟩, by simp, by simp; omega⟩
      · rintro ⟨cs, hv, he, rfl⟩
        cases cs with
        | nil => simp at he
        | cons c' cs =>
          rw [ValidComps.cons_iff] at hv
          rw [he, encodeSpace_cons, nextSpC_enc hv.1] at h
          injection h with h; injection h with h; injection h with h1 h2
          exact ⟨cs, hv.2, h2.symm, by simp; omega⟩

theorem tryPush_iff (sp c bs : Bytes) :
    tryPush sp c = .ok bs ↔ (1 ≤ c.length ∧ c.length ≤ 200) ∧ bs = sp ++ encodeSpace [c] ∧
      bs.length ≤ 242 := by
  have hc : c.isEmpty = true ↔ c.length = 0 := by cases c <;> simp
  unfold tryPush
  split
  · rename_i h; simp only [maxComponent] at h; simp; omega
  · rename_i h; simp only [maxComponent] at h
    split <;> (rename_i h0; rw [hc] at h0)
    · simp; omega
    · split
      · rename_i h'; simp only [maxSize] at h'; simp; rintro h1 h2 rfl; simp; omega
      · rename_i h'; simp only [maxSize] at h'
        simp only [Except.ok.injEq, encodeSpace_cons, encodeSpace_nil, List.append_nil]
        constructor
        · rintro rfl; simp; omega
        · rintro ⟨_, rfl, _⟩; rfl

theorem tryPushFront_iff (sp c bs : Bytes) :
    tryPushFront sp c = .ok bs ↔ (1 ≤ c.length ∧ c.length ≤ 200) ∧ bs = encodeSpace [c] ++ sp ∧
      bs.length ≤ 242 := by
  have hc : c.isEmpty = true ↔ c.length = 0 := by cases c <;> simp
  unfold tryPushFront
  split
  · rename_i h; simp only [maxComponent] at h; simp; omega
  · rename_i h; simp only [maxComponent] at h
    split <;> (rename_i h0; rw [hc] at h0)
    · simp; omega
    · split
      · rename_i h'; simp only [maxSize] at h'; simp; rintro h1 h2 rfl; simp; omega
      · rename_i h'; simp only [maxSize] at h'
        simp only [Except.ok.injEq, encodeSpace_cons, encodeSpace_nil, List.append_nil]
        constructor
        · rintro rfl; simp; omega
        · rintro ⟨_, rfl, _⟩; rfl

theorem pushAll_iff (sp : Bytes) (cs : List Bytes) (bs : Bytes) (hsp : sp.length ≤ 242) :
    pushAll sp cs = .ok bs ↔ ValidComps cs ∧ bs = sp ++ encodeSpace cs ∧ bs.length ≤ 242 := by
  induction cs generalizing sp with
  | nil =>
    simp only [pushAll, Except.ok.injEq, encodeSpace_nil, List.append_nil]
    constructor
    · rintro rfl; exact ⟨.nil, rfl, hsp⟩
    · rintro ⟨_, rfl, _⟩; rfl
  | cons c cs ih =>
    unfold pushAll
    cases h : tryPush sp c with
    | error e =>
      simp only [reduceCtorEq, false_iff, not_and]
      rintro hv rfl hle
      rw [ValidComps.cons_iff] at hv
      have := (tryPush_iff sp c (sp ++ encodeSpace [c])).2 ⟨hv.1, rfl, by simp at hle ⊢; omega⟩
      rw [h] at this; cases this
    | ok sp' =>
      obtain ⟨hc, rfl, hle⟩ := (tryPush_iff sp c sp').1 h
      simp only []
      rw [ih _ hle, ValidComps.cons_iff]
      simp [hc]

theorem extendFromIter_iff {sp : Bytes} {old : List Bytes} (h : IsSpace sp old) (cs : List Bytes)
    (bs : Bytes) :
    extendFromIter sp cs = .ok bs ↔ IsSpace bs (old ++ cs) ∧ (old ++ cs).length ≤ 8 := by
  unfold extendFromIter
  have hi : iter sp = .ok old := by rw [h.enc]; exact iter_encode h.comps
  rw [hi]
  simp only []
  cases hp : pushAll sp cs with
  | error e =>
    simp only [reduceCtorEq, false_iff, not_and]
    intro h2
    have := (pushAll_iff sp cs bs h.size).2 ⟨(ValidComps.append_iff.1 h2.comps).2,
      by rw [h2.enc, h.enc]; simp, h2.size⟩
    rw [hp] at this; cases this
  | ok sp' =>
    obtain ⟨hv, rfl, hle⟩ := (pushAll_iff sp cs sp' h.size).1 hp
    simp only [List.length_append]
    have hsp : IsSpace (sp ++ encodeSpace cs) (old ++ cs) :=
      ⟨ValidComps.append_iff.2 ⟨h.comps, hv⟩, by rw [h.enc]; simp, hle⟩
    split <;> (rename_i h'; simp only [maxDepth] at h')
    · simp; omega
    · simp only [Except.ok.injEq]
      constructor
      · rintro rfl; exact ⟨hsp, by omega⟩
      · rintro ⟨h2, _⟩; rw [h2.enc, h.enc]; simp

theorem isSpace_nil : IsSpace [] [] := ⟨.nil, rfl, by simp⟩

theorem extendFromIter_no_panic {sp : Bytes} {old : List Bytes} (h : IsSpace sp old) (cs : List Bytes) :
    extendFromIter sp cs ≠ .error .panic := by
  unfold extendFromIter
  have hi : iter sp = .ok old := by rw [h.enc]; exact iter_encode h.comps
  rw [hi]
  simp only []
  cases pushAll sp cs with
  | error e => simp
  | ok => simp only []; split <;> simp

theorem lastSuffix_enc {cs : List Bytes} (h : ValidComps cs) (last : Option Bytes) :
    lastSuffix (encodeSpace cs) last =
      .ok (match cs.getLast? with | none => last | some c => some (encodeSpace [c])) := by
  induction cs generalizing last with
  | nil => rw [encodeSpace_nil, lastSuffix]; rfl
  | cons c cs ih =>
    rw [ValidComps.cons_iff] at h
    rw [encodeSpace_cons, lastSuffix, ofNat_len h.1.2, if_neg (by simp)]
    rw [show (c ++ encodeSpace cs).drop c.length = encodeSpace cs by simp, ih h.2]
    cases cs with
    | nil => simp
    | cons d ds =>
      rw [List.getLast?_cons_cons]
      cases hg : (d :: ds).getLast? with
      | none => simp at hg
      | some x => rfl

theorem splitLast_enc {cs : List Bytes} (h : ValidComps cs) :
    splitLast (encodeSpace cs) =
      .ok (encodeSpace cs.dropLast, cs.getLast?.map (fun c => encodeSpace [c])) := by
  unfold splitLast
  rw [lastSuffix_enc h]
  cases hg : cs.getLast? with
  | none => simp at hg; subst hg; rfl
  | some c =>
    have hcs : cs = cs.dropLast ++ [c] := by
      obtain ⟨l, rfl⟩ := List.getLast?_eq_some_iff.1 hg
      simp
    have he : encodeSpace cs = encodeSpace cs.dropLast ++ encodeSpace [c] := by
      conv => lhs; rw [hcs, encodeSpace_append]
    simp only [Option.map_some]
    rw [he]
    simp

theorem advanceBy_enc {cs : List Bytes} (h : ValidComps cs) (n : Nat) :
    advanceBy (encodeSpace cs) n = .ok (if n ≤ cs.length then some (encodeSpace (cs.drop n)) else none) := by
  induction n generalizing cs with
  | zero => simp [advanceBy]
  | succ n ih =>
    cases cs with
    | nil => simp [advanceBy, iterNext]
    | cons c cs =>
      rw [ValidComps.cons_iff] at h
      rw [encodeSpace_cons]
      unfold advanceBy
      rw [iterNext_enc h.1]
      simp only []
      rw [ih h.2]; simp

theorem splitAt_enc {cs : List Bytes} (h : ValidComps cs) (n : Nat) :
    splitAt (encodeSpace cs) n = .ok (encodeSpace (cs.take n), encodeSpace (cs.drop n)) := by
  unfold splitAt
  rw [advanceBy_enc h]
  split
  · rename_i heq; cases heq
  · rename_i heq
    injection heq with heq
    split at heq
    · cases heq
    · rename_i hn
      rw [List.take_of_length_le (by omega), List.drop_of_length_le (by omega)]; rfl
  · rename_i r heq
    injection heq with heq
    split at heq
    · injection heq with heq; subst heq
      have he : encodeSpace cs = encodeSpace (cs.take n) ++ encodeSpace (cs.drop n) := by
        rw [← encodeSpace_append, List.take_append_drop]
      rw [he]; simp
    · cases heq

theorem prefix_encode {a p : List Bytes} (ha : ValidComps a) (hp : ValidComps p) :
    encodeSpace p <+: encodeSpace a ↔ p <+: a := by
  constructor
  · induction p generalizing a with
    | nil => intro _; simp
    | cons c p ih =>
      rintro ⟨t, ht⟩
      rw [ValidComps.cons_iff] at hp
      cases a with
      | nil => simp at ht
      | cons d a =>
        rw [ValidComps.cons_iff] at ha
        simp only [encodeSpace_cons, List.cons_append, List.cons.injEq, List.append_assoc] at ht
        obtain ⟨h1, h2⟩ := ht
        have hl : c.length = d.length := by
          have := congrArg UInt8.toNat h1
          rwa [ofNat_len hp.1.2, ofNat_len ha.1.2] at this
        obtain ⟨h3, h4⟩ := List.append_inj h2 hl
        subst h3
        exact (List.cons_prefix_cons).2 ⟨rfl, ih ha.2 hp.2 ⟨t, h4⟩⟩
  · rintro ⟨t, rfl⟩; exact ⟨encodeSpace t, by simp⟩

theorem scanFrom_enc (pre cs : List Bytes) (h : ValidComps cs) :
    scanFrom (encodeSpace (pre ++ cs)) (encodeSpace cs) =
      .ok ((List.range cs.length).map fun k => encodeSpace (pre ++ cs.take (k + 1))) := by
  induction cs generalizing pre with
  | nil => rw [encodeSpace_nil, scanFrom]; rfl
  | cons c cs ih =>
    have hc := h
    rw [ValidComps.cons_iff] at h
    rw [scanFrom]
    have hn : iterNext (encodeSpace (c :: cs)) = .item c (encodeSpace cs) := by
      rw [encodeSpace_cons]; exact iterNext_enc h.1
    split <;> (rename_i hx; rw [hn] at hx; cases hx)
    have := ih (pre ++ [c]) h.2
    rw [show pre ++ [c] ++ cs = pre ++ c :: cs by simp] at this
    rw [this]
    simp only [List.length_cons, List.range_succ_eq_map, List.map_cons, List.map_map]
    congr 2
    · have : encodeSpace (pre ++ c :: cs) = encodeSpace (pre ++ [c]) ++ encodeSpace cs := by simp
      rw [this, List.length_append, Nat.add_sub_cancel, List.take_left']
      · simp
      · rfl
    · apply List.map_congr_left; intro k _; simp

end Verif.Space
