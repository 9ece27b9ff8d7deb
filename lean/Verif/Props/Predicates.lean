import Verif.Lemmas.Predicates3
import Verif.Props.TreeKey
import Verif.Props.Eval
/-!
# C19, C55: the filter of a query

The code is followed with debug assertions on, as in the release profile of the repository.
-/
namespace Verif.Props
open Verif Verif.Spec Verif.Pred Verif.Pkt Verif.Abl Verif.Abe

/-! ## spaces in statements -/

/-- The table of the code is the right one. -/
theorem needs_eq (f : VF) : needs f = f.pkts.toNat := by cases f <;> rfl

theorem ablComps_iff (l : ABList) (cs : List Bytes) :
    Eval.ablComps l = some cs ↔ ∃ bs : List Bytes, l = bs.map (fun b => (some Ast.Ctr.fslash, b)) ∧ cs = bs.filter (fun b => !b.isEmpty) := by
  induction l generalizing cs with
  | nil =>
    simp only [Eval.ablComps, Option.some.injEq]
    constructor
    · rintro rfl; exact ⟨[], rfl, rfl⟩
    · rintro ⟨bs, h, rfl⟩
      rw [List.map_eq_nil_iff.1 h.symm]; rfl
  | cons e r ih =>
    obtain ⟨c, b⟩ := e
    have key : c ≠ some .fslash → ((none : Option (List Bytes)) = some cs ↔
        ∃ bs : List Bytes, (c, b) :: r = bs.map (fun b => (some Ast.Ctr.fslash, b)) ∧ cs = bs.filter (fun b => !b.isEmpty)) := by
      intro hc
      simp only [reduceCtorEq, false_iff]
      rintro ⟨bs, h, _⟩
      cases bs with
      | nil => cases h
      | cons x xs => simp only [List.map_cons, List.cons.injEq, Prod.mk.injEq] at h; exact hc h.1.1
    cases c with
    | none => exact key (by simp)
    | some c =>
      cases c with
      | fslash =>
        simp only [Eval.ablComps]
        constructor
        · intro h
          split at h
          · rename_i he
            obtain ⟨bs, h1, h2⟩ := (ih cs).1 h
            exact ⟨b :: bs, by rw [h1]; rfl, by rw [List.filter_cons, if_neg (by simp [he]), h2]⟩
          · rename_i he
            obtain ⟨ds, hd, rfl⟩ := Option.map_eq_some_iff.1 h
            obtain ⟨bs, h1, h2⟩ := (ih ds).1 hd
            exact ⟨b :: bs, by rw [h1]; rfl, by rw [List.filter_cons, if_pos (by simpa using he), h2]⟩
        · rintro ⟨bs, h1, h2⟩
          cases bs with
          | nil => cases h1
          | cons x xs =>
            simp only [List.map_cons, List.cons.injEq, Prod.mk.injEq, true_and] at h1
            obtain ⟨rfl, h1⟩ := h1
            rw [List.filter_cons] at h2
            split
            · rename_i he
              rw [if_neg (by simp [he])] at h2
              exact (ih cs).2 ⟨xs, h1, h2⟩
            · rename_i he
              rw [if_pos (by simpa using he)] at h2
              rw [(ih _).2 ⟨xs, h1, rfl⟩, h2]; rfl
      | colon => exact key (by simp)

/-- The components read from a statement are the ones it names. -/
theorem spaceIs_iff (val : ABList) (cs : List Bytes) :
    SpaceIs val cs ↔ ∃ bs, readSpace val = .ok bs ∧ IsSpace bs cs := by
  have r1 : ∀ bs, readSpace val = .ok bs ↔ Eval.spaceOfAblist val = .ok bs := by
    intro bs
    unfold readSpace
    cases Eval.spaceOfAblist val <;> simp
  -- after the first entry
  have core : ∀ l : ABList, ((∃ b, asExactBytes l = some b ∧ IsSpace b cs) ∨
      (asExactBytes l = none ∧ Eval.ablComps l = some cs ∧ IsSpace (encodeSpace cs) cs ∧ cs.length ≤ 8)) ↔
      (IsSpace (encodeSpace cs) cs ∧ (l = [(none, encodeSpace cs)] ∨
        (∃ bs : List Bytes, l = bs.map (fun b => (some .fslash, b)) ∧ cs = bs.filter (fun b => !b.isEmpty) ∧ cs.length ≤ 8))) := by
    intro l
    constructor
    · rintro (⟨b, h1, h2⟩ | ⟨_, h2, h3, h4⟩)
      · have hs : IsSpace (encodeSpace cs) cs := by rw [← h2.enc]; exact h2
        refine ⟨hs, ?_⟩
        rcases asExactBytes_some.1 h1 with h | ⟨h, hb⟩
        · left; rw [h, h2.enc]
        · right
          refine ⟨[], h, ?_, ?_⟩
          · have e := h2.enc
            rw [hb] at e
            exact (Space.encode_inj h2.comps .nil e.symm)
          · have e := h2.enc
            rw [hb] at e
            rw [Space.encode_inj h2.comps .nil e.symm]; simp
      · obtain ⟨bs, h5, h6⟩ := (ablComps_iff l cs).1 h2
        exact ⟨h3, .inr ⟨bs, h5, h6, h4⟩⟩
    · rintro ⟨hs, h | ⟨bs, h1, h2, h3⟩⟩
      · left; exact ⟨_, asExactBytes_some.2 (.inl h), hs⟩
      · have ha := (ablComps_iff l cs).2 ⟨bs, h1, h2⟩
        cases hb : asExactBytes l with
        | none => right; exact ⟨rfl, ha, hs, h3⟩
        | some b =>
          left
          refine ⟨b, rfl, ?_⟩
          rcases asExactBytes_some.1 hb with h | ⟨h, hb⟩
          · rw [h] at h1
            cases bs with
            | nil => cases h1
            | cons x xs => simp at h1
          · rw [h] at h1
            rw [List.map_eq_nil_iff.1 h1.symm] at h2
            rw [h2, hb]; exact Space.isSpace_nil
  have step : ∀ l : ABList, (∃ bs, (match asExactBytes l with
      | some b => match Space.checkComponents b with
        | .ok _ => Eval.ER.ok b
        | .error _ => .err
      | none => match Eval.ablComps l with
        | none => .err
        | some cs => Eval.ofSpace (Space.tryFromIter cs) : Eval.ER Bytes) = .ok bs ∧ IsSpace bs cs) ↔
      ((∃ b, asExactBytes l = some b ∧ IsSpace b cs) ∨
        (asExactBytes l = none ∧ Eval.ablComps l = some cs ∧ IsSpace (encodeSpace cs) cs ∧ cs.length ≤ 8)) := by
    intro l
    cases ha : asExactBytes l with
    | some b =>
      simp only [Option.some.injEq, exists_eq_left', reduceCtorEq, false_and, or_false]
      constructor
      · rintro ⟨bs, h1, h2⟩
        split at h1
        · cases h1; exact h2
        · cases h1
      · intro h
        refine ⟨b, ?_, h⟩
        rw [(space_check_iff b _).2 ⟨cs, h, rfl⟩]
    | none =>
      simp only [reduceCtorEq, false_and, exists_false, true_and, false_or]
      cases hc : Eval.ablComps l with
      | none => simp
      | some ds =>
        simp only [Option.some.injEq]
        constructor
        · rintro ⟨bs, h1, h2⟩
          have hd : IsSpace bs ds ∧ ds.length ≤ 8 := by
            apply (space_build_iff _ _).1
            cases ht : Space.tryFromIter ds with
            | ok b => rw [ht] at h1; cases h1; rfl
            | error e => rw [ht] at h1; cases e <;> cases h1
          have : ds = cs := Space.encode_inj hd.1.comps h2.comps (by rw [← hd.1.enc, h2.enc])
          subst this
          exact ⟨rfl, by rw [← h2.enc]; exact h2, hd.2⟩
        · rintro ⟨rfl, h1, h2⟩
          exact ⟨_, by rw [(space_build_iff ds _).2 ⟨h1, h2⟩]; rfl, h1⟩
  have pop : (∃ bs, Eval.spaceOfAblist val = .ok bs ∧ IsSpace bs cs) ↔
      ((∃ b, asExactBytes (Eval.popSilent val) = some b ∧ IsSpace b cs) ∨
        (asExactBytes (Eval.popSilent val) = none ∧ Eval.ablComps (Eval.popSilent val) = some cs ∧ IsSpace (encodeSpace cs) cs ∧ cs.length ≤ 8)) := by
    rw [← step (Eval.popSilent val)]
    unfold Eval.spaceOfAblist
    cases val with
    | nil =>
      have h0 : Space.checkComponents [] = .ok 0 := (space_check_iff [] 0).2 ⟨[], Space.isSpace_nil, rfl⟩
      simp only [Eval.popSilent, asExactBytes, h0, List.isEmpty_nil, if_true]
    | cons e r => rfl
  simp only [r1]
  rw [pop, core]
  unfold SpaceIs
  constructor
  · rintro ⟨hs, l, hv, hl⟩
    refine ⟨hs, ?_⟩
    rcases hv with rfl | ⟨c, hc, rfl⟩
    · rcases hl with rfl | ⟨bs, rfl, h2, h3⟩
      · by_cases h0 : encodeSpace cs = []
        · right
          refine ⟨[], ?_, ?_, ?_⟩
          · rw [h0]; rfl
          · exact Space.encode_inj hs.comps .nil h0
          · rw [Space.encode_inj hs.comps .nil h0]; simp
        · left
          simp [Eval.popSilent, h0]
      · right
        refine ⟨bs, ?_, h2, h3⟩
        cases bs <;> rfl
    · have : Eval.popSilent ((c, []) :: l) = l := by
        cases c with
        | none => rfl
        | some c => cases c with
          | fslash => exact absurd rfl hc
          | colon => rfl
      rw [this]; exact hl
  · rintro ⟨hs, hl⟩
    refine ⟨hs, Eval.popSilent val, ?_, hl⟩
    unfold Eval.popSilent
    split
    · exact .inl rfl
    · rename_i c b r hc
      split
      · rename_i hb
        right
        refine ⟨c, ?_, ?_⟩
        · rintro rfl; exact hc rfl
        · rw [List.isEmpty_iff.1 hb]
      · exact .inl rfl
    · exact .inl rfl

/-! ## C19: the compiled filter -/

/-- The effects of a statement are satisfied exactly when the statement is. -/
theorem effs_sat {r : Stmt} {es : List Eff} (he : r.effs = some es) (hr : Plain r) {x : Seen} (hx : Wf x) (t : BitVec 64)
    (c : QScope → BitVec 32) : (∀ e ∈ es, e.Sat x t c) ↔ Sat r x ∧ SatWhen r t.toNat (fun q => (c q).toNat) := by
  obtain ⟨k, op, val⟩ := r
  have hspace : ∀ cs, spaceArg val = some cs → (k = .spacename ∨ k = .pre) →
      (∀ ds, SpaceIs val ds ↔ ds = cs) ∧ cs.length ≤ 8 := by
    intro cs h hk
    obtain ⟨bs, full, h1, h2, rfl⟩ := spaceArg_ok h
    have h3 : SpaceIs val full := (spaceIs_iff val full).2 ⟨bs, h1, h2⟩
    have h4 := hr.short hk full h3
    have h4 : full.length ≤ 8 := h4
    have e : full.take 8 = full := List.take_of_length_le h4
    rw [e]
    refine ⟨fun ds => ⟨fun hd => ?_, fun hd => hd ▸ h3⟩, h4⟩
    obtain ⟨bs', h5, h6⟩ := (spaceIs_iff val ds).1 hd
    rw [h1] at h5; cases h5
    exact Space.encode_inj h6.comps h2.comps (by rw [← h6.enc, h2.enc])
  cases k with
  | field f =>
    simp only [Stmt.effs] at he
    cases hrd : f.read val with
    | error e => rw [hrd] at he; cases he
    | ok b =>
      rw [hrd] at he
      simp only [Option.some.injEq] at he
      subst he
      have hlt := read_lt hrd
      have hv : ∀ n, ValueIs f val n ↔ n = beNat b := by
        intro n
        rw [← Pred.read_iff, hrd]
        constructor
        · rintro ⟨x, h, rfl⟩; cases h; rfl
        · rintro rfl; exact ⟨b, rfl, rfl⟩
      have hval : (∃ n, ValueIs f val n ∧ Allows op (x.num f) n) ↔ Allows op (x.num f) (beNat b) := by
        simp only [hv]
        exact ⟨fun ⟨n, h1, h2⟩ => h1 ▸ h2, fun h => ⟨_, rfl, h⟩⟩
      simp only [List.mem_append, List.mem_cons, List.not_mem_nil, or_false]
      show _ ↔ (HasType x (needs f) ∧ ∃ n, ValueIs f val n ∧ Allows op (x.num f) n) ∧ (f = .hash → op = .equal → (c .query).toNat = 0)
      rw [hval, needs_eq]
      constructor
      · intro h
        have h1 := h _ (.inl (.inl rfl))
        have h2 := h _ (.inl (.inr rfl))
        simp only [Eff.Sat] at h1 h2
        rw [ofNat_small _ hlt] at h2
        refine ⟨⟨h1, h2⟩, ?_⟩
        intro hf ho
        have h3 := h (.st .query .equal 0#32) (.inr (by rw [if_pos ⟨hf, ho⟩]; simp))
        exact h3
      · rintro ⟨⟨h1, h2⟩, h3⟩ e he
        rcases he with (rfl | rfl) | he
        · exact h1
        · show Allows op (x.num f) (BitVec.ofNat f.width (beNat b)).toNat
          rw [ofNat_small _ hlt]; exact h2
        · split at he
          · rename_i hc
            rw [List.mem_singleton.1 he]
            exact h3 hc.1 hc.2
          · cases he
  | spacename =>
    have ho : op = .equal := hr.equal (.inl rfl)
    simp only [Stmt.effs, ho, if_true] at he
    cases hs : spaceArg val with
    | none => rw [hs] at he; cases he
    | some cs =>
      rw [hs] at he
      simp only [Option.map_some, Option.some.injEq] at he
      subst he
      obtain ⟨hds, h8⟩ := hspace cs hs (.inl rfl)
      simp only [List.mem_cons, List.not_mem_nil, or_false, forall_eq_or_imp, forall_eq]
      show (Allows .mask1 (x.num .type) 2 ∧ Allows .equal (x.num .depth) (BitVec.ofNat VF.depth.width cs.length).toNat ∧
        (cs = [] ∨ ∃ xs, x.space = some xs ∧ cs <+: xs)) ↔ (HasType x 2 ∧ ∃ ds, SpaceIs val ds ∧ x.space = some ds) ∧ True
      rw [toNat_small (by omega)]
      simp only [hds, exists_eq_left, and_true]
      constructor
      · rintro ⟨h1, h2, h3⟩
        refine ⟨h1, ?_⟩
        obtain ⟨xs, hxs⟩ := hx.link h1
        have hd := hx.depth xs hxs
        have h2 : x.num .depth = cs.length := h2
        rcases h3 with rfl | ⟨ys, hys, hp⟩
        · have : xs = [] := List.eq_nil_of_length_eq_zero (by rw [← hd, h2]; rfl)
          rw [hxs, this]
        · rw [hxs] at hys; cases hys
          rw [hxs, hp.eq_of_length (by omega)]
      · rintro ⟨h1, h2⟩
        exact ⟨h1, hx.depth cs h2, .inr ⟨cs, h2, List.prefix_refl _⟩⟩
  | todo pkts => cases he
  | recv =>
    simp only [Stmt.effs] at he
    cases hrd : readExact 8 val with
    | error e => rw [hrd] at he; cases he
    | ok b =>
      rw [hrd] at he
      simp only [Option.some.injEq] at he
      subst he
      obtain ⟨h1, h2⟩ := readExact_ok.1 hrd
      obtain ⟨hn0, hn1⟩ := hr.recv rfl
      have hv : val = [(none, b)] := by
        rcases h1 with h | ⟨_, h⟩
        · exact h
        · rw [h] at h2; cases h2
      have hlt : beNat b < 2 ^ 64 := by have := beNat_lt b; rw [h2] at this; exact this
      simp only [List.mem_singleton, forall_eq]
      show (op = .mask0 ∨ op = .mask1 ∨ Allows op t.toNat (BitVec.ofNat 64 (beNat b)).toNat) ↔
        True ∧ ∃ b' : Bytes, b'.length = 8 ∧ val = [(none, b')] ∧ Allows op t.toNat (beNat b')
      rw [BitVec.toNat_ofNat, Nat.mod_eq_of_lt hlt, true_and]
      constructor
      · rintro (h | h | h)
        · exact absurd h hn0
        · exact absurd h hn1
        · exact ⟨b, h2, hv, h⟩
      · rintro ⟨b', h3, h4, h5⟩
        rw [hv] at h4; cases h4
        exact .inr (.inr h5)
  | pre =>
    have ho : op = .equal := hr.equal (.inr rfl)
    simp only [Stmt.effs, ho, if_true] at he
    cases hs : spaceArg val with
    | none => rw [hs] at he; cases he
    | some cs =>
      rw [hs] at he
      simp only [Option.map_some, Option.some.injEq] at he
      subst he
      obtain ⟨hds, h8⟩ := hspace cs hs (.inr rfl)
      simp only [List.mem_singleton, forall_eq]
      show (cs = [] ∨ ∃ xs, x.space = some xs ∧ cs <+: xs) ↔
        (∃ ds, SpaceIs val ds ∧ (ds = [] ∨ ∃ xs, x.space = some xs ∧ ds <+: xs)) ∧ True
      simp only [hds, exists_eq_left, and_true]
  | limit q =>
    simp only [Stmt.effs] at he
    cases hrd : readExact 4 val with
    | error e => rw [hrd] at he; cases he
    | ok b =>
      rw [hrd] at he
      simp only [Option.some.injEq] at he
      subst he
      obtain ⟨h1, h2⟩ := readExact_ok.1 hrd
      have hv : val = [(none, b)] := by
        rcases h1 with h | ⟨_, h⟩
        · exact h
        · rw [h] at h2; cases h2
      have hlt : beNat b < 2 ^ 32 := by have := beNat_lt b; rw [h2] at this; exact this
      simp only [List.mem_singleton, forall_eq]
      show (Allows op (c q).toNat (BitVec.ofNat 32 (beNat b)).toNat) ↔
        True ∧ ∃ b' : Bytes, b'.length = 4 ∧ val = [(none, b')] ∧ Allows op (c q).toNat (beNat b')
      rw [BitVec.toNat_ofNat, Nat.mod_eq_of_lt hlt, true_and]
      constructor
      · intro h; exact ⟨b, h2, hv, h⟩
      · rintro ⟨b', h3, h4, h5⟩
        rw [hv] at h4; cases h4
        exact h5

/-- A satisfied statement has effects. -/
theorem effs_of_sat {r : Stmt} (hr : Plain r) {x : Seen} (hs : Sat r x) {t : Nat} {c : QScope → Nat} (hw : SatWhen r t c) :
    ∃ es, r.effs = some es := by
  obtain ⟨k, op, val⟩ := r
  have hspace : ∀ cs, SpaceIs val cs → ∃ ds, spaceArg val = some ds := by
    intro cs h
    obtain ⟨bs, h1, h2⟩ := (spaceIs_iff val cs).1 h
    exact ⟨_, spaceArg_eq h1 h2⟩
  cases k with
  | field f =>
    obtain ⟨_, n, hv, _⟩ := hs
    obtain ⟨b, hb, _⟩ := (Pred.read_iff f val n).2 hv
    simp only [Stmt.effs, hb]
    exact ⟨_, rfl⟩
  | spacename =>
    obtain ⟨_, cs, h, _⟩ := hs
    obtain ⟨ds, hd⟩ := hspace cs h
    have ho : op = .equal := hr.equal (.inl rfl)
    simp only [Stmt.effs, ho, if_true, hd]
    exact ⟨_, rfl⟩
  | todo pkts => exact absurd hs id
  | recv =>
    obtain ⟨b, h1, h2, _⟩ := hw
    have h2 : val = [(none, b)] := h2
    have : readExact 8 val = .ok b := readExact_ok.2 ⟨.inl h2, h1⟩
    simp only [Stmt.effs, this]
    exact ⟨_, rfl⟩
  | pre =>
    obtain ⟨cs, h, _⟩ := hs
    obtain ⟨ds, hd⟩ := hspace cs h
    have ho : op = .equal := hr.equal (.inr rfl)
    simp only [Stmt.effs, ho, if_true, hd]
    exact ⟨_, rfl⟩
  | limit q =>
    obtain ⟨b, h1, h2, _⟩ := hw
    have h2 : val = [(none, b)] := h2
    have : readExact 4 val = .ok b := readExact_ok.2 ⟨.inl h2, h1⟩
    simp only [Stmt.effs, this]
    exact ⟨_, rfl⟩

theorem effsOf_mem {rs : List Stmt} {es : List Eff} (h : effsOf rs = some es) :
    (∀ r ∈ rs, ∃ fs, r.effs = some fs) ∧ ∀ P : Eff → Prop, (∀ e ∈ es, P e) ↔ ∀ r ∈ rs, ∀ fs, r.effs = some fs → ∀ e ∈ fs, P e := by
  induction rs generalizing es with
  | nil => cases h; simp
  | cons r rs ih =>
    unfold effsOf at h
    split at h
    · rename_i a b ha hb
      cases h
      obtain ⟨i1, i2⟩ := ih hb
      constructor
      · intro q hq
        rcases List.mem_cons.1 hq with rfl | hq
        · exact ⟨a, ha⟩
        · exact i1 q hq
      · intro P
        simp only [List.mem_append, List.mem_cons, forall_eq_or_imp]
        rw [← i2 P]
        constructor
        · intro h
          refine ⟨?_, fun e he => h e (.inr he)⟩
          intro fs hfs e he
          rw [ha] at hfs; cases hfs
          exact h e (.inl he)
        · rintro ⟨h1, h2⟩ e (he | he)
          · exact h1 a ha e he
          · exact h2 e he
    · cases h

theorem effsOf_some {rs : List Stmt} (h : ∀ r ∈ rs, ∃ fs, r.effs = some fs) : ∃ es, effsOf rs = some es := by
  induction rs with
  | nil => exact ⟨[], rfl⟩
  | cons r rs ih =>
    obtain ⟨a, ha⟩ := h r List.mem_cons_self
    obtain ⟨b, hb⟩ := ih (fun q hq => h q (List.mem_cons_of_mem _ hq))
    exact ⟨a ++ b, by unfold effsOf; rw [ha, hb]⟩

theorem run_default {rs : List Stmt} {s : Preds} : Preds.default.run true rs = .ok s ↔
    ∃ es a, effsOf rs = some es ∧ Abs.default.effs es = some a ∧ a.Live ∧ s = a.preds := by
  rw [← Abs.default_preds]
  exact run_iff Abs.default default_good default_live rs s

theorem effs_packet {r : Stmt} {es : List Eff} (he : r.effs = some es) (hr : Plain r) {x : Seen} (hx : Wf x) :
    (∀ e ∈ es, e.Packet x) ↔ Sat r x := by
  have key := effs_sat he hr hx 0#64 (fun _ => 0#32)
  obtain ⟨k, op, val⟩ := r
  cases k with
  | field f =>
    have hw : SatWhen ⟨.field f, op, val⟩ (0#64).toNat (fun _ => (0#32).toNat) := fun _ _ => rfl
    rw [← and_iff_left hw (a := Sat _ x), ← key]
    simp only [Stmt.effs] at he
    cases hrd : f.read val with
    | error e => rw [hrd] at he; cases he
    | ok b =>
      rw [hrd] at he
      simp only [Option.some.injEq] at he
      subst he
      have : ∀ e ∈ ([Eff.add .type .mask1 f.pkts, .add f op (BitVec.ofNat _ (beNat b))]
        ++ (if f = .hash ∧ op = .equal then [.st .query .equal 0#32] else [])), (e.Packet x ↔ e.Sat x 0#64 (fun _ => 0#32)) := by
        intro e he
        rcases List.mem_append.1 he with he | he
        · simp only [List.mem_cons, List.not_mem_nil, or_false] at he
          rcases he with rfl | rfl <;> exact Iff.rfl
        · split at he
          · rw [List.mem_singleton.1 he]; exact ⟨fun _ => rfl, fun _ => trivial⟩
          · cases he
      exact ⟨fun h e he => (this e he).1 (h e he), fun h e he => (this e he).2 (h e he)⟩
  | spacename =>
    have hw : SatWhen ⟨.spacename, op, val⟩ (0#64).toNat (fun _ => (0#32).toNat) := trivial
    rw [← and_iff_left hw (a := Sat _ x), ← key]
    have ho : op = .equal := hr.equal (.inl rfl)
    simp only [Stmt.effs, ho, if_true] at he
    cases hs : spaceArg val with
    | none => rw [hs] at he; cases he
    | some cs =>
      rw [hs] at he
      simp only [Option.map_some, Option.some.injEq] at he
      subst he
      simp only [List.mem_cons, List.not_mem_nil, or_false, forall_eq_or_imp, forall_eq]
      exact Iff.rfl
  | todo pkts => cases he
  | recv =>
    simp only [Stmt.effs] at he
    cases hrd : readExact 8 val with
    | error e => rw [hrd] at he; cases he
    | ok b =>
      rw [hrd] at he
      simp only [Option.some.injEq] at he
      subst he
      simp only [List.mem_singleton, forall_eq]
      exact Iff.rfl
  | pre =>
    have hw : SatWhen ⟨.pre, op, val⟩ (0#64).toNat (fun _ => (0#32).toNat) := trivial
    rw [← and_iff_left hw (a := Sat _ x), ← key]
    have ho : op = .equal := hr.equal (.inr rfl)
    simp only [Stmt.effs, ho, if_true] at he
    cases hs : spaceArg val with
    | none => rw [hs] at he; cases he
    | some cs =>
      rw [hs] at he
      simp only [Option.map_some, Option.some.injEq] at he
      subst he
      simp only [List.mem_singleton, forall_eq]
      exact Iff.rfl
  | limit q =>
    simp only [Stmt.effs] at he
    cases hrd : readExact 4 val with
    | error e => rw [hrd] at he; cases he
    | ok b =>
      rw [hrd] at he
      simp only [Option.some.injEq] at he
      subst he
      simp only [List.mem_singleton, forall_eq]
      exact Iff.rfl

theorem default_short : Abs.default.pc.length ≤ 8 := by simp [Abs.default]

/-- **C19**: the compiled tests of an accepted query pass a packet exactly when the packet satisfies every statement:
each field compares as written with the value written, the space starts with the prefix or is the named one, and the
point is of the kind the field belongs to. -/
theorem filter_exact {rs : List Stmt} {s : Preds} (h : Preds.default.run true rs = .ok s) (hr : ∀ r ∈ rs, Plain r)
    {p : NetParts} {x : Seen} (hp : Shows p x) : s.test p = true ↔ ∀ r ∈ rs, Sat r x := by
  obtain ⟨es, a, he, ha, hl, rfl⟩ := run_default.1 h
  have hg := Abs.effs_good default_good (effsOf_ok he) ha
  have hx := wf_shown hp
  obtain ⟨m1, m2⟩ := effsOf_mem he
  have hd : Abs.default.Shown x := ⟨fun _ => default_mem _ _, .inl rfl⟩
  rw [test_shown hl hg hp, effs_shown hx default_short (effsOf_ok he) ha, and_iff_right hd, m2]
  constructor
  · intro hh r hmem
    obtain ⟨fs, hfs⟩ := m1 r hmem
    exact (effs_packet hfs (hr r hmem) hx).1 (hh r hmem fs hfs)
  · intro hh r hmem fs hfs
    exact (effs_packet hfs (hr r hmem) hx).2 (hh r hmem)

/-- A query that some packet, receive time and counters satisfy is accepted: no satisfiable query is refused, and none
aborts. -/
theorem query_accepts {rs : List Stmt} (hr : ∀ r ∈ rs, Plain r) {x : Seen} (hx : Wf x) {t : BitVec 64}
    {c : QScope → BitVec 32} (hs : ∀ r ∈ rs, Sat r x) (hw : ∀ r ∈ rs, SatWhen r t.toNat (fun q => (c q).toNat)) :
    ∃ s, Preds.default.run true rs = .ok s := by
  obtain ⟨es, he⟩ := effsOf_some (fun r h => effs_of_sat (hr r h) (hs r h) (hw r h))
  obtain ⟨m1, m2⟩ := effsOf_mem he
  have hall : ∀ e ∈ es, e.Sat x t c := (m2 _).2 fun r h fs hfs => (effs_sat hfs (hr r h) hx t c).2 ⟨hs r h, hw r h⟩
  obtain ⟨a, ha, hh⟩ := effs_some hx default_short (effsOf_ok he) (default_holds x t c) hall
  exact ⟨a.preds, run_default.2 ⟨es, a, he, ha, holds_live hh, rfl⟩⟩

/-- Statements about one field that no value satisfies together make the query an error. -/
theorem query_contradiction {rs : List Stmt} {s : Preds} (h : Preds.default.run true rs = .ok s) (f : VF) :
    ∃ n, ∀ r ∈ rs, r.kind = .field f → ∃ m, ValueIs f r.val m ∧ Allows r.op n m := by
  obtain ⟨es, a, he, ha, hl, rfl⟩ := run_default.1 h
  obtain ⟨y, hy⟩ := hl.sets f
  refine ⟨y.toNat, ?_⟩
  have key : ∀ (b : Abs) (es : List Eff), b.effs es = some a → ∀ op v, Eff.add f op v ∈ es → Allows op y.toNat v.toNat := by
    intro b es
    have mono : ∀ (es : List Eff) (b : Abs), b.effs es = some a → (b.set f).Mem y := by
      intro es
      induction es with
      | nil => intro b hb; cases hb; exact hy
      | cons e es ih =>
        intro b hb
        simp only [Abs.effs] at hb
        cases hc : b.eff e with
        | none => rw [hc] at hb; cases hb
        | some d => rw [hc] at hb; exact Abs.eff_mem hc (ih d hb)
    induction es generalizing b with
    | nil => intro _ op v h; cases h
    | cons e es ih =>
      intro hb op v hmem
      simp only [Abs.effs] at hb
      cases hc : b.eff e with
      | none => rw [hc] at hb; cases hb
      | some d =>
        rw [hc] at hb
        rcases List.mem_cons.1 hmem with rfl | hmem
        · have := mono es d hb
          cases hc
          rw [Abs.addSet_same, add_mem (width_pos _)] at this
          exact this.2
        · exact ih d hb op v hmem
  obtain ⟨m1, m2⟩ := effsOf_mem he
  intro r hr hk
  obtain ⟨fs, hfs⟩ := m1 r hr
  obtain ⟨k, op, val⟩ := r
  simp only at hk
  subst hk
  have hfs' := hfs
  simp only [Stmt.effs] at hfs
  cases hrd : f.read val with
  | error e => rw [hrd] at hfs; cases hfs
  | ok b =>
    rw [hrd] at hfs
    simp only [Option.some.injEq] at hfs
    refine ⟨beNat b, (Pred.read_iff f val _).1 ⟨b, hrd, rfl⟩, ?_⟩
    have hin : Eff.add f op (BitVec.ofNat _ (beNat b)) ∈ es := by
      have := (m2 (fun e => e ∈ es)).1 (fun _ h => h) _ hr fs hfs'
      exact this _ (by rw [← hfs]; simp)
    have := key _ _ ha _ _ hin
    rwa [ofNat_small _ (read_lt hrd)] at this

/-! ## C55: statements combine as a conjunction -/

/-- **C55**: the order of the statements does not matter, neither for what is accepted nor for the result. -/
theorem query_order {rs qs : List Stmt} (h : rs.Perm qs) (s : Preds) :
    Preds.default.run true rs = .ok s ↔ Preds.default.run true qs = .ok s := by
  have key : ∀ {rs qs : List Stmt}, rs.Perm qs → Preds.default.run true rs = .ok s → Preds.default.run true qs = .ok s := by
    intro rs qs h hr
    obtain ⟨es, a, he, ha, hl, e⟩ := run_default.1 hr
    obtain ⟨fs, hf, hp⟩ := effsOf_perm h he
    exact run_default.2 ⟨fs, a, hf, by rw [← effs_perm hp _ default_short (effsOf_ok he)]; exact ha, hl, e⟩
  exact ⟨key h, key h.symm⟩

theorem run_append (s : Preds) (rs qs : List Stmt) :
    s.run true (rs ++ qs) = match s.run true rs with
      | .error e => .error e
      | .ok s => s.run true qs := by
  induction rs generalizing s with
  | nil => rfl
  | cons r rs ih =>
    simp only [List.cons_append, Preds.run]
    cases s.and true r with
    | error e => rfl
    | ok s => exact ih s

/-- **C55**: adding statements to an accepted query only narrows it, for any packet. -/
theorem query_narrow {rs qs : List Stmt} {s s' : Preds} (h : Preds.default.run true rs = .ok s)
    (h' : s.run true qs = .ok s') (p : NetParts) (hp : s'.test p = true) : s.test p = true := by
  obtain ⟨es, a, he, ha, hl, rfl⟩ := run_default.1 h
  have hg := Abs.effs_good default_good (effsOf_ok he) ha
  obtain ⟨fs, b, hf, hb, hlb, rfl⟩ := (run_iff a hg hl qs s').1 h'
  have hgb := Abs.effs_good hg (effsOf_ok hf) hb
  rw [test_iff' _ hlb] at hp
  rw [test_iff' _ hl]
  have mono : ∀ (fs : List Eff) (a : Abs), a.effs fs = some b → (∀ f (x : BitVec f.width), (b.set f).Mem x → (a.set f).Mem x) ∧ a.pc <+: b.pc := by
    intro fs
    induction fs with
    | nil => intro a ha; cases ha; exact ⟨fun _ _ h => h, List.prefix_refl _⟩
    | cons e es ih =>
      intro a ha
      simp only [Abs.effs] at ha
      cases hc : a.eff e with
      | none => rw [hc] at ha; cases ha
      | some d =>
        rw [hc] at ha
        obtain ⟨i1, i2⟩ := ih d ha
        refine ⟨fun f x h => Abs.eff_mem hc (i1 f x h), ?_⟩
        refine List.IsPrefix.trans ?_ i2
        cases e with
        | add f op v => cases hc; exact List.prefix_refl _
        | st q op v => cases hc; exact List.prefix_refl _
        | rcv op v => cases hc; exact List.prefix_refl _
        | pre cs =>
          simp only [Abs.eff] at hc
          cases hq : joinPre a.pc cs with
          | none => rw [hq] at hc; cases hc
          | some q =>
            rw [hq] at hc
            simp only [Option.map_some, Option.some.injEq] at hc
            subst hc
            rw [addGt_pc]
            exact (joinPre_some hq).1
  obtain ⟨i1, i2⟩ := mono fs a hb
  refine ⟨fun f => i1 f _ (hp.1 f), ?_⟩
  rcases hp.2 with h0 | h0
  · left; rw [h0] at i2; exact List.prefix_nil.1 i2
  · right
    unfold prefixTest at h0 ⊢
    split
    · rename_i sp hsp
      rw [hsp] at h0
      simp only [Space.startsWith, List.isPrefixOf_iff_prefix] at h0 ⊢
      exact ((Space.prefix_encode hgb.space.comps hg.space.comps).2 i2).trans h0
    · rename_i hsp
      rw [hsp] at h0
      cases h0

/-- A statement given twice is the same as once, as far as packets are concerned. -/
theorem query_twice {rs : List Stmt} {s s' : Preds} (h : Preds.default.run true rs = .ok s) (hr : ∀ r ∈ rs, Plain r)
    {r : Stmt} (hm : r ∈ rs) (h' : s.run true [r] = .ok s') {p : NetParts} {x : Seen} (hp : Shows p x) :
    s'.test p = s.test p := by
  have h2 : Preds.default.run true (rs ++ [r]) = .ok s' := by rw [run_append, h]; exact h'
  have e1 := filter_exact h hr hp
  have e2 := filter_exact h2 (fun q hq => by
    rcases List.mem_append.1 hq with hq | hq
    · exact hr q hq
    · rw [List.mem_singleton.1 hq]; exact hr r hm) hp
  rw [Bool.eq_iff_iff, e1, e2]
  simp only [List.mem_append, List.mem_singleton]
  exact ⟨fun h q hq => h q (.inl hq), fun h q hq => by rcases hq with hq | rfl; exact h q hq; exact h q hm⟩

/-! ### an example -/

def exSeen (space : List Bytes) (stamp : Nat) (h : UInt8) : Seen :=
  seenOf (List.replicate 32 0) (List.replicate 32 h) (.link (exLink space stamp)) space

theorem exShows (space : List Bytes) (stamp : Nat) (h : UInt8) (hs : IsSpace (encodeSpace space) space)
    (h8 : space.length ≤ 8) (hst : stamp < 2 ^ 64) (hr : Rooted.checkComponents (rootedOf space) = .ok ()) :
    Shows (exPkt space stamp h) (exSeen space stamp h) :=
  ⟨.link (exLink space stamp), space, exPkt_is space stamp h hs hst hr, rfl, ⟨hs, h8, .inl rfl⟩⟩

/-- `create:>:5`, `prefix:=:/a`, `i:<:3`. -/
def exQuery : List Stmt :=
  [⟨.field .create, .greater, [(none, [0, 0, 0, 0, 0, 0, 0, 5])]⟩, ⟨.pre, .equal, [(some .fslash, [97])]⟩,
    ⟨.limit .query, .less, [(none, [0, 0, 0, 3])]⟩]

theorem exSpaceIs (b : Bytes) (h0 : b ≠ []) (h : b.length ≤ 200) (cs : List Bytes) : SpaceIs [(some .fslash, b)] cs ↔ cs = [b] := by
  have h1 : IsSpace (encodeSpace [b]) [b] := by
    refine ⟨?_, rfl, ?_⟩
    · intro c hc
      rw [List.mem_singleton.1 hc]
      exact ⟨List.length_pos_iff.2 h0, h⟩
    · simp [encodeSpace]; omega
  constructor
  · rintro ⟨_, l, hv, hl⟩
    rcases hv with rfl | ⟨c, hc, hv⟩
    · rcases hl with hl | ⟨bs, hl, h2, _⟩
      · cases hl
      · cases bs with
        | nil => cases hl
        | cons y ys =>
          simp only [List.map_cons, List.cons.injEq, Prod.mk.injEq, true_and] at hl
          obtain ⟨rfl, hys⟩ := hl
          rw [List.map_eq_nil_iff.1 hys.symm] at h2
          rw [h2]; simp [h0]
    · cases hv; exact absurd rfl hc
  · rintro rfl
    exact ⟨h1, _, .inl rfl, .inr ⟨[b], rfl, by simp [h0], by simp⟩⟩

theorem exQuery_plain : ∀ r ∈ exQuery, Plain r := by
  intro r hr
  simp only [exQuery, List.mem_cons, List.not_mem_nil, or_false] at hr
  rcases hr with rfl | rfl | rfl
  · exact ⟨fun h => (by rcases h with h | h <;> cases h), fun h => (by rcases h with h | h <;> cases h), fun h => by cases h⟩
  · refine ⟨fun _ cs h => ?_, fun _ => rfl, fun h => by cases h⟩
    rw [(exSpaceIs [97] (by simp) (by simp) cs).1 h]; simp
  · exact ⟨fun h => (by rcases h with h | h <;> cases h), fun h => (by rcases h with h | h <;> cases h), fun h => by cases h⟩

theorem exQuery_sat (b : Bytes) : ∀ r ∈ exQuery, Sat r (exSeen [[97], b] 7 1) := by
  intro r hr
  simp only [exQuery, List.mem_cons, List.not_mem_nil, or_false] at hr
  rcases hr with rfl | rfl | rfl
  · refine ⟨?_, 5, ⟨[0, 0, 0, 0, 0, 0, 0, 5], .inl rfl, rfl, rfl⟩, ?_⟩
    · show ∀ i, (2 : Nat).testBit i = true → (3 : Nat).testBit i = true
      intro i hi
      rw [show (3 : Nat) = 2 ||| 1 from rfl, Nat.testBit_or, hi]; rfl
    · show (7 : Nat) > 5; decide
  · exact ⟨[[97]], (exSpaceIs [97] (by simp) (by simp) _).2 rfl, .inr ⟨_, rfl, by simp⟩⟩
  · trivial

/-- The query is accepted; it passes a packet in `/a/b` created at 7 and not one in `/c`. -/
theorem exQuery_ok : ∃ s, Preds.default.run true exQuery = .ok s ∧ s.test (exPkt [[97], [98]] 7 1) = true ∧
    s.test (exPkt [[99]] 7 1) = false := by
  have hp1 : Shows (exPkt [[97], [98]] 7 1) _ :=
    exShows [[97], [98]] 7 1 ⟨by simp [ValidComps], rfl, by decide⟩ (by decide) (by decide) (by decide)
  have hp2 : Shows (exPkt [[99]] 7 1) _ :=
    exShows [[99]] 7 1 ⟨by simp [ValidComps], rfl, by decide⟩ (by decide) (by decide) (by decide)
  obtain ⟨s, hs⟩ := query_accepts (t := 0) (c := fun _ => 0) exQuery_plain (wf_shown hp1) (exQuery_sat [98]) (by
    intro r hr
    simp only [exQuery, List.mem_cons, List.not_mem_nil, or_false] at hr
    rcases hr with rfl | rfl | rfl
    · intro h; cases h
    · trivial
    · exact ⟨[0, 0, 0, 3], rfl, rfl, by show (0 : Nat) < 3; decide⟩)
  refine ⟨s, hs, (filter_exact hs exQuery_plain hp1).2 (exQuery_sat [98]), ?_⟩
  have := filter_exact hs exQuery_plain hp2
  rw [Bool.eq_false_iff]
  intro h
  obtain ⟨cs, h1, h2⟩ := this.1 h ⟨.pre, .equal, [(some .fslash, [97])]⟩ (by simp [exQuery])
  rw [(exSpaceIs [97] (by simp) (by simp) _).1 h1] at h2
  rcases h2 with h2 | ⟨xs, h2, h3⟩
  · cases h2
  · cases h2
    simp at h3

/-! ### what the filter does not do -/

/-- No query with a statement about a field, not even `type`, passes an error point. -/
theorem error_points_never {rs : List Stmt} {s : Preds} (h : Preds.default.run true rs = .ok s) (hr : ∀ r ∈ rs, Plain r)
    {p : NetParts} {x : Seen} (hp : Shows p x) (he : x.num .type = 128) {r : Stmt} (hm : r ∈ rs) {f : VF}
    (hf : r.kind = .field f) : s.test p = false := by
  rw [Bool.eq_false_iff]
  intro ht
  have := (filter_exact h hr hp).1 ht r hm
  unfold Sat at this
  rw [hf] at this
  have h1 := this.1
  unfold HasType at h1
  rw [he] at h1
  have : needs f = 1 ∨ needs f = 2 ∨ needs f = 4 := by cases f <;> simp [needs]
  rcases this with e | e | e <;> rw [e] at h1
  · exact absurd (h1 0 (by decide)) (by decide)
  · exact absurd (h1 1 (by decide)) (by decide)
  · exact absurd (h1 2 (by decide)) (by decide)

/-- A prefix of nine components, given as bytes, is cut to eight: the query passes a packet that does not have the prefix. -/
theorem prefix_nine_cut : ∃ (r : Stmt) (s : Preds) (p : NetParts) (x : Seen), Preds.default.run true [r] = .ok s ∧ Shows p x ∧
    s.test p = true ∧ ¬ Sat r x := by
  have h9 : IsSpace (encodeSpace (List.replicate 9 [97])) (List.replicate 9 [97]) := by
    refine ⟨?_, rfl, by decide⟩
    intro c hc
    rw [(List.mem_replicate.1 hc).2]; decide
  have hp : Shows (exPkt (List.replicate 8 [97]) 7 1) _ :=
    exShows (List.replicate 8 [97]) 7 1 (isSpace_take h9 8) (by decide) (by decide) (by decide)
  have hx := wf_shown hp
  let val : ABList := [(none, encodeSpace (List.replicate 9 [97]))]
  have hs9 : SpaceIs val (List.replicate 9 [97]) := ⟨h9, _, .inl rfl, .inl rfl⟩
  obtain ⟨bs, hb1, hb2⟩ := (spaceIs_iff val _).1 hs9
  have harg : spaceArg val = some (List.replicate 8 [97]) := spaceArg_eq hb1 hb2
  have he : effsOf [⟨.pre, .equal, val⟩] = some [.pre (List.replicate 8 [97])] := by
    simp only [effsOf, Stmt.effs, if_true, harg, Option.map_some, List.append_nil]
  have hd : Abs.default.Shown (exSeen (List.replicate 8 [97]) 7 1) := ⟨fun _ => default_mem _ _, .inl rfl⟩
  have hall : ∀ e ∈ [Eff.pre (List.replicate 8 [97])], e.Sat (exSeen (List.replicate 8 [97]) 7 1) 0 (fun _ => 0) := by
    intro e h
    rw [List.mem_singleton.1 h]
    exact .inr ⟨_, rfl, List.prefix_refl _⟩
  obtain ⟨a, ha, hh⟩ := effs_some hx default_short (effsOf_ok he) (default_holds _ 0 (fun _ => 0)) hall
  refine ⟨⟨.pre, .equal, val⟩, a.preds, _, _, run_default.2 ⟨_, a, he, ha, holds_live hh, rfl⟩, hp, ?_, ?_⟩
  · rw [test_shown (holds_live hh) (Abs.effs_good default_good (effsOf_ok he) ha) hp]
    exact ⟨hh.sets, hh.space⟩
  · rintro ⟨cs, h1, h2⟩
    obtain ⟨bs', h3, h4⟩ := (spaceIs_iff val cs).1 h1
    rw [hb1] at h3; cases h3
    rw [Space.encode_inj h4.comps hb2.comps (by rw [← h4.enc, hb2.enc])] at h2
    rcases h2 with h2 | ⟨xs, h2, h3⟩
    · cases h2
    · cases h2
      have := h3.length_le
      revert this; decide

/-- Masks on the receive time are dropped without an error. -/
theorem recv_mask_ignored (s : Preds) (op : TestOp) (hop : op = .mask0 ∨ op = .mask1) (b : Bytes) (hb : b.length = 8)
    (hs : s.recv.hasAny = true) : s.and true ⟨.recv, op, [(none, b)]⟩ = .ok s := by
  have : readExact 8 [(none, b)] = .ok b := readExact_ok.2 ⟨.inl rfl, hb⟩
  simp only [Preds.and, this]
  rcases hop with rfl | rfl <;> simp [Bound.tryAdd, Bound.add, hs]

/-- A field whose arm is `todo!()` aborts. -/
theorem todo_aborts (s : Preds) (r : Stmt) (pkts : BitVec 8) (h : r.kind = .todo pkts)
    (ht : ∃ s', s.addTo true .type .mask1 pkts = .ok s') : s.and true r = .error .panic := by
  obtain ⟨s', ht⟩ := ht
  simp only [Preds.and, h, ht]

example : Preds.default.and true ⟨.todo 1#8, .equal, []⟩ = .error .panic :=
  todo_aborts _ _ 1#8 rfl ⟨_, by
    rw [← Abs.default_preds]
    exact (Abs.addTo_iff _ .type .mask1 _ _).2 ⟨rfl, VF.pkts .type, by
      exact (Abs.addSet_same Abs.default .type .mask1 (VF.pkts .type)) ▸
        (add_mem (width_pos .type) _ _ _ _).2 ⟨default_mem _ _, fun _ h => h⟩⟩⟩

end Verif.Props
