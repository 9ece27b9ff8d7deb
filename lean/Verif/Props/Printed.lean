import Verif.Props.Sugar
/-!
# C18: a printed query says the same
-/
namespace Verif.Props
open Verif Verif.Spec Verif.Pred Verif.Pkt Verif.Abl Verif.Abe

theorem concatRules_ok {l : List (PRes (List Stmt))} (h : ∀ p ∈ l, ∃ a, p = .ok a) :
    ∃ out, concatRules l = .ok out ∧ ∀ r, r ∈ out ↔ ∃ a, (.ok a : PRes (List Stmt)) ∈ l ∧ r ∈ a := by
  induction l with
  | nil => exact ⟨[], rfl, by simp⟩
  | cons p l ih =>
    obtain ⟨a, rfl⟩ := h p List.mem_cons_self
    obtain ⟨out, e, hm⟩ := ih (fun q hq => h q (List.mem_cons_of_mem _ hq))
    refine ⟨a ++ out, by simp only [concatRules, e], fun r => ?_⟩
    rw [List.mem_append, hm]
    constructor
    · rintro (h | ⟨b, hb, hr⟩)
      · exact ⟨a, List.mem_cons_self, h⟩
      · exact ⟨b, List.mem_cons_of_mem _ hb, hr⟩
    · rintro ⟨b, hb, hr⟩
      rcases List.mem_cons.1 hb with hb | hb
      · cases hb; exact .inl hr
      · exact .inr ⟨b, hb, hr⟩

/-- The parts that are printed. -/
theorem iter_ok {s : Preds} (hf : ∀ f, ∃ a, s.fieldRules true f = .ok a) (hp : ∃ a, s.prefixRules = .ok a)
    (hl : ∀ q, ∃ a, s.limitRules true q = .ok a) :
    ∃ out, s.iter true = .ok out ∧ ∀ r, r ∈ out ↔ (∃ f a, s.fieldRules true f = .ok a ∧ r ∈ a) ∨
      (∃ a, s.prefixRules = .ok a ∧ r ∈ a) ∨ r ∈ ruleStmts .recv 8 s.recv.iter ∨ ∃ q a, s.limitRules true q = .ok a ∧ r ∈ a := by
  unfold Preds.iter
  obtain ⟨out, e, hm⟩ := concatRules_ok (l := (([.type, .netflags, .hop, .stamp, .ubits 0, .ubits 1, .ubits 2, .ubits 3, .domain, .group, .pubkey] : List VF).map
        (s.fieldRules true)
      ++ [s.prefixRules]
      ++ ([.hash, .size, .dataSize, .linksLen, .depth] : List VF).map (s.fieldRules true)
      ++ [.ok (ruleStmts .recv 8 s.recv.iter), s.fieldRules true .create]
      ++ ([.query, .new, .index, .branch] : List QScope).map (s.limitRules true))) (by
    intro p hp'
    simp only [List.mem_append, List.mem_map, List.mem_cons, List.not_mem_nil, or_false] at hp'
    rcases hp' with (((⟨f, _, rfl⟩ | rfl) | ⟨f, _, rfl⟩) | (rfl | rfl)) | ⟨q, _, rfl⟩
    · exact hf f
    · exact hp
    · exact hf f
    · exact ⟨_, rfl⟩
    · exact hf _
    · exact hl q)
  refine ⟨out, e, fun r => ?_⟩
  rw [hm]
  have hall : ∀ f : VF, f = .create ∨ f ∈ ([.type, .netflags, .hop, .stamp, .ubits 0, .ubits 1, .ubits 2, .ubits 3, .domain, .group, .pubkey] : List VF)
      ∨ f ∈ ([.hash, .size, .dataSize, .linksLen, .depth] : List VF) := by
    intro f; cases f <;> first | decide | (rename_i i; revert i; decide)
  have hallq : ∀ q : QScope, q ∈ ([.query, .new, .index, .branch] : List QScope) := by intro q; cases q <;> decide
  constructor
  · rintro ⟨a, ha, hr⟩
    simp only [List.mem_append, List.mem_map, List.mem_cons (a := (Except.ok a : PRes (List Stmt))), List.not_mem_nil, or_false] at ha
    rcases ha with (((⟨f, _, h⟩ | h) | ⟨f, _, h⟩) | (h | h)) | ⟨q, _, h⟩
    · exact .inl ⟨f, a, h, hr⟩
    · exact .inr (.inl ⟨a, h.symm, hr⟩)
    · exact .inl ⟨f, a, h, hr⟩
    · cases h; exact .inr (.inr (.inl hr))
    · exact .inl ⟨_, a, h.symm, hr⟩
    · exact .inr (.inr (.inr ⟨q, a, h, hr⟩))
  · rintro (⟨f, a, h, hr⟩ | ⟨a, h, hr⟩ | hr | ⟨q, a, h, hr⟩)
    · refine ⟨a, ?_, hr⟩
      simp only [List.mem_append]
      rcases hall f with rfl | hf | hf
      · exact .inl (.inr (List.mem_cons_of_mem _ (List.mem_singleton.2 h.symm)))
      · exact .inl (.inl (.inl (.inl (List.mem_map.2 ⟨f, hf, h⟩))))
      · exact .inl (.inl (.inr (List.mem_map.2 ⟨f, hf, h⟩)))
    · refine ⟨a, ?_, hr⟩
      simp only [List.mem_append]
      exact .inl (.inl (.inl (.inr (List.mem_singleton.2 h.symm))))
    · refine ⟨_, ?_, hr⟩
      simp only [List.mem_append]
      exact .inl (.inr List.mem_cons_self)
    · refine ⟨a, ?_, hr⟩
      simp only [List.mem_append]
      exact .inr (List.mem_map.2 ⟨q, hallq q, h⟩)

/-! ### the values -/

theorem ablistOf_eq (cs : List Bytes) : ablistOf cs = cs.map fun c => (some .fslash, c) := by
  have : ∀ l : ABList, cs.foldl (fun l c => pushBytes (pushCtr l .fslash) c) l = l ++ cs.map fun c => (some .fslash, c) := by
    induction cs with
    | nil => simp
    | cons c cs ih =>
      intro l
      rw [List.foldl_cons, ih]
      simp [pushCtr, pushBytes]
  exact this []

theorem ablist_spaceIs {cs : List Bytes} (h : IsSpace (encodeSpace cs) cs) (h8 : cs.length ≤ 8) (ds : List Bytes) :
    SpaceIs (ablistOf cs) ds ↔ ds = cs := by
  have hne : cs.filter (fun b => !b.isEmpty) = cs := by
    rw [List.filter_eq_self]
    intro c hc
    have := (h.comps c hc).1
    cases c with
    | nil => cases this
    | cons _ _ => rfl
  rw [ablistOf_eq]
  constructor
  · rintro ⟨_, l, hl, hd⟩
    have hl : l = cs.map fun c => (some .fslash, c) := by
      rcases hl with hl | ⟨c, hc, hl⟩
      · exact hl.symm
      · cases cs with
        | nil => cases hl
        | cons x xs => cases hl; exact absurd rfl hc
    rcases hd with hd | ⟨bs, hd, he, _⟩
    · cases cs with
      | nil => rw [hl] at hd; cases hd
      | cons x xs => rw [hl] at hd; cases hd
    · have : bs = cs := by
        rw [hl] at hd
        have := congrArg (List.map Prod.snd) hd
        rw [List.map_map, List.map_map] at this
        have hid : (Prod.snd ∘ fun b : Bytes => (some Ast.Ctr.fslash, b)) = id := rfl
        rw [hid, List.map_id, List.map_id] at this
        exact this.symm
      rw [he, this, hne]
  · rintro rfl
    exact ⟨h, _, .inl rfl, .inr ⟨ds, rfl, hne.symm, h8⟩⟩

theorem ruleStmts_all {k : Kind} {n w : Nat} {rl : List (TestOp × BitVec w)} {P : Stmt → Prop} :
    (∀ r ∈ ruleStmts k n rl, P r) ↔ ∀ r ∈ rl, P ⟨k, r.1, [(none, beBytes n r.2.toNat)]⟩ := by
  unfold ruleStmts
  rw [List.forall_mem_map]
  rfl

theorem field_printed {f : VF} {rl : List (TestOp × BitVec f.width)} {t : TestSet f.width}
    (hrl : ∀ v, rl.all (fun r => r.1.holds v r.2) = true ↔ t.Mem v) {x : Seen} (hx : x.num f < 2 ^ f.width) :
    (∀ r ∈ ruleStmts (.field f) f.bytes rl, Sat r x) ↔ (rl = [] ∨ HasType x (needs f)) ∧ t.Mem (BitVec.ofNat _ (x.num f)) := by
  rw [ruleStmts_all, ← hrl]
  have h1 : ∀ r : TestOp × BitVec f.width, Sat ⟨.field f, r.1, [(none, beBytes f.bytes r.2.toNat)]⟩ x ↔
      HasType x (needs f) ∧ r.1.holds (BitVec.ofNat _ (x.num f)) r.2 = true := by
    intro r
    rw [sat_field_full f _ _ (beBytes_length _ _), beNat_beBytes _ _ (by rw [pow_bytes]; exact r.2.isLt), holds_iff, ofNat_small f hx]
  simp only [h1, List.all_eq_true]
  constructor
  · intro h
    refine ⟨?_, fun r hr => (h r hr).2⟩
    cases rl with
    | nil => exact .inl rfl
    | cons r rl => exact .inr (h r List.mem_cons_self).1
  · rintro ⟨h1, h2⟩ r hr
    refine ⟨h1.resolve_left (fun h => ?_), h2 r hr⟩
    rw [h] at hr; cases hr

theorem recv_printed (b : Bound 64) (t : BitVec 64) (c : QScope → Nat) :
    (∀ r ∈ ruleStmts .recv 8 b.iter, SatWhen r t.toNat c) ↔ b.Mem t := by
  rw [ruleStmts_all, ← bound_iter_iff, List.all_eq_true]
  have h1 : ∀ r : TestOp × BitVec 64, SatWhen ⟨.recv, r.1, [(none, beBytes 8 r.2.toNat)]⟩ t.toNat c ↔ r.1.holds t r.2 = true := by
    intro r
    rw [holds_iff]
    show (∃ b : Bytes, b.length = 8 ∧ ([(none, beBytes 8 r.2.toNat)] : ABList) = [(none, b)] ∧ Allows r.1 t.toNat (beNat b)) ↔ _
    have hb := beNat_beBytes 8 r.2.toNat (by have := r.2.isLt; rw [show (256:Nat) ^ 8 = 2 ^ 64 by decide]; exact this)
    constructor
    · rintro ⟨b, _, h2, h3⟩; cases h2; rwa [hb] at h3
    · intro h; exact ⟨_, beBytes_length _ _, rfl, by rwa [hb]⟩
  simp only [h1]

theorem limit_printed {q : QScope} {rl : List (TestOp × BitVec 32)} {s : TestSet 32}
    (hrl : ∀ v, rl.all (fun r => r.1.holds v r.2) = true ↔ s.Mem v) (t : Nat) (c : QScope → BitVec 32) :
    (∀ r ∈ ruleStmts (.limit q) 4 rl, SatWhen r t (fun q => (c q).toNat)) ↔ s.Mem (c q) := by
  rw [ruleStmts_all, ← hrl, List.all_eq_true]
  have h1 : ∀ r : TestOp × BitVec 32, SatWhen ⟨.limit q, r.1, [(none, beBytes 4 r.2.toNat)]⟩ t (fun q => (c q).toNat) ↔ r.1.holds (c q) r.2 = true := by
    intro r
    rw [holds_iff]
    show (∃ b : Bytes, b.length = 4 ∧ ([(none, beBytes 4 r.2.toNat)] : ABList) = [(none, b)] ∧ Allows r.1 (c q).toNat (beNat b)) ↔ _
    have hb := beNat_beBytes 4 r.2.toNat (by have := r.2.isLt; rw [show (256:Nat) ^ 4 = 2 ^ 32 by decide]; exact this)
    constructor
    · rintro ⟨b, _, h2, h3⟩; cases h2; rwa [hb] at h3
    · intro h; exact ⟨_, beBytes_length _ _, rfl, by rwa [hb]⟩
  simp only [h1]

/-! ### which sets are touched -/

def _root_.Verif.Pred.Eff.touches (f : VF) : Eff → Prop
  | .add g _ _ => g = f
  | .pre cs => f = .depth ∧ cs ≠ []
  | _ => False

theorem eff_untouched {a a' : Abs} {e : Eff} {f : VF} (ha : a.eff e = some a') (hp : f = .depth → a.pc = []) (h : ¬ e.touches f) :
    a'.set f = a.set f ∧ (f = .depth → a'.pc = []) := by
  cases e with
  | add g op v =>
    cases ha
    exact ⟨Abs.addSet_other _ _ _ _ _ (fun hf => h hf.symm), hp⟩
  | st q op v => cases ha; exact ⟨rfl, hp⟩
  | rcv op v => cases ha; exact ⟨rfl, hp⟩
  | pre cs =>
    simp only [Abs.eff, Option.map_eq_some_iff] at ha
    obtain ⟨q, hq, rfl⟩ := ha
    by_cases hf : f = .depth
    · subst hf
      have hcs : cs = [] := Classical.byContradiction fun hc => h ⟨rfl, hc⟩
      subst hcs
      have hpc := hp rfl
      have hq' : q = [] := by
        rcases (joinPre_some hq).2.2 with rfl | rfl
        · exact hpc
        · rfl
      subst hq'
      refine ⟨?_, fun _ => addGt_pc _⟩
      rw [addGt_depth]; rfl
    · exact ⟨addGt_other _ _ hf, fun h => absurd h hf⟩

theorem effs_untouched {a a' : Abs} {es : List Eff} {f : VF} (ha : a.effs es = some a') (hp : f = .depth → a.pc = [])
    (h : ∀ e ∈ es, ¬ e.touches f) : a'.set f = a.set f := by
  induction es generalizing a with
  | nil => cases ha; rfl
  | cons e es ih =>
    simp only [Abs.effs] at ha
    cases hb : a.eff e with
    | none => rw [hb] at ha; cases ha
    | some b =>
      rw [hb] at ha
      obtain ⟨h1, h2⟩ := eff_untouched hb hp (h e List.mem_cons_self)
      rw [ih ha h2 (fun e he => h e (List.mem_cons_of_mem _ he)), h1]

theorem default_rules (w : Nat) (h0 : 1 < w) (h32 : w < 2 ^ 32) : (TestSet.default w).rules true = .ok [] := by
  have : (TestSet.default w).hasAny true = .ok true := (hasAny_true_iff h0 h32 _).2 ⟨0, default_mem _ _⟩
  simp only [TestSet.rules, this]
  have hne : minV w ≠ maxV w := by
    intro h
    have := congrArg BitVec.toNat h
    rw [minV_toNat, maxV_toNat] at this
    have := Nat.one_lt_two_pow_iff.2 (show w ≠ 0 by omega)
    omega
  have hb : (TestSet.default w).bound.iter = [] := by
    simp [TestSet.default, Bound.default, Bound.iter, Bound.asEq, Bound.less, Bound.greater, hne.symm, inc, decr]
  rw [hb]
  simp [TestSet.default, Mask.default]

/-! ### the printed statements -/

/-- The statements hold of a packet at a moment. -/
def AllSat (rs : List Stmt) (x : Seen) (t : BitVec 64) (c : QScope → BitVec 32) : Prop :=
  ∀ r ∈ rs, Sat r x ∧ SatWhen r t.toNat (fun q => (c q).toNat)

theorem allSat_holds {rs : List Stmt} {es : List Eff} {a : Abs} (he : effsOf rs = some es) (ha : Abs.default.effs es = some a)
    (hr : ∀ r ∈ rs, Plain r) {x : Seen} (hx : Wf x) (t c) : AllSat rs x t c ↔ a.Holds x t c := by
  obtain ⟨m1, m2⟩ := effsOf_mem he
  rw [effs_holds hx default_short (effsOf_ok he) ha, m2]
  constructor
  · intro h
    refine ⟨default_holds x t c, fun r hr' fs hfs => (effs_sat hfs (hr r hr') hx t c).2 (h r hr')⟩
  · rintro ⟨_, h⟩ r hr'
    obtain ⟨fs, hfs⟩ := m1 r hr'
    exact (effs_sat hfs (hr r hr') hx t c).1 (h r hr' fs hfs)

/-- A set that is printed belongs to a field of the points that satisfy the query. -/
theorem printed_type {rs : List Stmt} {es : List Eff} {a : Abs} (he : effsOf rs = some es) (ha : Abs.default.effs es = some a)
    (hr : ∀ r ∈ rs, Plain r) {p : NetParts} {x : Seen} (hp : Shows p x) (hs : ∀ r ∈ rs, Sat r x) {f : VF}
    (hf : a.set f ≠ .default f.width) : HasType x (needs f) := by
  have ht : ∃ e ∈ es, e.touches f := by
    apply Classical.byContradiction
    intro h
    exact hf (effs_untouched ha (fun _ => rfl) (fun e he' ht => h ⟨e, he', ht⟩))
  obtain ⟨e, hme, hte⟩ := ht
  have : ∃ r ∈ rs, ∃ fs, r.effs = some fs ∧ e ∈ fs := by
    apply Classical.byContradiction
    intro h
    exact ((effsOf_mem he).2 (fun e' => e' ≠ e)).2 (fun r hr' fs hfs e' he' hee => h ⟨r, hr', fs, hfs, hee ▸ he'⟩) e hme rfl
  obtain ⟨r, hmr, fs, hfs, hef⟩ := this
  have hsr := hs r hmr
  -- a point of one of the three kinds has bit 1
  have h1 : ∀ m : BitVec 8, (m = 1#8 ∨ m = 2#8 ∨ m = 4#8) → HasType x m.toNat → HasType x 1 := by
    intro m hm h
    obtain ⟨cc, cs, hpk, rfl, hw⟩ := hp
    cases cc with
    | data b => intro i hi; exact hi
    | error b =>
      exfalso
      have h' : Allows .mask1 128 m.toNat := h
      rcases hm with rfl | rfl | rfl
      · exact absurd (h' 0 (by decide)) (by decide)
      · exact absurd (h' 1 (by decide)) (by decide)
      · exact absurd (h' 2 (by decide)) (by decide)
    | link l =>
      intro i hi
      have : i = 0 := Nat.testBit_one_eq_true_iff_self_eq_zero.1 hi
      subst this; exact (by decide : (3 : Nat).testBit 0 = true)
    | key l pk sg =>
      intro i hi
      have : i = 0 := Nat.testBit_one_eq_true_iff_self_eq_zero.1 hi
      subst this; exact (by decide : (7 : Nat).testBit 0 = true)
  have hpk : ∀ g : VF, g.pkts = 1#8 ∨ g.pkts = 2#8 ∨ g.pkts = 4#8 := by intro g; cases g <;> decide +revert
  have hsp : ∀ xs, x.space = some xs → HasType x 2 := by
    intro xs hxs
    obtain ⟨cc, cs, hpk, rfl, hw⟩ := hp
    have two : ∀ i, (2 : Nat).testBit i = true → i = 1 := fun i hi => by
      rw [show (2 : Nat) = 2 ^ 1 from rfl, Nat.testBit_two_pow] at hi
      exact (of_decide_eq_true hi).symm
    cases cc with
    | data b => cases hxs
    | error b => cases hxs
    | link l => intro i hi; rw [two i hi]; exact (by decide : (3 : Nat).testBit 1 = true)
    | key l pk sg => intro i hi; rw [two i hi]; exact (by decide : (7 : Nat).testBit 1 = true)
  obtain ⟨k, op, val⟩ := r
  have hpre : ∀ cs, spaceArg val = some cs → Sat ⟨.pre, op, val⟩ x → cs ≠ [] → (∀ cs, SpaceIs val cs → cs.length ≤ 8) → HasType x 2 := by
    intro cs h1 h2 h3 h8
    obtain ⟨bs, full, e1, e2, rfl⟩ := spaceArg_ok h1
    obtain ⟨ds, hds, hd⟩ := h2
    have hful := (spaceIs_iff val full).2 ⟨bs, e1, e2⟩
    rw [List.take_of_length_le (h8 _ hful)] at h3
    obtain ⟨bs', e1', e2'⟩ := (spaceIs_iff val ds).1 hds
    rw [e1] at e1'; cases e1'
    have : ds = full := by
      have a1 := space_iter bs ds e2'
      have a2 := space_iter bs full e2
      rw [a1] at a2; exact Except.ok.inj a2
    subst this
    rcases hd with hd | ⟨xs, hxs, _⟩
    · exact absurd hd h3
    · exact hsp xs hxs
  cases k with
  | field g =>
    simp only [Stmt.effs] at hfs
    split at hfs
    · cases hfs
      rw [List.mem_append] at hef
      rcases hef with hef | hef
      · simp only [List.mem_cons, List.not_mem_nil, or_false] at hef
        rcases hef with rfl | rfl
        · cases hte
          exact h1 _ (hpk g) (needs_eq g ▸ hsr.1)
        · cases hte; exact hsr.1
      · split at hef
        · rw [List.mem_singleton] at hef; subst hef; cases hte
        · cases hef
    · cases hfs
  | spacename =>
    simp only [Stmt.effs] at hfs
    split at hfs
    · rename_i hop
      rw [Option.map_eq_some_iff] at hfs
      obtain ⟨cs, hcs, rfl⟩ := hfs
      simp only [List.mem_cons, List.not_mem_nil, or_false] at hef
      rcases hef with rfl | rfl | rfl
      · cases hte; exact h1 2#8 (.inr (.inl rfl)) hsr.1
      · cases hte; exact hsr.1
      · obtain ⟨rfl, _⟩ := hte; exact hsr.1
    · cases hfs
  | pre =>
    simp only [Stmt.effs] at hfs
    split at hfs
    · rw [Option.map_eq_some_iff] at hfs
      obtain ⟨cs, hcs, rfl⟩ := hfs
      rw [List.mem_singleton] at hef
      subst hef
      obtain ⟨rfl, hne⟩ := hte
      exact hpre cs hcs hsr hne ((hr _ hmr).short (.inr rfl))
    · cases hfs
  | recv =>
    simp only [Stmt.effs] at hfs
    split at hfs
    · cases hfs; rw [List.mem_singleton] at hef; subst hef; cases hte
    · cases hfs
  | limit q =>
    simp only [Stmt.effs] at hfs
    split at hfs
    · cases hfs; rw [List.mem_singleton] at hef; subst hef; cases hte
    · cases hfs
  | todo b => cases hfs

/-- The statements leave one hash only. -/
def OneHash (rs : List Stmt) : Prop :=
  ∃ n, ∀ m < 2 ^ 256, (∀ r ∈ rs, r.kind = .field .hash → ∃ v, ValueIs .hash r.val v ∧ Allows r.op m v) → m = n

theorem hash_members {rs : List Stmt} {es : List Eff} {a : Abs} (he : effsOf rs = some es) (ha : Abs.default.effs es = some a)
    (m : BitVec VF.hash.width) (h : ∀ r ∈ rs, r.kind = .field .hash → ∃ v, ValueIs .hash r.val v ∧ Allows r.op m.toNat v) :
    (a.set .hash).Mem m := by
  have key : ∀ (b : Abs) (es : List Eff), b.effs es = some a → (b.set .hash).Mem m →
      (∀ op v, Eff.add .hash op v ∈ es → Allows op m.toNat v.toNat) → (a.set .hash).Mem m := by
    intro b es
    induction es generalizing b with
    | nil => intro h hm _; cases h; exact hm
    | cons e es ih =>
      intro h hm hall
      simp only [Abs.effs] at h
      cases hb : b.eff e with
      | none => rw [hb] at h; cases h
      | some b' =>
        rw [hb] at h
        refine ih b' h ?_ (fun op v hv => hall op v (List.mem_cons_of_mem _ hv))
        by_cases ht : e.touches .hash
        · cases e with
          | add g op v =>
            have hg : g = .hash := ht
            subst hg
            cases hb
            rw [Abs.addSet_same]
            exact (add_mem (width_pos .hash) _ _ _ _).2 ⟨hm, hall op v List.mem_cons_self⟩
          | pre cs => cases ht.1
          | st q op v => cases ht
          | rcv op v => cases ht
        · rw [(eff_untouched hb (fun hf => by cases hf) ht).1]; exact hm
  refine key _ es ha (default_mem _ _) ?_
  intro op v hv
  have : ∃ r ∈ rs, ∃ fs, r.effs = some fs ∧ Eff.add .hash op v ∈ fs := by
    apply Classical.byContradiction
    intro h
    exact ((effsOf_mem he).2 (fun e' => e' ≠ Eff.add .hash op v)).2 (fun r hr' fs hfs e' he' hee => h ⟨r, hr', fs, hfs, hee ▸ he'⟩) _ hv rfl
  obtain ⟨r, hmr, fs, hfs, hef⟩ := this
  obtain ⟨k, o, val⟩ := r
  cases k with
  | field g =>
    simp only [Stmt.effs] at hfs
    split at hfs
    · rename_i b hb
      cases hfs
      rw [List.mem_append] at hef
      rcases hef with hef | hef
      · simp only [List.mem_cons, List.not_mem_nil, or_false] at hef
        rcases hef with hef | hef
        · cases hef
        · cases hef
          obtain ⟨n, hn, hal⟩ := h _ hmr rfl
          obtain ⟨x', hx', rfl⟩ := (Pred.read_iff .hash val n).2 hn
          rw [hb] at hx'; cases hx'
          rw [ofNat_small _ (read_lt hb)]; exact hal
      · split at hef
        · rw [List.mem_singleton] at hef; cases hef
        · cases hef
    · cases hfs
  | spacename =>
    simp only [Stmt.effs] at hfs
    split at hfs
    · rw [Option.map_eq_some_iff] at hfs
      obtain ⟨cs, hcs, rfl⟩ := hfs
      simp only [List.mem_cons, List.not_mem_nil, or_false] at hef
      rcases hef with hef | hef | hef <;> cases hef
    · cases hfs
  | pre =>
    simp only [Stmt.effs] at hfs
    split at hfs
    · rw [Option.map_eq_some_iff] at hfs
      obtain ⟨cs, hcs, rfl⟩ := hfs
      rw [List.mem_singleton] at hef; cases hef
    · cases hfs
  | recv =>
    simp only [Stmt.effs] at hfs
    split at hfs
    · cases hfs; rw [List.mem_singleton] at hef; cases hef
    · cases hfs
  | limit q =>
    simp only [Stmt.effs] at hfs
    split at hfs
    · cases hfs; rw [List.mem_singleton] at hef; cases hef
    · cases hfs
  | todo b => cases hfs

theorem rules_equal {w} {t : TestSet w} {rl : List (TestOp × BitVec w)} (h : t.rules true = .ok rl) {v : BitVec w}
    (hm : (TestOp.equal, v) ∈ rl) (m : BitVec w) (hmem : t.Mem m) : m = v := by
  unfold TestSet.rules at h
  split at h
  · cases h
  · cases h; rw [List.mem_singleton] at hm; cases hm
  · cases h
    rw [List.mem_append, List.mem_append] at hm
    rcases hm with (hm | hm) | hm
    · unfold Bound.iter at hm
      split at hm
      · rename_i v' hv'
        rw [List.mem_singleton] at hm
        cases hm
        unfold Bound.asEq at hv'
        split at hv'
        · rename_i he
          cases hv'
          have := hmem.1
          unfold Bound.Mem at this
          apply BitVec.eq_of_toNat_eq
          rw [← he] at this
          omega
        · cases hv'
      · rw [List.mem_append] at hm
        rcases hm with hm | hm <;> simp at hm
    · split at hm
      · cases hm
      · rw [List.mem_singleton] at hm; cases hm
    · split at hm
      · cases hm
      · rw [List.mem_singleton] at hm; cases hm

/-- **C18**, partial (the statements; their text is below).  A query some packet satisfies at some moment is
printed without abort, and the printed statements are accepted when they are added to an empty query.  They say the same
about every packet and every moment, and the compiled tests agree.  Left out: a query that leaves one hash without saying
`hash:=` (`printed_hash_limits`), and one that no packet satisfies. -/
theorem printed_same_partial {rs : List Stmt} {s : Preds} (h : Preds.default.run true rs = .ok s) (hr : ∀ r ∈ rs, Plain r)
    (hsat : ∃ p x t c, Shows p x ∧ AllSat rs x t c)
    (hhash : OneHash rs → ∃ r ∈ rs, r.kind = .field .hash ∧ r.op = .equal) :
    ∃ out s', s.iter true = .ok out ∧ Preds.default.run true out = .ok s' ∧
      ∀ p x, Shows p x → (∀ t c, AllSat out x t c ↔ AllSat rs x t c) ∧ s'.test p = s.test p := by
  obtain ⟨es, a, he, ha, hl, rfl⟩ := run_default.1 h
  have hg := Abs.effs_good default_good (effsOf_ok he) ha
  obtain ⟨p0, x0, t0, c0, hp0, hs0⟩ := hsat
  have hx0 := wf_shown hp0
  have hh0 := (allSat_holds he ha hr hx0 t0 c0).1 hs0
  have hmask : ∀ {w} (t : TestSet w) (v : BitVec w), t.Mem v → t.mask.hasAny = true := by
    intro w t v hv
    rw [mask_hasAny_iff]
    have h1 := (mask_test_iff _ _).1 hv.2
    intro i hi
    exact (h1 i).1 ((h1 i).2 hi)
  have hrules : ∀ f : VF, ∃ rl, (a.set f).rules true = .ok rl ∧ ∀ v, rl.all (fun r => r.1.holds v r.2) = true ↔ (a.set f).Mem v :=
    fun f => rules_iff (width_gt f) (width_lt f) true _ (.inr (hmask _ _ (hh0.sets f)))
  have hlim : ∀ q : QScope, ∃ rl, (a.state q).rules true = .ok rl ∧ ∀ v, rl.all (fun r => r.1.holds v r.2) = true ↔ (a.state q).Mem v :=
    fun q => rules_iff (by decide) (by decide) true _ (.inr (hmask _ _ (hh0.state q)))
  have hfr : ∀ f, ∃ rl, (a.set f).rules true = .ok rl ∧ a.preds.fieldRules true f = .ok (ruleStmts (.field f) f.bytes rl) := by
    intro f
    obtain ⟨rl, e, _⟩ := hrules f
    exact ⟨rl, e, by unfold Preds.fieldRules; show (match (a.set f).rules true with | .ok rs => _ | .error e => _) = _; rw [e]⟩
  have hlr : ∀ q, ∃ rl, (a.state q).rules true = .ok rl ∧ a.preds.limitRules true q = .ok (ruleStmts (.limit q) 4 rl) := by
    intro q
    obtain ⟨rl, e, _⟩ := hlim q
    exact ⟨rl, e, by unfold Preds.limitRules; show (match (a.state q).rules true with | .ok rs => _ | .error e => _) = _; rw [e]⟩
  have hpr : a.preds.prefixRules = .ok (if a.pc.length = 0 then [] else [⟨.pre, .equal, ablistOf a.pc⟩]) := by
    unfold Preds.prefixRules
    by_cases h0 : a.pc.length = 0
    · rw [if_pos ((preDepth_zero a hg.depth).2 h0), if_pos h0]
    · rw [if_neg (fun h => h0 ((preDepth_zero a hg.depth).1 h)), if_neg h0, spaceOf_pc, space_iter _ _ hg.space]
  obtain ⟨out, hout, hmem⟩ := iter_ok (s := a.preds) (fun f => by obtain ⟨rl, _, e⟩ := hfr f; exact ⟨_, e⟩) ⟨_, hpr⟩
    (fun q => by obtain ⟨rl, _, e⟩ := hlr q; exact ⟨_, e⟩)
  -- what is printed, part by part
  have hall : ∀ P : Stmt → Prop, (∀ r ∈ out, P r) ↔
      (∀ f rl, (a.set f).rules true = .ok rl → ∀ r ∈ ruleStmts (.field f) f.bytes rl, P r) ∧
      (a.pc ≠ [] → P ⟨.pre, .equal, ablistOf a.pc⟩) ∧ (∀ r ∈ ruleStmts .recv 8 a.recv.iter, P r) ∧
      (∀ q rl, (a.state q).rules true = .ok rl → ∀ r ∈ ruleStmts (.limit q) 4 rl, P r) := by
    intro P
    constructor
    · intro h
      refine ⟨fun f rl e r hr' => h r ((hmem r).2 (.inl ⟨f, _, ?_, hr'⟩)), fun hne => h _ ((hmem _).2 (.inr (.inl ⟨_, hpr, ?_⟩))),
        fun r hr' => h r ((hmem r).2 (.inr (.inr (.inl hr')))), fun q rl e r hr' => h r ((hmem r).2 (.inr (.inr (.inr ⟨q, _, ?_, hr'⟩))))⟩
      · obtain ⟨rl', e1, e2⟩ := hfr f; rw [e] at e1; cases e1; exact e2
      · rw [if_neg (by simpa using hne)]; exact List.mem_singleton.2 rfl
      · obtain ⟨rl', e1, e2⟩ := hlr q; rw [e] at e1; cases e1; exact e2
    · rintro ⟨h1, h2, h3, h4⟩ r hr'
      rcases (hmem r).1 hr' with ⟨f, b, e, hb⟩ | ⟨b, e, hb⟩ | hb | ⟨q, b, e, hb⟩
      · obtain ⟨rl, e1, e2⟩ := hfr f
        rw [e2] at e; cases e
        exact h1 f rl e1 r hb
      · rw [hpr] at e; cases e
        split at hb
        · cases hb
        · rename_i hne
          rw [List.mem_singleton] at hb; subst hb
          exact h2 (by intro h; rw [h] at hne; exact hne rfl)
      · exact h3 r hb
      · obtain ⟨rl, e1, e2⟩ := hlr q
        rw [e2] at e; cases e
        exact h4 q rl e1 r hb
  -- printed statements hold exactly of what the state holds of
  have main : ∀ p x, Shows p x → ∀ t c, AllSat out x t c ↔ a.Holds x t c := by
    intro p x hp t c
    have hx := wf_shown hp
    unfold AllSat
    rw [hall]
    constructor
    · rintro ⟨h1, h2, h3, h4⟩
      refine ⟨fun f => ?_, ?_, fun q => ?_, ?_⟩
      · obtain ⟨rl, e, hrl⟩ := hrules f
        exact ((field_printed hrl (hx.small f)).1 (fun r hr' => (h1 f rl e r hr').1)).2
      · exact (recv_printed a.recv t _).1 (fun r hr' => (h3 r hr').2)
      · obtain ⟨rl, e, hrl⟩ := hlim q
        exact (limit_printed hrl t.toNat c).1 (fun r hr' => (h4 q rl e r hr').2)
      · by_cases hne : a.pc = []
        · exact .inl hne
        · obtain ⟨cs, hcs, hd⟩ := (h2 hne).1
          rw [(ablist_spaceIs hg.space hg.depth cs).1 hcs] at hd
          exact hd
    · intro hh
      have hsx : ∀ r ∈ rs, Sat r x := fun r hr' => ((allSat_holds he ha hr hx t c).2 hh r hr').1
      refine ⟨fun f rl e r hr' => ⟨?_, ?_⟩, fun hne => ⟨⟨a.pc, (ablist_spaceIs hg.space hg.depth _).2 rfl, hh.space⟩, trivial⟩,
        fun r hr' => ⟨?_, (recv_printed a.recv t _).2 hh.recv r hr'⟩, fun q rl e r hr' => ⟨?_, ?_⟩⟩
      · obtain ⟨rl', e', hrl⟩ := hrules f
        rw [e] at e'; cases e'
        refine (field_printed hrl (hx.small f)).2 ⟨?_, hh.sets f⟩ r hr'
        by_cases hd : a.set f = .default f.width
        · rw [hd, default_rules _ (width_gt f) (width_lt f)] at e; cases e; exact .inl rfl
        · exact .inr (printed_type he ha hr hp hsx hd)
      · obtain ⟨rr, hrr, rfl⟩ := List.mem_map.1 hr'
        intro hf hop
        cases hf
        have hop : rr.1 = .equal := hop
        obtain ⟨o, v⟩ := rr
        cases hop
        have hone : OneHash rs := by
          refine ⟨v.toNat, fun m hm hmr => ?_⟩
          have h1 := hash_members he ha (BitVec.ofNat _ m) (by rw [ofNat_small .hash (by exact hm)]; exact hmr)
          have h2 := rules_equal e hrr _ h1
          have h3 := congrArg BitVec.toNat h2
          rwa [ofNat_small .hash (by exact hm)] at h3
        obtain ⟨r', hr1, hr2, hr3⟩ := hhash hone
        have := ((allSat_holds he ha hr hx t c).2 hh r' hr1).2
        unfold SatWhen at this
        rw [hr2] at this
        exact this rfl hr3
      · obtain ⟨rr, hrr, rfl⟩ := List.mem_map.1 hr'; trivial
      · obtain ⟨rr, hrr, rfl⟩ := List.mem_map.1 hr'; trivial
      · obtain ⟨rl', e', hrl⟩ := hlim q
        rw [e] at e'; cases e'
        exact (limit_printed hrl t.toNat c).2 (hh.state q) r hr'
  have plain : ∀ r ∈ out, Plain r := by
    rw [hall]
    refine ⟨fun f rl e r hr' => ?_, fun hne => ⟨fun _ cs hcs => ?_, fun _ => rfl, fun h => by cases h⟩, fun r hr' => ?_, fun q rl e r hr' => ?_⟩
    · obtain ⟨rr, hrr, rfl⟩ := List.mem_map.1 hr'
      exact ⟨fun h => (by rcases h with h | h <;> cases h), fun h => (by rcases h with h | h <;> cases h), fun h => by cases h⟩
    · rw [(ablist_spaceIs hg.space hg.depth cs).1 hcs]; exact hg.depth
    · obtain ⟨rr, hrr, rfl⟩ := List.mem_map.1 hr'
      refine ⟨fun h => (by rcases h with h | h <;> cases h), fun h => (by rcases h with h | h <;> cases h), fun _ => ?_⟩
      unfold Bound.iter at hrr
      split at hrr
      · rw [List.mem_singleton] at hrr; subst hrr; exact ⟨nofun, nofun⟩
      · rw [List.mem_append] at hrr
        rcases hrr with hrr | hrr
        · rw [Option.mem_toList, Option.map_eq_some_iff] at hrr
          obtain ⟨_, _, rfl⟩ := hrr; exact ⟨nofun, nofun⟩
        · rw [Option.mem_toList, Option.map_eq_some_iff] at hrr
          obtain ⟨_, _, rfl⟩ := hrr; exact ⟨nofun, nofun⟩
    · obtain ⟨rr, hrr, rfl⟩ := List.mem_map.1 hr'
      exact ⟨fun h => (by rcases h with h | h <;> cases h), fun h => (by rcases h with h | h <;> cases h), fun h => by cases h⟩
  have hout0 := (main p0 x0 hp0 t0 c0).2 hh0
  obtain ⟨s', hs'⟩ := query_accepts (t := t0) (c := c0) plain hx0 (fun r hr' => (hout0 r hr').1) (fun r hr' => (hout0 r hr').2)
  refine ⟨out, s', hout, hs', fun p x hp => ?_⟩
  have hx := wf_shown hp
  refine ⟨fun t c => by rw [main p x hp t c, allSat_holds he ha hr hx t c], ?_⟩
  have e1 := filter_exact h hr hp
  have e2 := filter_exact hs' plain hp
  rw [Bool.eq_iff_iff, e1, e2]
  -- whether a packet satisfies the statements does not depend on the moment
  have hsh : ∀ r : Stmt, r ∈ out → SatWhen r t0.toNat (fun q => (c0 q).toNat) := fun r hr' => (hout0 r hr').2
  have hsh' : ∀ r : Stmt, r ∈ rs → SatWhen r t0.toNat (fun q => (c0 q).toNat) := fun r hr' => (hs0 r hr').2
  constructor
  · intro hx'
    have := (main p x hp t0 c0).1 (fun r hr' => ⟨hx' r hr', hsh r hr'⟩)
    exact fun r hr' => ((allSat_holds he ha hr hx t0 c0).2 this r hr').1
  · intro hx'
    have := (allSat_holds he ha hr hx t0 c0).1 (fun r hr' => ⟨hx' r hr', hsh' r hr'⟩)
    exact fun r hr' => ((main p x hp t0 c0).2 this r hr').1

/-- `exQuery` meets the hypotheses. -/
example : ∃ s out s', Preds.default.run true exQuery = .ok s ∧ s.iter true = .ok out ∧ Preds.default.run true out = .ok s' := by
  have hp : Shows (exPkt [[97], [98]] 7 1) _ :=
    exShows [[97], [98]] 7 1 ⟨by simp [ValidComps], rfl, by decide⟩ (by decide) (by decide) (by decide)
  have hw : ∀ r ∈ exQuery, SatWhen r (0#64).toNat (fun _ => (0#32).toNat) := by
    intro r hr
    simp only [exQuery, List.mem_cons, List.not_mem_nil, or_false] at hr
    rcases hr with rfl | rfl | rfl
    · intro h; cases h
    · trivial
    · exact ⟨[0, 0, 0, 3], rfl, rfl, (by decide : (0 : Nat) < 3)⟩
  obtain ⟨s, hs⟩ := query_accepts (t := 0) (c := fun _ => 0) exQuery_plain (wf_shown hp) (exQuery_sat [98]) hw
  obtain ⟨out, s', h1, h2, _⟩ := printed_same_partial hs exQuery_plain
    ⟨_, _, 0, fun _ => 0, hp, fun r hr => ⟨exQuery_sat [98] r hr, hw r hr⟩⟩ (by
      rintro ⟨n, hn⟩
      have a1 := hn 0 (by decide) (by
        intro r hr hk
        simp only [exQuery, List.mem_cons, List.not_mem_nil, or_false] at hr
        rcases hr with rfl | rfl | rfl <;> cases hk)
      have a2 := hn 1 (by decide) (by
        intro r hr hk
        simp only [exQuery, List.mem_cons, List.not_mem_nil, or_false] at hr
        rcases hr with rfl | rfl | rfl <;> cases hk)
      omega)
  exact ⟨s, out, s', hs, h1, h2⟩

/-- 32 bytes ending in `b`. -/
def hash32 (b : UInt8) : Bytes := List.replicate 31 0 ++ [b]

/-- The statements of the print of a query, for computing. -/
def printOf (rs : List Stmt) : Option (List Stmt) :=
  match Preds.default.run true rs with
  | .ok s => match s.iter true with
    | .ok out => some out
    | .error _ => none
  | .error _ => none

theorem printOf_some {rs out : List Stmt} (h : printOf rs = some out) :
    ∃ s, Preds.default.run true rs = .ok s ∧ s.iter true = .ok out := by
  unfold printOf at h
  split at h
  · rename_i s hs
    split at h
    · rename_i o ho; cases h; exact ⟨s, hs, ho⟩
    · cases h
  · cases h

/-- **Negative.** `hash:>:0` and `hash:<:2` are printed as `hash:=:1`, and that asks for the first packet of the query
only. -/
theorem printed_hash_limits :
    let rs : List Stmt := [⟨.field .hash, .greater, [(none, hash32 0)]⟩, ⟨.field .hash, .less, [(none, hash32 2)]⟩]
    ∃ s out, Preds.default.run true rs = .ok s ∧ s.iter true = .ok out ∧
      (∀ r ∈ rs, ∀ t c, SatWhen r t c) ∧ ∃ r ∈ out, ∀ t c, SatWhen r t c → c .query = 0 := by
  intro rs
  obtain ⟨s, h1, h2⟩ := printOf_some (rs := rs)
    (out := [⟨.field .type, .mask1, [(none, [1])]⟩, ⟨.field .hash, .equal, [(none, hash32 1)]⟩]) (by decide +kernel)
  refine ⟨s, _, h1, h2, ?_, ⟨.field .hash, .equal, [(none, hash32 1)]⟩, by simp, fun t c h => h rfl rfl⟩
  intro r hr t c
  simp only [rs, List.mem_cons, List.not_mem_nil, or_false] at hr
  rcases hr with rfl | rfl <;> intro _ h <;> cases h

/-- **Negative.** A query that no packet satisfies may be accepted and print statements that abort when they are
added: `type:0:1` together with a prefix prints `depth:>:0`, and this asks for a type with bit 2. -/
theorem printed_aborts :
    let rs : List Stmt := [⟨.pre, .equal, [(some .fslash, [97])]⟩, ⟨.field .type, .mask0, [(none, [1])]⟩]
    ∃ s out, Preds.default.run true rs = .ok s ∧ s.iter true = .ok out ∧ Preds.default.run true out = .error .panic := by
  intro rs
  obtain ⟨s, h1, h2⟩ := printOf_some (rs := rs)
    (out := [⟨.field .type, .mask1, [(none, [1])]⟩, ⟨.field .type, .mask0, [(none, [1])]⟩, ⟨.pre, .equal, [(some .fslash, [97])]⟩,
      ⟨.field .depth, .greater, [(none, [0])]⟩]) (by decide +kernel)
  refine ⟨s, _, h1, h2, ?_⟩
  have : (match Preds.default.run true [⟨.field .type, .mask1, [(none, [1])]⟩, ⟨.field .type, .mask0, [(none, [1])]⟩, ⟨.pre, .equal, [(some .fslash, [97])]⟩,
      ⟨.field .depth, .greater, [(none, [0])]⟩] with | .error .panic => true | _ => false) = true := by decide +kernel
  split at this
  · assumption
  · cases this

end Verif.Props
