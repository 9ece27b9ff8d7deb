import Verif.Lemmas.Tree5
/-!
# The fields and the space of an accepted query
-/
namespace Verif.Query
open Verif Verif.Pkt Verif.Tree Verif.Pred Verif.Env Verif.Spec Verif.Props

/-- What an effect says about a field. -/
def fieldEff (f : VF) (e : Eff) (n : Nat) : Prop :=
  match e with
  | .add g op v => g = f → Allows op n v.toNat
  | .pre cs => f = .depth → cs.length ≤ n
  | _ => True

theorem eff_field {a a' : Abs} (hg : a.Good) {e : Eff} (he : e.Ok) (h : a.eff e = some a') (f : VF) (v : BitVec f.width) :
    (a'.set f).Mem v ↔ (a.set f).Mem v ∧ fieldEff f e v.toNat := by
  cases e with
  | add g op w =>
    cases h
    by_cases hf : f = g
    · subst hf
      rw [Abs.addSet_same, add_mem (width_pos _)]
      simp [fieldEff]
    · rw [Abs.addSet_other _ _ _ _ _ hf]
      have : g ≠ f := fun h => hf h.symm
      simp [fieldEff, this]
  | st r op w => cases h; simp [fieldEff, Abs.addState]
  | rcv op w => cases h; simp [fieldEff]
  | pre cs =>
    simp only [Abs.eff, Option.map_eq_some_iff] at h
    obtain ⟨q, hq, rfl⟩ := h
    by_cases hf : f = .depth
    · subst hf
      obtain ⟨j1, j2, j3⟩ := joinPre_some hq
      have hq8 : q.length ≤ 8 := by
        rcases j3 with rfl | rfl
        · exact hg.depth
        · exact he.2
      rw [addGt_depth]
      show ((if q.length = 0 then a.set .depth else _).Mem v) ↔ _
      simp only [fieldEff, true_implies]
      have hl := j2.length_le
      constructor
      · intro hm
        split at hm
        · exact ⟨hm, by omega⟩
        · rw [add_mem (width_pos _)] at hm
          refine ⟨hm.1, ?_⟩
          have h2 : (BitVec.ofNat VF.depth.width (q.length - 1)).toNat < v.toNat := hm.2
          rw [toNat_small (by omega)] at h2
          omega
      · rintro ⟨hm, hn⟩
        split
        · exact hm
        · rw [add_mem (width_pos _)]
          refine ⟨hm, ?_⟩
          show (BitVec.ofNat VF.depth.width (q.length - 1)).toNat < v.toNat
          rw [toNat_small (by omega)]
          have := hm.1.1
          have := hg.low
          rcases j3 with rfl | rfl <;> omega
    · rw [addGt_other _ _ hf]
      simp [fieldEff, hf]

theorem effs_field {a a' : Abs} (hg : a.Good) {es : List Eff} (he : ∀ e ∈ es, e.Ok) (h : a.effs es = some a') (f : VF) (v : BitVec f.width) :
    (a'.set f).Mem v ↔ (a.set f).Mem v ∧ ∀ e ∈ es, fieldEff f e v.toNat := by
  induction es generalizing a with
  | nil => cases h; simp
  | cons e es ih =>
    simp only [Abs.effs] at h
    cases hb : a.eff e with
    | none => rw [hb] at h; cases h
    | some b =>
      rw [hb] at h
      rw [ih (Abs.effs_good (es := [e]) hg (by simpa using he e (by simp)) (by simp [Abs.effs, hb])) (fun e hm => he e (by simp [hm])) h,
        eff_field hg (he e (by simp)) hb, and_assoc]
      simp

theorem space_val {r : Stmt} (hr : Plain r) (hk : r.kind = .spacename ∨ r.kind = .pre) {cs : List Bytes} (h : spaceArg r.val = some cs) :
    (∀ ds, SpaceIs r.val ds ↔ ds = cs) ∧ cs.length ≤ 8 := by
  obtain ⟨bs, full, h1, h2, rfl⟩ := spaceArg_ok h
  have h3 : SpaceIs r.val full := (spaceIs_iff r.val full).2 ⟨bs, h1, h2⟩
  have h4 := hr.short hk full h3
  have e : full.take 8 = full := List.take_of_length_le h4
  rw [e]
  refine ⟨fun ds => ⟨fun hd => ?_, fun hd => hd ▸ h3⟩, h4⟩
  obtain ⟨bs', h5, h6⟩ := (spaceIs_iff r.val ds).1 hd
  rw [h1] at h5; cases h5
  exact Space.encode_inj h6.comps h2.comps (by rw [← h6.enc, h2.enc])

theorem stmt_field {r : Stmt} {es : List Eff} (he : r.effs = some es) (hr : Plain r) {f : VF} (hf : f ≠ .type) (n : Nat) :
    (∀ e ∈ es, fieldEff f e n) ↔ FieldOk f r n := by
  obtain ⟨k, op, val⟩ := r
  cases k with
  | field g =>
    simp only [Stmt.effs] at he
    cases hrd : g.read val with
    | error e => rw [hrd] at he; cases he
    | ok b =>
      rw [hrd] at he
      simp only [Option.some.injEq] at he
      subst he
      have hlt := read_lt hrd
      have hv : ∀ n, ValueIs g val n ↔ n = beNat b := by
        intro n
        rw [← Pred.read_iff, hrd]
        constructor
        · rintro ⟨x, h, rfl⟩; cases h; rfl
        · rintro rfl; exact ⟨b, rfl, rfl⟩
      constructor
      · intro h
        refine ⟨fun hk => ?_, nofun, nofun⟩
        cases hk
        have := h (.add f op (BitVec.ofNat _ (beNat b))) (by simp) rfl
        rw [ofNat_small _ hlt] at this
        exact ⟨_, (hv _).2 rfl, this⟩
      · intro h e he
        rcases List.mem_append.1 he with he | he
        · simp only [List.mem_cons, List.not_mem_nil, or_false] at he
          rcases he with rfl | rfl
          · intro h'; exact absurd h'.symm hf
          · intro h'; subst h'
            obtain ⟨m, h1, h2⟩ := h.1 rfl
            rw [(hv m).1 h1] at h2
            rw [ofNat_small _ hlt]; exact h2
        · split at he
          · rw [List.mem_singleton.1 he]; trivial
          · cases he
  | spacename =>
    simp only [Stmt.effs] at he
    split at he
    · simp only [Option.map_eq_some_iff] at he
      obtain ⟨cs, hcs, rfl⟩ := he
      obtain ⟨h1, h8⟩ := space_val hr (.inl rfl) hcs
      simp only at h1
      constructor
      · intro h
        refine ⟨nofun, fun hd _ => ⟨cs, (h1 cs).2 rfl, ?_⟩, nofun⟩
        subst hd
        have : n = (BitVec.ofNat VF.depth.width cs.length).toNat := h (.add .depth .equal (BitVec.ofNat _ cs.length)) (by simp) rfl
        rw [toNat_small (by omega)] at this; exact this
      · intro h e he
        simp only [List.mem_cons, List.not_mem_nil, or_false] at he
        rcases he with rfl | rfl | rfl
        · intro h'; exact absurd h'.symm hf
        · intro h'; subst h'
          obtain ⟨ds, h3, h4⟩ := h.2.1 rfl rfl
          rw [(h1 ds).1 h3] at h4
          show n = (BitVec.ofNat VF.depth.width cs.length).toNat
          rw [toNat_small (by omega)]; exact h4
        · intro h'
          obtain ⟨ds, h3, h4⟩ := h.2.1 h' rfl
          rw [(h1 ds).1 h3] at h4
          omega
    · cases he
  | todo p => cases he
  | recv =>
    simp only [Stmt.effs] at he
    split at he
    · cases he
      constructor
      · intro _; exact ⟨nofun, nofun, nofun⟩
      · intro _ e he; rw [List.mem_singleton.1 he]; trivial
    · cases he
  | pre =>
    simp only [Stmt.effs] at he
    split at he
    · simp only [Option.map_eq_some_iff] at he
      obtain ⟨cs, hcs, rfl⟩ := he
      obtain ⟨h1, h8⟩ := space_val hr (.inr rfl) hcs
      simp only at h1
      constructor
      · intro h
        refine ⟨nofun, nofun, fun hd _ => ⟨cs, (h1 cs).2 rfl, ?_⟩⟩
        exact h (.pre cs) (by simp) hd
      · intro h e he
        rw [List.mem_singleton.1 he]
        intro h'
        obtain ⟨ds, h3, h4⟩ := h.2.2 h' rfl
        rw [(h1 ds).1 h3] at h4; exact h4
    · cases he
  | limit q =>
    simp only [Stmt.effs] at he
    split at he
    · cases he
      constructor
      · intro _; exact ⟨nofun, nofun, nofun⟩
      · intro _ e he; rw [List.mem_singleton.1 he]; trivial
    · cases he

/-- The values an accepted query allows for a field. -/
theorem run_field {rs : List Stmt} {a : Abs} (h : Preds.default.run true rs = .ok a.preds) (hr : ∀ r ∈ rs, Plain r) {f : VF} (hf : f ≠ .type)
    (v : BitVec f.width) : (a.set f).Mem v ↔ Allowed rs f v.toNat := by
  obtain ⟨es, a', he, ha, hl, hp⟩ := run_default.1 h
  have hs : a.set = a'.set := congrArg Preds.set hp
  obtain ⟨m1, m2⟩ := effsOf_mem he
  rw [hs, effs_field default_good (effsOf_ok he) ha, m2]
  constructor
  · rintro ⟨-, h1⟩ r hm
    obtain ⟨fs, hfs⟩ := m1 r hm
    exact (stmt_field hfs (hr r hm) hf _).1 (h1 r hm fs hfs)
  · intro h1
    exact ⟨default_mem _ _, fun r hm fs hfs => (stmt_field hfs (hr r hm) hf _).2 (h1 r hm)⟩

theorem effs_pc {a a' : Abs} {es : List Eff} (h : a.effs es = some a') :
    a.pc <+: a'.pc ∧ (∀ cs, Eff.pre cs ∈ es → cs <+: a'.pc) ∧ ((∀ cs, Eff.pre cs ∉ es) → a'.pc = a.pc) := by
  induction es generalizing a with
  | nil => cases h; exact ⟨List.prefix_refl _, by simp, fun _ => rfl⟩
  | cons e es ih =>
    simp only [Abs.effs] at h
    cases hb : a.eff e with
    | none => rw [hb] at h; cases h
    | some b =>
      rw [hb] at h
      obtain ⟨i1, i2, i3⟩ := ih h
      cases e with
      | add f op v =>
        cases hb
        refine ⟨i1, fun cs hm => ?_, fun hn => ?_⟩
        · rcases List.mem_cons.1 hm with hm | hm
          · cases hm
          · exact i2 cs hm
        · exact i3 (fun cs hm => hn cs (by simp [hm]))
      | st q op v =>
        cases hb
        refine ⟨i1, fun cs hm => ?_, fun hn => ?_⟩
        · rcases List.mem_cons.1 hm with hm | hm
          · cases hm
          · exact i2 cs hm
        · exact i3 (fun cs hm => hn cs (by simp [hm]))
      | rcv op v =>
        cases hb
        refine ⟨i1, fun cs hm => ?_, fun hn => ?_⟩
        · rcases List.mem_cons.1 hm with hm | hm
          · cases hm
          · exact i2 cs hm
        · exact i3 (fun cs hm => hn cs (by simp [hm]))
      | pre ds =>
        simp only [Abs.eff, Option.map_eq_some_iff] at hb
        obtain ⟨q, hq, rfl⟩ := hb
        obtain ⟨j1, j2, j3⟩ := joinPre_some hq
        rw [addGt_pc] at i1
        refine ⟨j1.trans i1, fun cs hm => ?_, fun hn => absurd (by simp) (hn ds)⟩
        rcases List.mem_cons.1 hm with hm | hm
        · cases hm; exact j2.trans i1
        · exact i2 cs hm

/-- Without statements about the space there is no prefix. -/
theorem run_nospace {rs : List Stmt} {a : Abs} (h : Preds.default.run true rs = .ok a.preds) (hg : a.Good)
    (hn : ∀ r ∈ rs, r.kind ≠ .pre ∧ r.kind ≠ .spacename) : a.pc = [] := by
  obtain ⟨es, a', he, ha, hl, hp⟩ := run_default.1 h
  have hg' := Abs.effs_good default_good (effsOf_ok he) ha
  obtain ⟨m1, m2⟩ := effsOf_mem he
  have h1 := (effs_pc ha).2.2 (fun cs hm => by
    have := (m2 (fun e => e ≠ .pre cs)).2 (by
      intro r hr fs hfs e hme hee
      subst hee
      obtain ⟨k, op, val⟩ := r
      obtain ⟨n1, n2⟩ := hn _ hr
      cases k with
      | field f =>
        simp only [Stmt.effs] at hfs
        split at hfs
        · cases hfs
          rcases List.mem_append.1 hme with hme | hme
          · simp at hme
          · split at hme
            · simp at hme
            · cases hme
        · cases hfs
      | spacename => exact n2 rfl
      | pre => exact n1 rfl
      | todo p => cases hfs
      | recv =>
        simp only [Stmt.effs] at hfs
        split at hfs
        · cases hfs; simp at hme
        · cases hfs
      | limit q =>
        simp only [Stmt.effs] at hfs
        split at hfs
        · cases hfs; simp at hme
        · cases hfs)
    exact this _ hm rfl)
  have h2 : rootedOf a.pc = rootedOf a'.pc := congrArg Preds.rspace hp
  have h3 : a.preds.rspace = a'.preds.rspace := h2
  exact (rspace_nil a).1 (by rw [h3]; exact (rspace_nil a').2 h1)

/-- A statement that fixes the space fixes the prefix. -/
theorem run_spacename {rs : List Stmt} {a : Abs} (h : Preds.default.run true rs = .ok a.preds) (hl : a.Live) (hg : a.Good)
    (hr : ∀ r ∈ rs, Plain r) {r : Stmt} (hm : r ∈ rs) (hk : r.kind = .spacename) :
    ∀ n, Allowed rs .depth n → n = a.pc.length := by
  obtain ⟨es, a', he, ha, hl', hp⟩ := run_default.1 h
  obtain ⟨m1, m2⟩ := effsOf_mem he
  obtain ⟨fs, hfs⟩ := m1 r hm
  have hg' := Abs.effs_good default_good (effsOf_ok he) ha
  have hpc : encodeSpace a.pc = encodeSpace a'.pc := by
    have h2 : a.preds.rspace = a'.preds.rspace := congrArg Preds.rspace hp
    have e1 := spaceOf_pc a
    rw [h2, spaceOf_pc a'] at e1
    exact e1.symm
  have hpc := Space.encode_inj hg.space.comps hg'.space.comps hpc
  have hset : a.set = a'.set := congrArg Preds.set hp
  intro n hn
  have hn' := (hn r hm).2.1 rfl hk
  obtain ⟨cs, hcs, hlen⟩ := hn'
  have hr' := hr r hm
  obtain ⟨k, op, val⟩ := r
  simp only at hk; subst hk
  simp only [Stmt.effs] at hfs
  split at hfs
  · simp only [Option.map_eq_some_iff] at hfs
    obtain ⟨ds, hds, rfl⟩ := hfs
    obtain ⟨h1, h8⟩ := space_val hr' (.inl rfl) hds
    have := (h1 cs).1 hcs
    subst this
    have hmem : Eff.pre cs ∈ es := by
      apply Classical.byContradiction
      intro hno
      have := (m2 (fun e => e ≠ .pre cs)).1 (fun e hme hee => hno (hee ▸ hme)) _ hm _ (by simp only [Stmt.effs]; rw [if_pos (by assumption), hds]; rfl) (.pre cs) (by simp)
      exact this rfl
    have hle := ((effs_pc ha).2.1 cs hmem).length_le
    obtain ⟨x, hx⟩ := hl.sets .depth
    have h3 := (run_field h hr (f := .depth) (by nofun) x).1 hx
    obtain ⟨cs', hcs', hx'⟩ := (h3 _ hm).2.1 rfl rfl
    rw [(h1 cs').1 hcs'] at hx'
    have h4 := hx.1.1
    have h5 := hg.low
    rw [hpc] at h5 ⊢
    omega
  · cases hfs

end Verif.Query
