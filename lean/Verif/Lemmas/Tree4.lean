import Verif.Lemmas.Tree3
/-!
# From tree entries to packets
-/
namespace Verif.Query
open Verif Verif.Pkt Verif.Tree Verif.Pred Verif.Env Verif.Spec Verif.Props

theorem tuple_shows {p : NetParts} {t : TreeTuple} (h : HasTuple p t) : ∃ x, Shows p x ∧ x.num .group = beNat t.group ∧
    x.num .domain = beNat t.domain ∧ x.num .pubkey = beNat t.pubkey ∧ x.num .depth = t.space.length ∧ x.num .create = t.create ∧
    x.num .hash = beNat t.hash ∧ x.space = some t.space := by
  obtain ⟨c, hw, hg, hd, hc, hh, hk⟩ := h
  rcases hk with ⟨hp, hpk⟩ | ⟨sig, hp⟩
  · refine ⟨_, ⟨.link c, t.space, hp, rfl, hw⟩, by simp [seenOf, hg], by simp [seenOf, hd], ?_, rfl, by simp [seenOf, hc], by simp [seenOf, hh], rfl⟩
    rw [hpk]; show 0 = beNat (List.replicate 32 0); decide
  · exact ⟨_, ⟨.key c t.pubkey sig, t.space, hp, rfl, hw⟩, by simp [seenOf, hg], by simp [seenOf, hd], rfl, rfl, by simp [seenOf, hc],
      by simp [seenOf, hh], rfl⟩

theorem treeKeys_spec (a : Abs) (hl : a.Live) (asc : Bool) : ∃ q, treeKeys a.preds asc = .ok q ∧ q.Live ∧ q.domain = a.set .domain ∧
    q.group = a.set .group ∧ q.pubkey = a.set .pubkey ∧ spaceOf q.rspace = encodeSpace a.pc ∧
    q.cstamp = stampRange (a.set .create).bound asc ∧ ∀ d, BitSet.has q.depth d = true ↔ d ≤ 8 ∧ (a.set .depth).Mem (BitVec.ofNat 8 d) := by
  obtain ⟨x, hx⟩ := hl.sets .depth
  obtain ⟨b, hb, hd⟩ := fromRules_ok (a.set .depth) (mask_hasAny_of_test hx.2)
  refine ⟨⟨a.set .domain, a.set .group, rootedOf a.pc, b, a.set .pubkey, stampRange (a.set .create).bound asc⟩, ?_, ⟨hl.sets .group, hl.sets .domain, hl.sets .pubkey⟩,
    rfl, rfl, rfl, spaceOf_pc a, rfl, hd⟩
  unfold treeKeys
  show (match BitSet.fromRules (a.set .depth) with | .error e => _ | .ok d => _ : PRes TreeKeys) = _
  rw [hb]; rfl

theorem ofNat_mod (n : Nat) : BitVec.ofNat 16 (n % 65536) = BitVec.ofNat 16 n := by
  apply BitVec.eq_of_toNat_eq
  rw [BitVec.toNat_ofNat, BitVec.toNat_ofNat]; omega

/-- The entry of a point passes exactly when the point does. -/
theorem entry_passes (a : Abs) (hl : a.Live) (hg : a.Good) {asc : Bool} {q : TreeKeys} (hq : treeKeys a.preds asc = .ok q)
    {p : NetParts} {t : TreeTuple} (ht : HasTuple p t) {i : Nat} (hi : i < 2 ^ 64) {e : TreeEntry} (he : TreeEntry.fromPkt i p = some e) :
    (Hit q e.key ∧ eok a.preds e.val = true ∧ (restTests a.preds treeChecked).all (fun f => f p) = true) ↔
      a.preds.test p = true ∧ a.recv.Mem (BitVec.ofNat 64 i) := by
  obtain ⟨q', hq', -, k1, k2, k3, k4, -, k5⟩ := treeKeys_spec a hl asc
  rw [hq] at hq'; cases hq'
  obtain ⟨x, hx, x1, x2, x3, x4, x5, x6, x7⟩ := tuple_shows ht
  obtain ⟨e', he', f1, f2, f3, f4, f5, f6, f7, f8, f9, f10⟩ := tree_entry_fields ht i hi
  rw [he] at he'; cases he'
  have hd8 : t.space.length ≤ 8 := by obtain ⟨c, hw, -⟩ := ht; exact hw.depth
  have hsp : IsSpace (encodeSpace t.space) t.space := by obtain ⟨c, hw, -⟩ := ht; exact hw.space
  have v1 : VF.group.val p = num 256 (keyGroup e.key) := by
    rw [f1]; show BitVec.ofNat _ (VF.group.get p) = _; rw [get_shown hx, x1]; rfl
  have v2 : VF.domain.val p = num 128 (keyDomain e.key) := by
    rw [f2]; show BitVec.ofNat _ (VF.domain.get p) = _; rw [get_shown hx, x2]; rfl
  have v3 : VF.pubkey.val p = num 256 (keyPubkey e.key) := by
    rw [f5]; show BitVec.ofNat _ (VF.pubkey.get p) = _; rw [get_shown hx, x3]; rfl
  have v4 : VF.depth.val p = BitVec.ofNat 8 (keyDepth e.key).toNat := by
    rw [f3]; show BitVec.ofNat _ (VF.depth.get p) = _; rw [get_shown hx, x4]; rfl
  have v5 : VF.create.val p = BitVec.ofNat _ (TreeValue.ofBytes e.val).create := by
    rw [f6]; show BitVec.ofNat _ (VF.create.get p) = _; rw [get_shown hx, x5]
  have v6 : VF.hash.val p = num _ (TreeValue.ofBytes e.val).hash := by
    rw [f7]; show BitVec.ofNat _ (VF.hash.get p) = _; rw [get_shown hx, x6]; rfl
  have v7 : VF.linksLen.val p = BitVec.ofNat _ (TreeValue.ofBytes e.val).linksLen := by
    rw [f9]; exact (ofNat_mod _).symm
  have v8 : VF.dataSize.val p = BitVec.ofNat _ (TreeValue.ofBytes e.val).dataSize := by
    rw [f10]; exact (ofNat_mod _).symm
  have hpre : Space.startsWith (keySpace e.key) (spaceOf q.rspace) = true ↔ (a.pc = [] ∨ prefixTest (encodeSpace a.pc) p = true) := by
    rw [f4, k4, space_starts_with hsp hg.space, prefix_shown hx hg.space, x7]
    constructor
    · intro h; exact .inr ⟨_, rfl, h⟩
    · rintro (h | ⟨xs, h1, h2⟩)
      · rw [h]; exact List.nil_prefix
      · cases h1; exact h2
  rw [test_iff' a hl, restTests_iff a hl, (entry_spec a hl e.val).2, f8]
  unfold Hit
  rw [hpre, k5, k1, k2, k3, f3]
  rw [f3] at v4
  have e1 : (a.set .group).Mem (num 256 (keyGroup e.key)) ↔ (a.set .group).Mem (VF.group.val p) := by rw [v1]
  have e2 : (a.set .domain).Mem (num 128 (keyDomain e.key)) ↔ (a.set .domain).Mem (VF.domain.val p) := by rw [v2]
  have e3 : (a.set .pubkey).Mem (num 256 (keyPubkey e.key)) ↔ (a.set .pubkey).Mem (VF.pubkey.val p) := by rw [v3]
  have e4 : (a.set .depth).Mem (BitVec.ofNat 8 t.space.length) ↔ (a.set .depth).Mem (VF.depth.val p) := by rw [v4]
  rw [← v5, ← v6, ← v7, ← v8]
  constructor
  · rintro ⟨⟨m1, m2, m3, ⟨_, m4⟩, m5⟩, ⟨m6, m7, m8, m9, m10⟩, m11⟩
    refine ⟨⟨fun f => ?_, m5⟩, m7⟩
    cases hf : treeChecked f with
    | false => exact m11 f hf
    | true =>
      cases f <;> simp [treeChecked] at hf
      · exact m8
      · exact e1.1 m1
      · exact e3.1 m3
      · exact e2.1 m2
      · exact m6
      · exact m10
      · exact m9
      · exact e4.1 m4
  · rintro ⟨⟨m1, m2⟩, m3⟩
    exact ⟨⟨e1.2 (m1 _), e2.2 (m1 _), e3.2 (m1 _), ⟨hd8, e4.2 (m1 _)⟩, m2⟩, ⟨m1 _, m3, m1 _, m1 _, m1 _⟩, fun f _ => m1 f⟩

/-- The tree table of a store. -/
theorem tbl_of {db : Db} (hc : Consistent db) (hw : AllProper db) (asc : Bool) : Tbl asc db.tree := by
  refine ⟨hc.treeSorted, fun e he => ?_, fun e he => ?_⟩
  · obtain ⟨h1, h2⟩ := hc.dupSorted e.1 e.2 he
    refine ⟨h1, mono_orient (fun v hv => ?_) h2⟩
    obtain ⟨i, p, hp, hpe⟩ := (hc.treeLog e.1 v).1 ⟨e.2, he, hv⟩
    obtain ⟨t, ht⟩ := proper_entry (hw i p hp) hpe
    obtain ⟨_, _, _, _, _, _, _, _, _, _, hf⟩ := fromPkt_of_tuple ht i
    rw [hpe] at hf
    have := congrArg (fun o : Option TreeEntry => (o.map (fun e => e.val.length)).getD 0) hf
    simp only [Option.map_some, Option.getD_some] at this
    rw [this]
    simp [TreeValue.bytes]
  · obtain ⟨h1, -⟩ := hc.dupSorted e.1 e.2 he
    obtain ⟨v, hv⟩ := List.exists_mem_of_ne_nil _ h1
    obtain ⟨i, p, hp, hpe⟩ := (hc.treeLog e.1 v).1 ⟨e.2, he, hv⟩
    obtain ⟨t, ht⟩ := proper_entry (hw i p hp) hpe
    exact ⟨t, keyOf_pkt ht hpe⟩

/-! ### what is found -/

theorem Found.mem {asc : Bool} {s : Preds} {q : TreeKeys} {strict : Prop} {T : Table} {es : List TreeEntry}
    (h : Found asc s q strict T es) {e : TreeEntry} (he : e ∈ es) : Hit q e.key ∧ eok s e.val = true ∧ ∃ vs, (e.key, vs) ∈ T ∧ e.val ∈ vs := by
  induction h with
  | nil => cases he
  | hit hh hp hf ih =>
    rename_i k vs out T es
    rcases List.mem_append.1 he with he | he
    · obtain ⟨v, hv, rfl⟩ := List.mem_map.1 he
      have := (picks_sublist hp).subset hv
      obtain ⟨h1, h2⟩ := List.mem_filter.1 this
      exact ⟨hh, h2, vs, by simp, mem_orient.1 h1⟩
    · obtain ⟨h1, h2, vs', h3, h4⟩ := ih he
      exact ⟨h1, h2, vs', by simp [h3], h4⟩
  | miss _ hf ih =>
    obtain ⟨h1, h2, vs', h3, h4⟩ := ih he
    exact ⟨h1, h2, vs', by simp [h3], h4⟩

/-- With all positions of the branch counter allowed and nothing left out, everything asked for is there. -/
theorem Found.all {asc : Bool} {s : Preds} {q : TreeKeys} {T : Table} {es : List TreeEntry} (h : Found asc s q True T es)
    (hb : ∀ i, InSet (s.state .branch) i) {k v : Bytes} {vs : List Bytes} (hk : Hit q k) (hv : eok s v = true) (hT : (k, vs) ∈ T) (hm : v ∈ vs) :
    ⟨k, v⟩ ∈ es := by
  induction h with
  | nil => cases hT
  | hit hh hp hf ih =>
    rcases List.mem_cons.1 hT with e | hT
    · cases e
      rw [picks_all hb hp]
      apply List.mem_append_left
      exact List.mem_map.2 ⟨v, List.mem_filter.2 ⟨mem_orient.2 hm, hv⟩, rfl⟩
    · exact List.mem_append_right _ (ih hT)
  | miss hn hf ih =>
    rcases List.mem_cons.1 hT with e | hT
    · subst e
      have := hn trivial hk v hm
      rw [hv] at this; cases this
    · exact ih hT

/-- The order of the entries: by key, and inside a key up or down. -/
def EntryBefore (asc : Bool) (e f : TreeEntry) : Prop :=
  bytesLt e.key f.key = true ∨ (e.key = f.key ∧ if asc then bytesLt e.val f.val = true else bytesLt f.val e.val = true)

theorem Found.order {asc : Bool} {s : Preds} {q : TreeKeys} {strict : Prop} {T : Table} {es : List TreeEntry}
    (h : Found asc s q strict T es) (hs : T.Pairwise (fun a b => bytesLt a.1 b.1 = true))
    (hd : ∀ e ∈ T, e.2.Pairwise (fun a b => bytesLt a b = true)) : es.Pairwise (EntryBefore asc) := by
  induction h with
  | nil => exact .nil
  | hit hh hp hf ih =>
    rename_i k vs out T es
    obtain ⟨h1, h2⟩ := List.pairwise_cons.1 hs
    rw [List.pairwise_append]
    refine ⟨?_, ih h2 (fun e he => hd e (by simp [he])), ?_⟩
    · rw [List.pairwise_map]
      have : (orient asc vs).Pairwise (fun a b => if asc then bytesLt a b = true else bytesLt b a = true) := by
        have hv := hd (k, vs) (by simp)
        unfold orient
        cases asc with
        | true => simpa using hv
        | false => simp only [Bool.false_eq_true, if_false]; rw [List.pairwise_reverse]; exact hv
      exact ((this.sublist List.filter_sublist).sublist (picks_sublist hp)).imp (fun h => .inr ⟨rfl, h⟩)
    · intro x hx y hy
      obtain ⟨v, hv, rfl⟩ := List.mem_map.1 hx
      obtain ⟨_, _, vs', h3, h4⟩ := Found.mem hf hy
      exact .inl (h1 _ h3)
  | miss hn hf ih =>
    obtain ⟨h1, h2⟩ := List.pairwise_cons.1 hs
    exact ih h2 (fun e he => hd e (by simp [he]))

/-! ### the entries of a query -/

/-- The keys from the lower bound on. -/
def From (T : Table) (lb k : Bytes) : Prop := (∃ vs, (k, vs) ∈ T) ∧ bytesLt k lb = false

theorem spentAt_false (t : TestSet 32) (hmax : InSet t (2 ^ 32 - 1)) (n : BitVec 32) : spentAt t n = .ok false := by
  have hany := mask_hasAny_of_test hmax.2
  unfold spentAt
  have h1 := hmax.1.2
  rw [if_neg (by
    rw [BitVec.lt_def]
    have h2 : (BitVec.ofNat 32 (capPos (2 ^ 32 - 1))).toNat = 2 ^ 32 - 1 := by decide
    rw [h2] at h1
    have := n.isLt
    omega)]
  rcases test_iff (by decide) (by decide) true t n (.inr hany) with ⟨e, _⟩ | ⟨e, _⟩ <;> rw [e]

theorem dropWhile_from {T : Table} {lb : Bytes} (hs : T.Pairwise (fun a b => bytesLt a.1 b.1 = true)) :
    ∀ e ∈ T.dropWhile (fun e => bytesLt e.1 lb), bytesLt e.1 lb = false := by
  have : T.Pairwise (fun a b => bytesLt b.1 lb = true → bytesLt a.1 lb = true) := hs.imp (fun h1 h2 => bytesLt_trans h1 h2)
  rw [dropWhile_filter this]
  intro e he
  simpa using (List.mem_filter.1 he).2

theorem treeEntries_spec (a : Abs) (hl : a.Live) {asc : Bool} (hmax : InSet (a.state .branch) (2 ^ 32 - 1)) {T : Table} (hT : Tbl asc T)
    {es : List TreeEntry} (h : treeEntries T asc a.preds = .ok es) {strict : Prop}
    (hst : ∀ q lb, treeKeys a.preds asc = .ok q → q.lowerBound = .ok lb → strict →
      (∀ e ∈ T, bytesLt e.1 lb = true → ¬ Hit q e.1) ∧ Safe q lb (From T lb) ∧ Walks asc q.cstamp) :
    ∃ q, treeKeys a.preds asc = .ok q ∧ Found asc a.preds q strict T es := by
  obtain ⟨q, hq, hql, -, -, -, -, hqs, -⟩ := treeKeys_spec a hl asc
  refine ⟨q, hq, ?_⟩
  unfold treeEntries at h
  rw [show a.preds.state .branch = a.state .branch from rfl, spentAt_false _ hmax, hq] at h
  simp only at h
  cases hlb : q.lowerBound with
  | error e => rw [hlb] at h; cases h
  | ok lb =>
    rw [hlb] at h
    simp only at h
    have hst' := hst q lb hq hlb
    have hd := List.takeWhile_append_dropWhile (p := fun e : Bytes × List Bytes => bytesLt e.1 lb) (l := T)
    have htw := takeWhile_lt (b := lb) (T := T)
    have hfr := dropWhile_from (lb := lb) hT.sorted
    obtain ⟨A, hA⟩ : ∃ A, A = T.takeWhile (fun e => bytesLt e.1 lb) := ⟨_, rfl⟩
    obtain ⟨D, hD⟩ : ∃ D, D = T.dropWhile (fun e => bytesLt e.1 lb) := ⟨_, rfl⟩
    rw [← hA, ← hD] at hd
    rw [← hA] at htw
    rw [← hD] at hfr
    have hTD : Tbl asc D := by rw [← hd] at hT; exact hT.suffix
    have hKD : ∀ e ∈ D, From T lb e.1 := fun e he => ⟨⟨e.2, by rw [← hd]; simp [he]⟩, hfr e he⟩
    have hskA : ∀ e ∈ A, Skip strict q e := fun e he hs hh => absurd hh ((hst' hs).1 e (by rw [← hd]; simp [he]) (htw e he))
    rw [← hd]
    refine Found.skips hl hqs hskA ?_
    unfold setRange at h
    rw [← hD] at h
    cases hse : seat asc D with
    | none =>
      rw [hse] at h; cases h
      rw [seat_none hTD hse]; exact .nil
    | some c =>
      rw [hse] at h
      simp only at h
      obtain ⟨vs, h1, h2⟩ := seat_some hse
      rw [h1] at hTD hKD ⊢
      cases hS : seek asc q lb (c.after.length + 1) c with
      | error e => rw [hS] at h; cases h
      | ok S =>
        rw [hS] at h
        rcases seek_spec hql (fun hs => (hst' hs).2) hTD hKD h2 hS with ⟨c', A', vs', rfl, hsp, hat, hsk⟩ | ⟨⟨l, rfl⟩, hsk⟩
        · simp only at h
          rw [hsp] at hTD hKD ⊢
          refine Found.skips hl hqs hsk ?_
          exact scan_spec a hl hmax hql hqs (fun hs => (hst' hs).2) hTD.suffix (fun e he => hKD e (List.mem_append_right _ he)) hat h
        · cases h
          exact Found.none hl hqs hsk

theorem treeEntries_total (a : Abs) (hl : a.Live) {asc : Bool} (hmax : InSet (a.state .branch) (2 ^ 32 - 1)) {T : Table} (hT : Tbl asc T)
    {q : TreeKeys} {lb : Bytes} (hq : treeKeys a.preds asc = .ok q) (hlb : q.lowerBound = .ok lb) (hmv : Moves q lb (From T lb)) :
    ∃ es, treeEntries T asc a.preds = .ok es := by
  obtain ⟨q', hq', hql, -, -, -, -, hqs, -⟩ := treeKeys_spec a hl asc
  rw [hq] at hq'; cases hq'
  unfold treeEntries
  rw [show a.preds.state .branch = a.state .branch from rfl, spentAt_false _ hmax, hq]
  simp only
  rw [hlb]
  simp only
  have hd := List.takeWhile_append_dropWhile (p := fun e : Bytes × List Bytes => bytesLt e.1 lb) (l := T)
  have hfr := dropWhile_from (lb := lb) hT.sorted
  obtain ⟨A, hA⟩ : ∃ A, A = T.takeWhile (fun e => bytesLt e.1 lb) := ⟨_, rfl⟩
  obtain ⟨D, hD⟩ : ∃ D, D = T.dropWhile (fun e => bytesLt e.1 lb) := ⟨_, rfl⟩
  rw [← hA, ← hD] at hd
  rw [← hD] at hfr
  have hTD : Tbl asc D := by rw [← hd] at hT; exact hT.suffix
  have hKD : ∀ e ∈ D, From T lb e.1 := fun e he => ⟨⟨e.2, by rw [← hd]; simp [he]⟩, hfr e he⟩
  unfold setRange
  rw [← hD]
  cases hse : seat asc D with
  | none => exact ⟨_, rfl⟩
  | some c =>
    simp only
    obtain ⟨vs, h1, h2⟩ := seat_some hse
    rw [h1] at hTD hKD
    obtain ⟨S, hS⟩ := seek_total hql hmv (n := c.after.length + 1) hTD hKD (by omega)
    rw [hS]
    rcases seek_spec hql (strict := False) (fun h => h.elim) hTD hKD h2 hS with ⟨c', A', vs', rfl, hsp, hat, hsk⟩ | ⟨⟨l, rfl⟩, hsk⟩
    · simp only
      rw [hsp] at hTD hKD
      exact scan_total a hl hmax hql hqs hmv hTD.suffix (fun e he => hKD e (List.mem_append_right _ he)) hat (by omega)
    · exact ⟨_, rfl⟩

end Verif.Query
