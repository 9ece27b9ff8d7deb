import Verif.Lemmas.Setup
/-!
# C63 claiming a local name
-/
namespace Verif.Props
open Verif Verif.Pkt Verif.Tree Verif.Pred Verif.Env Verif.Spec Verif.Query Verif.Lns Verif.Shake

section
variable {C : Crypto} {nh : Bytes} {db db' : Db} {now : Nat} {iter : List Tally → List Tally} {comps : List Bytes} {n : Name} {pk enckey k : Bytes}
  {io : Nat → Call} {ow : Bool}

theorem save_steps (hn : Name.ofComps comps = .ok n) (hl : IsLocal comps) (hpk : pk.length = 32)
    (h : saveKeyclaim C nh db iter io now n enckey (some pk) = (db', .ok k)) :
    k = pk ∧ comps.length ≤ 2 ∧ (keyClaim comps pk enckey).Valid ∧
      ∃ r, privateBatch C nh db iter now ⟨packet C nh (keyClaim comps pk enckey), n⟩ none [] true = .ok r ∧ (r = none → db' = db) ∧
        ∀ b, r = some b → ∃ rng, (saveAll io now db b).out = .ok rng ∧ db' = (saveAll io now db b).disk := by
  unfold saveKeyclaim at h
  simp only at h
  obtain ⟨hg, hs, -⟩ := (name_of_iff _ _).1 hn
  cases hcl : Claim.new C nh n (u64End - 1) [⟨List.replicate 9 0 ++ pubkeyTag, pk⟩] enckey with
  | error x => rw [hcl] at h; cases x <;> cases h
  | ok cl =>
    rw [hcl] at h
    simp only [tryL] at h
    obtain ⟨rfl, hv⟩ := key_claim hn hl hpk hcl
    have hta : Space.toArray n.space = .ok comps.reverse := by
      have := hg.few
      rw [hs, space_to_array (good_space hg).1, if_pos (by rw [List.length_reverse]; omega)]
    simp only [hta, unwrapL] at h
    split at h
    · cases h
    · rename_i h2
      rw [List.length_reverse] at h2
      unfold savePrivate at h
      cases hb : privateBatch C nh db iter now ⟨packet C nh (keyClaim comps pk enckey), n⟩ none [] true with
      | error x => simp only [hb] at h; cases h
      | ok r' =>
        rw [hb] at h
        refine ⟨?_, by omega, hv, r', rfl, ?_, ?_⟩
        · cases r' with
          | none => simp only at h; cases h; rfl
          | some b =>
            simp only at h
            cases ho : (saveAll io now db b).out with
            | error x => rw [ho] at h; cases x <;> cases h
            | ok rng => rw [ho] at h; cases h; rfl
        · rintro rfl
          simp only at h
          cases h; rfl
        · rintro b rfl
          simp only at h
          cases ho : (saveAll io now db b).out with
          | error x => rw [ho] at h; cases x <;> cases h
          | ok rng => rw [ho] at h; cases h; exact ⟨rng, rfl, rfl⟩

/-- The steps of a call that returns a key. -/
theorem setup_steps (hn : Name.ofComps comps = .ok n)
    (h : setupKeyclaim C nh db iter io now n enckey (some pk) ow = (db', .ok k)) :
    IsLocal comps ∧ (ow = false → ∀ cl, lookupClaim C nh db iter now n ≠ .ok (some cl)) ∧
      saveKeyclaim C nh db iter io now n enckey (some pk) = (db', .ok k) := by
  unfold setupKeyclaim at h
  cases hloc : n.isLocal with
  | false =>
    rw [if_pos (by rw [hloc]; simp)] at h
    cases h
  | true =>
    refine ⟨((name_of_iff _ _).1 hn).2.2.1 hloc, ?_⟩
    rw [if_neg (by rw [hloc]; simp)] at h
    cases ho : lookupClaim C nh db iter now n with
    | ok c =>
      rw [ho] at h
      cases c with
      | none => exact ⟨fun _ => nofun, h⟩
      | some c =>
        cases ow with
        | true => exact ⟨nofun, h⟩
        | false => cases h
    | error x =>
      rw [ho] at h
      cases x with
      | stop q => cases h
      | err => exact ⟨fun _ => nofun, h⟩

/-- The database after a call that returns a key. -/
theorem setup_db (hC : C.Laws) (hnh : nh.length = 32) (hn : Name.ofComps comps = .ok n) (hpk : pk.length = 32)
    (h1 : 1 < now) (h2 : now < 2 ^ 64) (hc : Consistent db) (hw : AllShow db) (hff : NoOnesKey db)
    (h : setupKeyclaim C nh db iter io now n enckey (some pk) ow = (db', .ok k)) :
    Consistent db' ∧ AllShow db' ∧ NoOnesKey db' ∧ (∀ e ∈ db.log, e ∈ db'.log) ∧
      (∃ e ∈ db'.log, e.2.hash = C.hash (keyClaim comps pk enckey).layout ∧ (e ∈ db.log ∨ e.2 = packet C nh (keyClaim comps pk enckey))) ∧
      ∀ e ∈ db'.log, e ∈ db.log ∨ e.2 = packet C nh (keyClaim comps pk enckey) ∨
        ∃ tag ptr links, (tag = groupTag ∨ tag = pubkeyTag) ∧ Indexed C nh now (tagSpace tag ptr) links e.2 := by
  obtain ⟨hl, -, h⟩ := setup_steps hn h
  obtain ⟨-, -, hv, r, hb, hr1, hr2⟩ := save_steps hn hl hpk h
  obtain ⟨old, hold, hk1, hk2⟩ := key_batch hC hn hl hpk h1 h2 hc hw hff hb
  cases r with
  | none =>
    rw [hr1 rfl]
    obtain ⟨o, rfl, ho⟩ := hk1 rfl
    obtain ⟨e, c, lc, b0, b1, b2, b3, rfl⟩ := (local_found_iff_partial C nh iter hn hl h1 h2 hc hw hff o).1 hold
    exact ⟨hc, hw, hff, fun _ h => h, ⟨e, b0.1, ho, .inl b0.1⟩, fun e he => .inl he⟩
  | some b =>
    obtain ⟨⟨a, z⟩, hout, rfl⟩ := hr2 b rfl
    obtain ⟨dg, dp, ap, r0, rfl, g1, g2, g3, g4⟩ := hk2 b rfl
    have hall : ∀ p ∈ packet C nh (keyClaim comps pk enckey) :: (dg.toList ++ dp.toList ++ [ap]), p = packet C nh (keyClaim comps pk enckey) ∨
        ∃ tag ptr links, (tag = groupTag ∨ tag = pubkeyTag) ∧ Indexed C nh now (tagSpace tag ptr) links p := by
      intro p hp
      simp only [List.mem_cons, List.mem_append, Option.mem_toList, List.not_mem_nil, or_false] at hp
      rcases hp with rfl | ((hp | hp) | rfl)
      · exact .inl rfl
      · obtain ⟨ptr, e, -, -, hi⟩ := g1 p hp
        exact .inr ⟨_, ptr, _, .inl rfl, hi⟩
      · obtain ⟨ptr, e, -, -, -, hi⟩ := g2 p hp
        exact .inr ⟨_, ptr, _, .inr rfl, hi⟩
      · exact .inr ⟨_, _, _, .inr rfl, g4⟩
    have htup : ∀ p ∈ packet C nh (keyClaim comps pk enckey) :: (dg.toList ++ dp.toList ++ [ap]), ∃ t, HasTuple p t ∧ t.pubkey = List.replicate 32 0 := by
      intro p hp
      rcases hall p hp with rfl | ⟨tag, ptr, links, -, hi⟩
      · exact ⟨_, packet_tuple hC hnh hv (claims_rooted ((name_of_iff _ _).1 hn).1), rfl⟩
      · exact ⟨_, indexed_tuple hC hnh hi, rfl⟩
    have hcl : packet C nh (keyClaim comps pk enckey) ∈ packet C nh (keyClaim comps pk enckey) :: (dg.toList ++ dp.toList ++ [ap]) := List.mem_cons_self
    have hfirst : (packet C nh (keyClaim comps pk enckey) :: (dg.toList ++ dp.toList ++ [ap]))[0]? = some (packet C nh (keyClaim comps pk enckey)) := rfl
    generalize packet C nh (keyClaim comps pk enckey) :: (dg.toList ++ dp.toList ++ [ap]) = B at *
    have hpend : pendings (B.map fun p => (p, SaveState.pending)) = B := by
      unfold pendings
      rw [List.filterMap_map]
      exact List.filterMap_some
    unfold saveAll at hout ⊢
    obtain ⟨-, -, hlog, -, hst⟩ := save_range hc hout
    have hcons := save_consistent hc io now (B.map fun p => (p, SaveState.pending))
    have hnew : ∀ e ∈ (save io now db (B.map fun p => (p, SaveState.pending))).disk.log, e ∈ db.log ∨
        ∃ j, B[j]? = some e.2 ∧ IsNew (hashesOf db.log) B j := by
      intro e he
      rw [hlog] at he
      rcases List.mem_append.1 he with he | he
      · exact .inl he
      · right
        obtain ⟨i, p⟩ := e
        obtain ⟨j, hj, -⟩ := (stamped_mem _ _ _ _).1 he
        have := List.mem_of_getElem? hj
        unfold newsOf at this
        rw [hpend] at this
        exact (news_isNew _ _ _).1 this
    have hold' : ∀ e ∈ db.log, e ∈ (save io now db (B.map fun p => (p, SaveState.pending))).disk.log := by
      intro e he
      rw [hlog]
      exact List.mem_append_left _ he
    refine ⟨hcons, ?_, ?_, hold', ?_, ?_⟩
    · apply allProper_allShow.1
      refine saves_proper hc (allProper_allShow.2 hw) io now _ fun p hp => ?_
      obtain ⟨q, hq, he⟩ := List.mem_map.1 hp
      cases he
      obtain ⟨t, ht, -⟩ := htup p hq
      exact .inl ⟨t, ht⟩
    · intro i p t hp ht
      rcases hnew _ hp with he | ⟨j, hj, -⟩
      · exact hff i p t he ht
      · obtain ⟨u, hu, hz⟩ := htup p (List.mem_of_getElem? hj)
        rw [tuple_unique ht hu, hz]
        decide
    · obtain ⟨i, q, hq⟩ := hst _ (List.mem_map.2 ⟨_, hcl, rfl⟩)
      obtain ⟨hq1, hq2⟩ := (read_hash_iff hcons _ _ _).1 hq
      refine ⟨(i, q), hq1, hq2, ?_⟩
      rcases hnew _ hq1 with he | ⟨j, hj, p, hp, hk, hf⟩
      · exact .inl he
      · right
        rw [hj] at hp
        cases hp
        cases j with
        | zero => rw [hfirst] at hj; exact (Option.some.inj hj).symm
        | succ j => exact absurd hq2.symm (hf 0 _ (by omega) hfirst)
    · intro e he
      rcases hnew _ he with he | ⟨j, hj, -⟩
      · exact .inl he
      · exact .inr (hall _ (List.mem_of_getElem? hj))

theorem key_tuple (hC : C.Laws) (hnh : nh.length = 32) (hg : GoodName comps) {p : NetParts} (hp : p.parts = (keyClaim comps pk enckey).parts)
    (hv : (keyClaim comps pk enckey).Valid) (h1 : p.hash.length = 32) (h2 : p.netHeader.length = 32) :
    HasTuple p ⟨privateGroup, lnsDomain, claimsOf comps, List.replicate 32 0, 0, p.hash⟩ :=
  ⟨_, claims_rooted hg, rfl, rfl, rfl, rfl, .inl ⟨⟨hp, hv, h1, h2⟩, rfl⟩⟩

theorem zeros_first {k : Bytes} (h : k.length = 32) (hk : k ≠ List.replicate 32 0) : BytesBefore (List.replicate 32 0) k := by
  refine (bytesBefore_iff _ _).2 ((bytesLt_beNat (by rw [h, List.length_replicate])).2 ?_)
  have h0 : beNat (List.replicate 32 0) = 0 := by decide
  rcases Nat.eq_zero_or_pos (beNat k) with h1 | h1
  · exact absurd (beNat_inj (by rw [h, List.length_replicate]) (by rw [h1, h0])) hk
  · rw [h0]; exact h1

theorem key_isClaim (hg : GoodName comps) (hl : IsLocal comps) : ∃ lc, IsClaim (keyClaim comps pk enckey) comps lc :=
  ⟨_, rfl, hg, rfl, ⟨fun _ => rfl, fun h => absurd hl h⟩, wellRooted_space (claims_rooted hg), by simp⟩

/-- **C63**: a call that returns a key has stored its claim, removed nothing, and added only that claim and entries of the index; what is
found for the name later is this claim exactly if every other unsigned point stored at the place is also of the stamp 0 and has a smaller
hash.  (A claim is always made with the stamp 0.) -/
theorem setup_found_iff_partial (hC : C.Laws) (hnh : nh.length = 32) (hn : Name.ofComps comps = .ok n) (hpk : pk.length = 32)
    (h1 : 1 < now) (h2 : now < 2 ^ 64) (hc : Consistent db) (hw : AllShow db) (hff : NoOnesKey db)
    (hcol : ∀ e ∈ db.log, e.2.hash = C.hash (keyClaim comps pk enckey).layout → e.2.parts = (keyClaim comps pk enckey).parts)
    (h : setupKeyclaim C nh db iter io now n enckey (some pk) ow = (db', .ok k)) {now' : Nat} (h1' : 1 < now') (h2' : now' < 2 ^ 64)
    (iter' : List Tally → List Tally) :
    (∃ cl, lookupClaim C nh db' iter' now' n = .ok (some cl) ∧ cl.pkt.hash = C.hash (keyClaim comps pk enckey).layout) ↔
      ∀ f ∈ db.log, At (List.replicate 32 0) (List.replicate 13 0 ++ ascii "lns") (claimsOf comps) (List.replicate 32 0) f.2 → f.2.getCreate < now' →
        f.2.hash = C.hash (keyClaim comps pk enckey).layout ∨
          (f.2.getCreate = 0 ∧ BytesBefore f.2.hash (C.hash (keyClaim comps pk enckey).layout)) := by
  obtain ⟨hc', hw', hff', hsub, ⟨x, hx, hxh, hxs⟩, hnew⟩ := setup_db hC hnh hn hpk h1 h2 hc hw hff h
  obtain ⟨hl, -, hsave⟩ := setup_steps hn h
  obtain ⟨-, -, hv, -⟩ := save_steps hn hl hpk hsave
  have hg := ((name_of_iff _ _).1 hn).1
  have hxp : x.2.parts = (keyClaim comps pk enckey).parts := by
    rcases hxs with h | h
    · exact hcol x h hxh
    · rw [h]; rfl
  have hxt : HasTuple x.2 ⟨privateGroup, lnsDomain, claimsOf comps, List.replicate 32 0, 0, x.2.hash⟩ := by
    obtain ⟨y, c, cs, hp, -⟩ := hw' x.1 x.2 hx
    exact key_tuple (C := C) (nh := nh) hC hnh hg hxp hv hp.hash hp.header
  have hxm : MadeAt privateGroup lnsDomain (claimsOf comps) none now' x.2 := ⟨_, hxt, rfl, rfl, rfl, nofun, by show 0 < now'; omega⟩
  have hx0 : x.2.getCreate = 0 := (tuple_point hxt).2.2.2
  constructor
  · rintro ⟨cl, hcl, hch⟩ f hf ⟨t, ht, t1, t2, t3, t4⟩ hfn
    obtain ⟨e, c, lc, b0, b1, b2, b3, rfl⟩ := (local_found_iff_partial C nh iter' hn hl h1' h2' hc' hw' hff' cl).1 hcl
    have he : e = x := by
      obtain ⟨i, p⟩ := e
      obtain ⟨j, q⟩ := x
      obtain ⟨rfl, rfl⟩ := log_unique hc' b0.1 hx (by rw [hxh]; exact hch)
      rfl
    subst he
    rcases b0.2.2 f (hsub f hf) ⟨t, ht, t1, t2, t3, nofun, by rw [← (tuple_point ht).2.2.2]; exact hfn⟩ with h | ⟨u, w, hu, hw2, hlead⟩
    · left; rw [h]; exact hxh
    · cases tuple_unique hu hxt
      cases tuple_unique hw2 ht
      rcases hlead with h | ⟨-, h | ⟨h, hb⟩⟩
      · rw [t4] at h; exact absurd h (before_irrefl _)
      · rw [hx0] at h; omega
      · right
        rw [hx0] at h
        exact ⟨h, by rw [← hxh]; exact hb⟩
  · intro hall
    have hlead : LeadAt db' privateGroup lnsDomain (claimsOf comps) none now' (some x) := by
      refine ⟨hx, hxm, fun f hf hm => ?_⟩
      obtain ⟨t, ht, t1, t2, t3, -, t5⟩ := hm
      have hsame : f.2.hash = x.2.hash → f = x := by
        intro he
        obtain ⟨i, p⟩ := f
        obtain ⟨j, q⟩ := x
        obtain ⟨rfl, rfl⟩ := log_unique hc' hf hx he
        rfl
      rcases hnew f hf with hd | hd | ⟨tag, ptr, links, -, hi⟩
      · by_cases hz : t.pubkey = List.replicate 32 0
        · rcases hall f hd ⟨t, ht, t1, t2, t3, hz⟩ (by rw [(tuple_point ht).2.2.2]; exact t5) with he | ⟨he, hb⟩
          · exact .inl (hsame (he.trans hxh.symm))
          · exact .inr ⟨_, t, hxt, ht, .inr ⟨hz.symm, .inr ⟨by rw [he, hx0], by rw [hxh]; exact hb⟩⟩⟩
        · exact .inr ⟨_, t, hxt, ht, .inl (zeros_first (tuple_lengths ht).2.2.1 hz)⟩
      · exact .inl (hsame (by rw [hd, hxh]; rfl))
      · have := tuple_unique ht (indexed_tuple hC hnh hi)
        rw [this] at t3
        exact absurd (List.cons.inj t3).1 (by decide)
    obtain ⟨lc, hlc⟩ := key_isClaim (pk := pk) (enckey := enckey) hg hl
    exact ⟨⟨x.2, n⟩, (local_found_iff_partial C nh iter' hn hl h1' h2' hc' hw' hff' _).2 ⟨x, keyClaim comps pk enckey, lc, hlead, hxp, hv, hlc, rfl⟩, hxh⟩

/-- The claim as it is stored. -/
theorem setup_stored (hC : C.Laws) (hnh : nh.length = 32) (hn : Name.ofComps comps = .ok n) (hpk : pk.length = 32)
    (h1 : 1 < now) (h2 : now < 2 ^ 64) (hc : Consistent db) (hw : AllShow db) (hff : NoOnesKey db)
    (hcol : ∀ e ∈ db.log, e.2.hash = C.hash (keyClaim comps pk enckey).layout → e.2.parts = (keyClaim comps pk enckey).parts)
    (h : setupKeyclaim C nh db iter io now n enckey (some pk) ow = (db', .ok k)) :
    ∃ x ∈ db'.log, x.2.hash = C.hash (keyClaim comps pk enckey).layout ∧ x.2.parts = (keyClaim comps pk enckey).parts ∧
      ∀ e ∈ db'.log, e.2.hash = C.hash (keyClaim comps pk enckey).layout → e = x := by
  obtain ⟨hc', -, -, -, ⟨x, hx, hxh, hxs⟩, -⟩ := setup_db hC hnh hn hpk h1 h2 hc hw hff h
  refine ⟨x, hx, hxh, ?_, fun e he hh => ?_⟩
  · rcases hxs with h | h
    · exact hcol x h hxh
    · rw [h]; rfl
  · obtain ⟨i, p⟩ := e
    obtain ⟨j, q⟩ := x
    obtain ⟨rfl, rfl⟩ := log_unique hc' he hx (hh.trans hxh.symm)
    rfl

/-- **C63**: if the claim is found, its key is the one that was claimed. -/
theorem setup_pubkey_partial (hC : C.Laws) (hnh : nh.length = 32) (hn : Name.ofComps comps = .ok n) (hpk : pk.length = 32)
    (h1 : 1 < now) (h2 : now < 2 ^ 64) (hc : Consistent db) (hw : AllShow db) (hff : NoOnesKey db)
    (hcol : ∀ e ∈ db.log, e.2.hash = C.hash (keyClaim comps pk enckey).layout → e.2.parts = (keyClaim comps pk enckey).parts)
    (h : setupKeyclaim C nh db iter io now n enckey (some pk) ow = (db', .ok k)) {now' : Nat} (h1' : 1 < now') (h2' : now' < 2 ^ 64)
    (iter' : List Tally → List Tally)
    (hall : ∀ f ∈ db.log, At (List.replicate 32 0) (List.replicate 13 0 ++ ascii "lns") (claimsOf comps) (List.replicate 32 0) f.2 →
      f.2.getCreate < now' → f.2.hash = C.hash (keyClaim comps pk enckey).layout ∨
        (f.2.getCreate = 0 ∧ BytesBefore f.2.hash (C.hash (keyClaim comps pk enckey).layout))) :
    k = pk ∧ lookupPubkey C nh db' iter' now' n = .ok (some pk) := by
  obtain ⟨cl, hcl, hch⟩ := (setup_found_iff_partial hC hnh hn hpk h1 h2 hc hw hff hcol h h1' h2' iter').2 hall
  obtain ⟨hc', hw', hff', -⟩ := setup_db hC hnh hn hpk h1 h2 hc hw hff h
  obtain ⟨hl, -, hsave⟩ := setup_steps hn h
  refine ⟨(save_steps hn hl hpk hsave).1, ?_⟩
  obtain ⟨x, hx, hxh, hxp, hxu⟩ := setup_stored hC hnh hn hpk h1 h2 hc hw hff hcol h
  obtain ⟨e, c, lc, b0, b1, b2, b3, rfl⟩ := (local_found_iff_partial C nh iter' hn hl h1' h2' hc' hw' hff' cl).1 hcl
  have he := hxu e b0.1 hch
  subst he
  unfold lookupPubkey
  rw [hcl]
  show Except.ok ((firstTail e.2.getLinks pubkeyTag).map (·.ptr)) = _
  have : e.2.getLinks = [⟨List.replicate 8 255 ++ [0] ++ ascii "pubkey@", pk⟩] := by unfold NetParts.getLinks; rw [hxp]; rfl
  rw [this, key_tail]

/-- **C63**: after a name that had no claim is given a key, the name has this key. -/
theorem setup_fresh_partial (hC : C.Laws) (hnh : nh.length = 32) (hn : Name.ofComps comps = .ok n) (hpk : pk.length = 32)
    (h1 : 1 < now) (h2 : now < 2 ^ 64) (hc : Consistent db) (hw : AllShow db) (hff : NoOnesKey db)
    (hcol : ∀ e ∈ db.log, e.2.hash ≠ C.hash (keyClaim comps pk enckey).layout)
    (h : setupKeyclaim C nh db iter io now n enckey (some pk) ow = (db', .ok k)) {now' : Nat} (h1' : 1 < now') (h2' : now' < 2 ^ 64)
    (iter' : List Tally → List Tally)
    (hfresh : ∀ f ∈ db.log, ¬ MadeAt (List.replicate 32 0) (List.replicate 13 0 ++ ascii "lns") (claimsOf comps) none now' f.2) :
    k = pk ∧ lookupPubkey C nh db' iter' now' n = .ok (some pk) := by
  refine setup_pubkey_partial hC hnh hn hpk h1 h2 hc hw hff (fun e he hh => absurd hh (hcol e he)) h h1' h2' iter' ?_
  rintro f hf ⟨t, ht, t1, t2, t3, -⟩ hn
  exact absurd ⟨t, ht, t1, t2, t3, nofun, by rw [← (tuple_point ht).2.2.2]; exact hn⟩ (hfresh f hf)

/-- **C63**: and the name is found from the key, if the index of the key has no newer entry. -/
theorem setup_reverse_partial (hC : C.Laws) (hnh : nh.length = 32) (hn : Name.ofComps comps = .ok n) (hpk : pk.length = 32)
    (h1 : 1 < now) (hc : Consistent db) (hw : AllShow db) (hff : NoOnesKey db)
    (hcol : ∀ e ∈ db.log, e.2.hash ≠ C.hash (keyClaim comps pk enckey).layout)
    (h : setupKeyclaim C nh db iter io now n enckey (some pk) ow = (db', .ok k)) {now' : Nat} (h1' : now < now') (h2' : now' < 2 ^ 64 - 1)
    (iter' : List Tally → List Tally)
    (hfresh : ∀ f ∈ db.log, ¬ MadeAt (List.replicate 32 0) (List.replicate 13 0 ++ ascii "lns") (claimsOf comps) none now' f.2)
    (hindex : ∀ f ∈ db.log, At (List.replicate 32 0) (List.replicate 13 0 ++ ascii "lns") [ascii "by-tag", ascii "pubkey@", pk] (List.replicate 32 0) f.2 →
      f.2.getCreate < now ∨ now' ≤ f.2.getCreate) :
    ∃ kept : List Link, ∃ entry, entry = Content.link ⟨List.replicate 32 0, List.replicate 13 0 ++ ascii "lns", now,
        ⟨List.replicate 8 255 ++ List.replicate 8 0, C.hash (keyClaim comps pk enckey).layout⟩ :: kept,
        rootedOf [ascii "by-tag", ascii "pubkey@", pk], []⟩ ∧
      ((∀ e ∈ db.log, e.2.hash ≠ C.hash entry.layout) → C.hash entry.layout ≠ C.hash (keyClaim comps pk enckey).layout →
        ∃ cl, reverseLookup C nh db' iter' now' (ascii "pubkey@") pk = .ok (some cl) ∧ cl.name = n ∧
          cl.pkt.hash = C.hash (keyClaim comps pk enckey).layout) := by
  have h2 : now < 2 ^ 64 := by omega
  have h2'' : now' < 2 ^ 64 := by omega
  have hcol' : ∀ e ∈ db.log, e.2.hash = C.hash (keyClaim comps pk enckey).layout → e.2.parts = (keyClaim comps pk enckey).parts :=
    fun e he hh => absurd hh (hcol e he)
  obtain ⟨hc', hw', hff', hsub, -, hnew⟩ := setup_db hC hnh hn hpk h1 h2 hc hw hff h
  obtain ⟨x, hx, hxh, hxp, hxu⟩ := setup_stored hC hnh hn hpk h1 h2 hc hw hff hcol' h
  have hg := ((name_of_iff _ _).1 hn).1
  obtain ⟨cl, hcl, hch⟩ := (setup_found_iff_partial hC hnh hn hpk h1 h2 hc hw hff hcol' h (now' := now') (by omega) h2'' iter').2 (by
    rintro f hf ⟨t, ht, t1, t2, t3, -⟩ hn
    exact absurd ⟨t, ht, t1, t2, t3, nofun, by rw [← (tuple_point ht).2.2.2]; exact hn⟩ (hfresh f hf))
  obtain ⟨hl, -, hsave⟩ := setup_steps hn h
  obtain ⟨-, -, hv, r, hb, hr1, hr2⟩ := save_steps hn hl hpk hsave
  obtain ⟨old, hold, hk1, hk2⟩ := key_batch hC hn hl hpk h1 h2 hc hw hff hb
  have hnone : old = none := by
    have := (local_none_iff_partial C nh iter hn hl h1 h2 hc hw hff).2 (fun e he hm => by
      obtain ⟨t, ht, t1, t2, t3, t4, t5⟩ := hm
      exact hfresh e he ⟨t, ht, t1, t2, t3, t4, by omega⟩)
    rw [hold] at this
    exact Except.ok.inj this
  subst hnone
  cases r with
  | none => obtain ⟨o, ho, -⟩ := hk1 rfl; cases ho
  | some b =>
    obtain ⟨⟨a, z⟩, hout, hdisk⟩ := hr2 b rfl
    obtain ⟨dg, dp, ap, r0, rfl, g1, g2, g3, g4⟩ := hk2 b rfl
    have e1 : dg = none := by
      cases dg with
      | none => rfl
      | some p => obtain ⟨ptr, e, hp, -⟩ := g1 p rfl; cases hp
    have e2 : dp = none := by
      cases dp with
      | none => rfl
      | some p => obtain ⟨ptr, e, hp, -⟩ := g2 p rfl; cases hp
    subst e1 e2
    obtain ⟨rs, hrs, hav, hap⟩ := g4
    have hrs' : rs = rootedOf (tagSpace pubkeyTag pk) := by
      rcases hrs.form with h | h
      · exact h
      · rw [h]; unfold rootedOf; rw [if_neg (by simp [tagSpace])]
    subst hrs'
    have htag : stampTag (2 ^ 64 - 1) (List.replicate 8 0) = List.replicate 8 255 ++ List.replicate 8 0 := by decide
    rw [htag] at hav hap
    refine ⟨(((r0.map (·.2.getLinks)).getD []).filter fun l => decide (some l.ptr ≠ none)).filter fun l => decide ((asStampTag l.tag).1 > now),
      _, rfl, fun hne hne2 => ?_⟩
    have hapt := packet_tuple (nh := nh) hC hnh hav hrs
    rw [← hap] at hapt
    -- the entry is stored
    obtain ⟨y, hy, hyp⟩ : ∃ y ∈ db'.log, y.2 = ap := by
      unfold saveAll at hout hdisk
      obtain ⟨-, -, hlog, -, hst⟩ := save_range hc hout
      obtain ⟨i, q, hq⟩ := hst ap (List.mem_map.2 ⟨ap, by simp, rfl⟩)
      rw [← hdisk] at hq
      obtain ⟨hq1, hq2⟩ := (read_hash_iff hc' _ _ _).1 hq
      refine ⟨(i, q), hq1, ?_⟩
      rw [hdisk, hlog] at hq1
      rcases List.mem_append.1 hq1 with he | he
      · exact absurd (hq2.trans (by rw [hap]; rfl)) (hne _ he)
      · obtain ⟨j, hj, -⟩ := (stamped_mem _ _ _ _).1 he
        have := pendings_mem.1 ((news_sublist _ _).subset (List.mem_of_getElem? hj))
        obtain ⟨q', hq', hqe⟩ := List.mem_map.1 this
        cases hqe
        simp only [Option.toList, List.nil_append, List.mem_cons, List.not_mem_nil, or_false] at hq'
        rcases hq' with rfl | rfl
        · refine absurd ?_ hne2
          rw [hap] at hq2
          exact hq2.symm
        · rfl
    have hlead : LeadAt db' privateGroup lnsDomain (tagSpace pubkeyTag pk) none now' (some y) := by
      refine ⟨hy, ⟨_, by rw [hyp]; exact hapt, rfl, rfl, rfl, nofun, h1'⟩, fun f hf hm => ?_⟩
      obtain ⟨t, ht, t1, t2, t3, -, t5⟩ := hm
      have hsame : f.2.hash = y.2.hash → f = y := by
        intro he
        obtain ⟨i, p⟩ := f
        obtain ⟨j, q⟩ := y
        obtain ⟨rfl, rfl⟩ := log_unique hc' hf hy he
        rfl
      have hd : f ∈ db.log ∨ f.2 = packet C nh (keyClaim comps pk enckey) ∨ f.2 = ap := by
        unfold saveAll at hout hdisk
        obtain ⟨-, -, hlog, -, -⟩ := save_range hc hout
        rw [hdisk, hlog] at hf
        rcases List.mem_append.1 hf with he | he
        · exact .inl he
        · obtain ⟨i, p⟩ := f
          obtain ⟨j, hj, -⟩ := (stamped_mem _ _ _ _).1 he
          have := pendings_mem.1 ((news_sublist _ _).subset (List.mem_of_getElem? hj))
          obtain ⟨q', hq', hqe⟩ := List.mem_map.1 this
          cases hqe
          simp only [Option.toList, List.nil_append, List.mem_cons, List.not_mem_nil, or_false] at hq'
          exact .inr hq'
      rcases hd with hd | hd | hd
      · by_cases hz : t.pubkey = List.replicate 32 0
        · have hcr := (tuple_point ht).2.2.2
          rcases hindex f hd ⟨t, ht, t1, t2, t3, hz⟩ with he | he
          · refine .inr ⟨_, t, by rw [hyp]; exact hapt, ht, .inr ⟨hz.symm, .inl ?_⟩⟩
            rw [hyp, (tuple_point hapt).2.2.2]
            exact he
          · omega
        · exact .inr ⟨_, t, by rw [hyp]; exact hapt, ht, .inl (zeros_first (tuple_lengths ht).2.2.1 hz)⟩
      · rw [hd] at ht
        have := tuple_unique ht (packet_tuple hC hnh hv (claims_rooted hg))
        rw [this] at t3
        exact absurd (List.cons.inj t3).1 (by decide)
      · exact .inl (hsame (by rw [hd, hyp]))
    have hentry := (tag_first_partial (tag := pubkeyTag) (by decide) hpk (admin := none) nofun (by omega) h2'' hc' hw' hff' (some y)).2 hlead
    have hlinks : y.2.getLinks = ⟨List.replicate 8 255 ++ List.replicate 8 0, C.hash (keyClaim comps pk enckey).layout⟩ ::
        (((r0.map (·.2.getLinks)).getD []).filter fun l => decide (some l.ptr ≠ none)).filter fun l => decide ((asStampTag l.tag).1 > now) := by
      rw [hyp, hap]; rfl
    obtain ⟨lc, hlc⟩ := key_isClaim (pk := pk) (enckey := enckey) hg hl
    have hread : Claim.read db' (C.hash (keyClaim comps pk enckey).layout) = .ok (some ⟨x.2, n⟩) := by
      unfold Claim.read
      rw [(read_hash_iff hc' _ x.1 x.2).2 ⟨hx, hxh⟩]
      simp only
      rw [(claim_of_parts hxp hv ⟨x.2, n⟩).2 ⟨comps, lc, hlc, rfl, hn⟩]
      rfl
    have hcl' : cl = ⟨x.2, n⟩ := by
      obtain ⟨e, c, lc, b0, b1, b2, b3, rfl⟩ := (local_found_iff_partial C nh iter' hn hl (by omega) h2'' hc' hw' hff' cl).1 hcl
      rw [hxu e b0.1 hch]
    refine ⟨cl, ?_, by rw [hcl'], hch⟩
    unfold reverseLookup tagLookup
    have hentry : tagEntry db' now' (ascii "pubkey@") pk none = .ok (some y) := hentry
    rw [hentry]
    simp only
    rw [hlinks]
    unfold firstClaim
    rw [if_pos (by
      rw [show (asStampTag (List.replicate 8 255 ++ List.replicate 8 0)).1 = 2 ^ 64 - 1 from by decide]
      exact h2'), hread]
    simp only
    rw [hcl]
    simp only
    rw [if_pos]
    rw [hcl']
    show (firstTail x.2.getLinks pubkeyTag).map (·.ptr) = some pk
    have : x.2.getLinks = [⟨List.replicate 8 255 ++ [0] ++ ascii "pubkey@", pk⟩] := by unfold NetParts.getLinks; rw [hxp]; rfl
    rw [this, key_tail]

/-- **C63**: a name that has a claim is left alone unless overwriting is asked for. -/
theorem setup_refused (hl : n.isLocal = true) {cl : Claim} (h : lookupClaim C nh db iter now n = .ok (some cl)) (pubkey : Option Bytes) :
    setupKeyclaim C nh db iter io now n enckey pubkey false = (db, .error .err) := by
  unfold setupKeyclaim
  rw [if_neg (by rw [hl]; simp), h]
  rfl

/-- **C63**: whatever happens, nothing that was stored is lost. -/
theorem setup_keeps (hc : Consistent db) (name : Name) (pubkey : Option Bytes) :
    let db' := (setupKeyclaim C nh db iter io now name enckey pubkey ow).1
    Consistent db' ∧ ∀ e ∈ db.log, e ∈ db'.log := by
  have hsame : Consistent db ∧ ∀ e ∈ db.log, e ∈ db.log := ⟨hc, fun _ h => h⟩
  have hsv : Consistent (saveKeyclaim C nh db iter io now name enckey pubkey).1 ∧
      ∀ e ∈ db.log, e ∈ (saveKeyclaim C nh db iter io now name enckey pubkey).1.log := by
    unfold saveKeyclaim
    cases pubkey with
    | none => exact hsame
    | some pk =>
      simp only
      split
      · exact hsame
      · split
        · exact hsame
        · split
          · exact hsame
          · rename_i claim _ _ _ _ _
            have key : ∀ r, savePrivate C nh db iter io now claim none [] true = r → Consistent r.1 ∧ ∀ e ∈ db.log, e ∈ r.1.log := by
              rintro _ rfl
              unfold savePrivate
              split
              · exact hsame
              · exact hsame
              · refine ⟨save_consistent hc _ _ _, fun e he => ?_⟩
                show e ∈ (save _ _ _ _).disk.log
                rcases save_log hc io now (List.map (fun p => (p, SaveState.pending)) _) with h | ⟨a, h, -⟩
                · rw [h]; exact he
                · rw [h]; exact List.mem_append_left _ he
            split
            · rename_i h; exact key _ h
            · rename_i h; exact key _ h
  show Consistent (setupKeyclaim C nh db iter io now name enckey pubkey ow).1 ∧ _
  unfold setupKeyclaim
  split
  · exact hsame
  · split
    · exact hsame
    · exact hsv
    · exact hsv
    · split
      · exact hsv
      · exact hsame

end

/-- **C63**: the links of a rewritten entry of the index: those that have not ended and do not point to the replaced claim, in order, with
the new one in front or at the end. -/
theorem entry_links (links : List Link) (remove : Option Bytes) (now : Nat) (l : Link) :
    entryLinks links remove none now = links.filter (fun l => decide (some l.ptr ≠ remove ∧ now < beNat (l.tag.take 8))) ∧
    entryLinks links remove (some (true, l)) now = l :: links.filter (fun l => decide (some l.ptr ≠ remove ∧ now < beNat (l.tag.take 8))) ∧
    entryLinks links remove (some (false, l)) now = links.filter (fun l => decide (some l.ptr ≠ remove ∧ now < beNat (l.tag.take 8))) ++ [l] := by
  have : (links.filter fun l => decide (some l.ptr ≠ remove)).filter (fun l => decide ((asStampTag l.tag).1 > now)) =
      links.filter (fun l => decide (some l.ptr ≠ remove ∧ now < beNat (l.tag.take 8))) := by
    rw [List.filter_filter]
    congr 1
    funext x
    rw [Bool.decide_and, Bool.and_comm]
    rfl
  unfold entryLinks
  simp only
  rw [this]
  exact ⟨rfl, rfl, rfl⟩

/-- **C63**: a claim found from a tag and a pointer is the one found from its name, and its first link with the tag has the pointer. -/
theorem reverse_sound {C : Crypto} {nh : Bytes} {db : Db} {iter : List Tally → List Tally} {now : Nat} {tag ptr : Bytes} (ht : tag.length ≤ 16) {cl : Claim}
    (h : reverseLookup C nh db iter now tag ptr = .ok (some cl)) :
    (∃ e name, db.read e = some name ∧ ∃ c, Claim.ofPkt name.2 = .ok c ∧ lookupClaim C nh db iter now c.name = .ok (some cl)) ∧
      ∃ a l b, cl.pkt.getLinks = a ++ l :: b ∧ l.ptr = ptr ∧ tag <:+ l.tag ∧ ∀ x ∈ a, ¬ tag <:+ x.tag := by
  unfold reverseLookup at h
  cases hl : tagLookup db now tag ptr none with
  | error x => rw [hl] at h; cases h
  | ok r =>
    rw [hl] at h
    cases r with
    | none => cases h
    | some c =>
      simp only at h
      cases hn : lookupClaim C nh db iter now c.name with
      | error x => rw [hn] at h; cases h
      | ok o =>
        rw [hn] at h
        cases o with
        | none => cases h
        | some b =>
          simp only at h
          split at h
          · rename_i hp
            cases h
            refine ⟨?_, (firstTail_iff _ ht _).1 hp⟩
            unfold tagLookup at hl
            cases he : tagEntry db now tag ptr none with
            | error x => rw [he] at hl; cases hl
            | ok e =>
              rw [he] at hl
              cases e with
              | none => cases hl
              | some e =>
                simp only at hl
                have key : ∀ ls, firstClaim db now ls = .ok (some c) → ∃ e name, db.read e = some name ∧ Claim.ofPkt name.2 = .ok c := by
                  intro ls
                  induction ls with
                  | nil => intro h; cases h
                  | cons l ls ih =>
                    intro h
                    unfold firstClaim at h
                    split at h
                    · cases hr : Claim.read db l.ptr with
                      | ok o =>
                        rw [hr] at h
                        cases o with
                        | none => exact ih h
                        | some c' =>
                          cases h
                          unfold Claim.read at hr
                          cases hd : db.read l.ptr with
                          | none => rw [hd] at hr; cases hr
                          | some x =>
                            rw [hd] at hr
                            simp only at hr
                            refine ⟨_, x, hd, ?_⟩
                            cases hq : Claim.ofPkt x.2 with
                            | ok z => rw [hq] at hr; cases hr; rfl
                            | error z => rw [hq] at hr; cases z <;> cases hr
                      | error x =>
                        rw [hr] at h
                        cases x with
                        | err => exact ih h
                        | stop q => cases h
                    · exact ih h
                obtain ⟨x, name, h1, h2⟩ := key _ hl
                exact ⟨x, name, h1, c, h2, hn⟩
          · cases h

/-- **C63**: looking something up under the empty tag aborts. -/
theorem empty_tag_aborts (C : Crypto) (nh : Bytes) (db : Db) (iter : List Tally → List Tally) (now : Nat) (ptr : Bytes) :
    reverseLookup C nh db iter now [] ptr = .error (.stop .panic) := rfl

/-! ### cases -/

/-- As `toyCrypto`, with a hash that depends on all bytes. -/
def mixCrypto : Crypto := { toyCrypto with hash := fun b => beBytes 32 (b.foldl (fun a x => (a * 257 + x.toNat + 1) % 2 ^ 256) 0) }
theorem mixCrypto_laws : mixCrypto.Laws := ⟨fun _ => beBytes_length _ _, toyCrypto_laws.pub_len, toyCrypto_laws.sign_len, toyCrypto_laws.verify_sign⟩

/-- The names `me:local` and `you:local`. -/
def exMe : List Bytes := [ascii "me", ascii "local"]
def exYou : List Bytes := [ascii "you", ascii "local"]
def nameMe : Name := ⟨encodeSpace exMe.reverse, true⟩
def nameYou : Name := ⟨encodeSpace exYou.reverse, true⟩
def key5 : Bytes := List.replicate 32 5
def key7 : Bytes := List.replicate 32 7
def header0 : Bytes := List.replicate 32 0

/-- `me` gets a key, then `you` gets one. -/
def setupMe := setupKeyclaim mixCrypto header0 {} id (fun _ => .ok) 100 nameMe [8] (some key5) false
def setupYou := setupKeyclaim mixCrypto header0 setupMe.1 id (fun _ => .ok) 200 nameYou [9] (some key7) false

theorem nameMe_of : Name.ofComps exMe = .ok nameMe := by decide +kernel
theorem nameYou_of : Name.ofComps exYou = .ok nameYou := by decide +kernel
theorem setupMe_ok : setupMe.2 = .ok key5 := by decide +kernel
theorem setupYou_ok : setupYou.2 = .ok key7 := by decide +kernel

example : lookupPubkey mixCrypto header0 setupYou.1 id 250 nameMe = .ok (some key5) := by decide +kernel
example : lookupPubkey mixCrypto header0 setupYou.1 id 250 nameYou = .ok (some key7) := by decide +kernel
/-- Giving `me` a new key without asking to overwrite the old one is refused. -/
example : (setupKeyclaim mixCrypto header0 setupYou.1 id (fun _ => .ok) 300 nameMe [10] (some key7) false).2 = .error .err := by decide +kernel

theorem empty_good : Consistent ({} : Db) ∧ AllShow ({} : Db) ∧ NoOnesKey ({} : Db) :=
  ⟨saves_consistent [], nofun, nofun⟩

theorem setupMe_good : Consistent setupMe.1 ∧ AllShow setupMe.1 ∧ NoOnesKey setupMe.1 := by
  have h : setupKeyclaim mixCrypto header0 {} id (fun _ => .ok) 100 nameMe [8] (some key5) false = (setupMe.1, .ok key5) := Prod.ext rfl setupMe_ok
  obtain ⟨h1, h2, h3⟩ := empty_good
  obtain ⟨a, b, c, -⟩ := setup_db mixCrypto_laws (by decide) nameMe_of (by decide) (by decide) (by decide) h1 h2 h3 h
  exact ⟨a, b, c⟩

/-- The hypotheses of `setup_fresh_partial` and `setup_reverse_partial` hold for the second call. -/
theorem setupYou_fresh : (∀ e ∈ setupMe.1.log, e.2.hash ≠ mixCrypto.hash (keyClaim exYou key7 [9]).layout) ∧
    (∀ f ∈ setupMe.1.log, ¬ MadeAt (List.replicate 32 0) (List.replicate 13 0 ++ ascii "lns") (claimsOf exYou) none 250 f.2) ∧
    ∀ f ∈ setupMe.1.log, At (List.replicate 32 0) (List.replicate 13 0 ++ ascii "lns") [ascii "by-tag", ascii "pubkey@", key7] (List.replicate 32 0) f.2 →
      f.2.getCreate < 200 ∨ 250 ≤ f.2.getCreate := by
  have h : setupKeyclaim mixCrypto header0 {} id (fun _ => .ok) 100 nameMe [8] (some key5) false = (setupMe.1, .ok key5) := Prod.ext rfl setupMe_ok
  obtain ⟨h1, h2, h3⟩ := empty_good
  obtain ⟨-, -, -, -, -, hall⟩ := setup_db mixCrypto_laws (by decide) nameMe_of (by decide) (by decide) (by decide) h1 h2 h3 h
  obtain ⟨hl, -, hs⟩ := setup_steps nameMe_of h
  obtain ⟨-, -, hv, -⟩ := save_steps nameMe_of hl (by decide) hs
  refine ⟨by decide +kernel, fun f hf hm => ?_, fun f hf hm => ?_⟩
  · obtain ⟨t, ht, -, -, t3, -⟩ := hm
    rcases hall f hf with he | he | ⟨tag, ptr, links, -, hi⟩
    · cases he
    · rw [he] at ht
      have := tuple_unique ht (packet_tuple mixCrypto_laws (by decide) hv (claims_rooted ((name_of_iff _ _).1 nameMe_of).1))
      rw [this] at t3
      exact absurd t3 (by decide)
    · have := tuple_unique ht (indexed_tuple mixCrypto_laws (by decide) hi)
      rw [this] at t3
      exact absurd (List.cons.inj t3).1 (by decide)
  · left
    obtain ⟨t, ht, -⟩ := hm
    rw [(tuple_point ht).2.2.2]
    rcases hall f hf with he | he | ⟨tag, ptr, links, -, hi⟩
    · cases he
    · rw [he] at ht
      have := tuple_unique ht (packet_tuple mixCrypto_laws (by decide) hv (claims_rooted ((name_of_iff _ _).1 nameMe_of).1))
      rw [this]
      exact (by decide : 0 < 200)
    · have := tuple_unique ht (indexed_tuple mixCrypto_laws (by decide) hi)
      rw [this]
      exact (by decide : 100 < 200)

example : lookupPubkey mixCrypto header0 setupYou.1 id 250 nameYou = .ok (some key7) := by
  obtain ⟨g1, g2, g3⟩ := setupMe_good
  have h : setupKeyclaim mixCrypto header0 setupMe.1 id (fun _ => .ok) 200 nameYou [9] (some key7) false = (setupYou.1, .ok key7) := Prod.ext rfl setupYou_ok
  exact (setup_fresh_partial mixCrypto_laws (by decide) nameYou_of (by decide) (by decide) (by decide) g1 g2 g3 setupYou_fresh.1 h (by decide) (by decide) id
    setupYou_fresh.2.1).2

/-- The name that is found, if there is one. -/
def foundName (r : LRes (Option Claim)) : Option (Option Bytes) :=
  match r with
  | .ok c => some (c.map (·.name.space))
  | .error _ => none

example : foundName (reverseLookup mixCrypto header0 setupYou.1 id 250 (ascii "pubkey@") key7) = some (some nameYou.space) := by decide +kernel

example : ∃ cl e comps, tagLookup setupMe.1 150 (ascii "pubkey@") key5 none = .ok (some cl) ∧
    LeadAt setupMe.1 (List.replicate 32 0) (List.replicate 13 0 ++ ascii "lns") [ascii "by-tag", ascii "pubkey@", key5] none 150 (some e) ∧
    FirstLive setupMe.1 150 e.2.getLinks (some (cl.pkt, comps)) := by
  obtain ⟨g1, g2, g3⟩ := setupMe_good
  have : (match tagLookup setupMe.1 150 (ascii "pubkey@") key5 none with | .ok (some _) => true | _ => false) = true := by decide +kernel
  cases h : tagLookup setupMe.1 150 (ascii "pubkey@") key5 none with
  | error _ => rw [h] at this; cases this
  | ok o =>
    cases o with
    | none => rw [h] at this; cases this
    | some cl =>
      obtain ⟨e, comps, h1, h2, -⟩ := (tag_lookup_iff_partial (by decide) (by decide) (fun _ h => by cases h) (by decide) (by decide) g1 g2 g3 cl).1 h
      exact ⟨cl, e, comps, rfl, h1, h2⟩

/-- `me` had the key 5; the key 7 is to replace it.  -/
def setupLost := setupKeyclaim mixCrypto header0 setupMe.1 id (fun _ => .ok) 200 nameMe [9] (some key7) true
/-- **C63 fails** for replacing a key: the call succeeds and returns the new key, but the name keeps the old one, as both claims have the
stamp 0 and the old one has the greater hash.  The old key is removed from the index all the same: neither key leads to the name any more. -/
theorem overwrite_lost : setupLost.2 = .ok key7 ∧ lookupPubkey mixCrypto header0 setupLost.1 id 250 nameMe = .ok (some key5) ∧
    foundName (reverseLookup mixCrypto header0 setupLost.1 id 250 (ascii "pubkey@") key5) = some none ∧
    foundName (reverseLookup mixCrypto header0 setupLost.1 id 250 (ascii "pubkey@") key7) = none := by decide +kernel

end Verif.Props
