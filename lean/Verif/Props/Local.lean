import Verif.Lemmas.Local
/-!
# C63 local names
-/
namespace Verif.Props
open Verif Verif.Pkt Verif.Tree Verif.Pred Verif.Env Verif.Spec Verif.Query Verif.Lns Verif.Shake

/-- The place of the claims of a local name. -/
abbrev claimsOf (comps : List Bytes) : List Bytes := ascii "claims" :: comps.reverse

section
variable {db : Db} {comps : List Bytes} {n : Name} {now : Nat}

/-- **C63**: what the query for a private claim gives: the first point of the place, where small keys come first (a point without a key
has the key zero) and of one key the newest.  With an admin only the points of the admin count. -/
theorem private_first_partial (hn : Name.ofComps comps = .ok n) {admin : Option Bytes} (ha : ∀ x, admin = some x → x.length = 32)
    (h1 : 1 < now) (h2 : now < 2 ^ 64) (hc : Consistent db) (hw : AllShow db) (hff : NoOnesKey db) (r : Option (Nat × NetParts)) :
    privateClaim db now n admin = .ok r ↔ LeadAt db (List.replicate 32 0) (List.replicate 13 0 ++ ascii "lns") (claimsOf comps) admin now r := by
  obtain ⟨r', x1, x2⟩ := private_lead hn ha h1 h2 hc hw hff
  rw [x2]
  exact ⟨fun h => by cases h; exact x1, fun h => by rw [lead_unique x1 h]⟩

/-- **C63**: the same for the entry of a tag and pointer. -/
theorem tag_first_partial {tag ptr : Bytes} (ht : 1 ≤ tag.length ∧ tag.length ≤ 200) (hp : ptr.length = 32) {admin : Option Bytes}
    (ha : ∀ x, admin = some x → x.length = 32)
    (h1 : 1 < now) (h2 : now < 2 ^ 64) (hc : Consistent db) (hw : AllShow db) (hff : NoOnesKey db) (r : Option (Nat × NetParts)) :
    tagEntry db now tag ptr admin = .ok r ↔
      LeadAt db (List.replicate 32 0) (List.replicate 13 0 ++ ascii "lns") [ascii "by-tag", tag, ptr] admin now r := by
  obtain ⟨r', x1, x2⟩ := tag_lead ht hp ha h1 h2 hc hw hff
  rw [x2]
  exact ⟨fun h => by cases h; exact x1, fun h => by rw [lead_unique x1 h]⟩

/-- What reading a stored packet as a claim gives. -/
theorem read_claim (hc : Consistent db) (hw : AllShow db) (h : Bytes) (r : LRes (Option Claim)) (hr : Claim.read db h = r) :
    (∃ cl comps, r = .ok (some cl) ∧ StoredClaim db h cl.pkt comps ∧ Name.ofComps comps = .ok cl.name) ∨
    ((r = .ok none ∨ r = .error .err) ∧ ∀ p comps, ¬ StoredClaim db h p comps) := by
  unfold Claim.read at hr
  cases hd : db.read h with
  | none =>
    rw [hd] at hr
    refine .inr ⟨.inl hr.symm, ?_⟩
    rintro p comps ⟨⟨i, hi⟩, hh, -⟩
    rw [(read_hash_iff hc h i p).2 ⟨hi, hh⟩] at hd
    cases hd
  | some x =>
    obtain ⟨i, p⟩ := x
    obtain ⟨hm, hh⟩ := (read_hash_iff hc h i p).1 hd
    obtain ⟨_, c, cs, ⟨hp, hv⟩, -⟩ := hw i p hm
    rw [hd] at hr
    simp only at hr
    have hnp := claim_of_parts_no_panic hp hv
    cases ho : Claim.ofPkt p with
    | ok cl =>
      rw [ho] at hr
      obtain ⟨comps, lc, k1, k2, k3⟩ := (claim_of_parts hp hv cl).1 ho
      refine .inl ⟨cl, comps, hr.symm, ⟨⟨i, by rw [k2]; exact hm⟩, by rw [k2]; exact hh, c, lc, by rw [k2]; exact hp, hv, k1⟩, k3⟩
    | error f =>
      cases f with
      | panic => exact absurd ho hnp
      | err e =>
        rw [ho] at hr
        refine .inr ⟨.inr hr.symm, ?_⟩
        rintro q comps ⟨⟨j, hj⟩, hh', c', lc, hp', hv', hk⟩
        have := (read_hash_iff hc h j q).2 ⟨hj, hh'⟩
        rw [hd] at this
        cases this
        obtain ⟨n, hn⟩ : ∃ n, Name.ofComps comps = .ok n := by
          by_cases hl : IsLocal comps
          · exact ⟨⟨_, true⟩, (name_of_iff _ _).2 ⟨hk.name, rfl, fun _ => hl, fun _ => rfl⟩⟩
          · exact ⟨⟨_, false⟩, (name_of_iff _ _).2 ⟨hk.name, rfl, nofun, fun h => absurd h hl⟩⟩
        rw [(claim_of_parts hp' hv' ⟨p, n⟩).2 ⟨comps, lc, hk, rfl, hn⟩] at ho
        cases ho

/-- What following the links of an entry gives. -/
theorem first_live (hc : Consistent db) (hw : AllShow db) (links : List Link) :
    ∃ r, firstClaim db now links = .ok r ∧
      (r = none ∧ FirstLive db now links none ∨
        ∃ cl comps, r = some cl ∧ Name.ofComps comps = .ok cl.name ∧ FirstLive db now links (some (cl.pkt, comps))) := by
  induction links with
  | nil => exact ⟨none, rfl, .inl ⟨rfl, by intro l hl; cases hl⟩⟩
  | cons l ls ih =>
    have skip (h : ∀ q cs, ¬ LiveLink db now l q cs) (he : firstClaim db now (l :: ls) = firstClaim db now ls) :
        ∃ r, firstClaim db now (l :: ls) = .ok r ∧
          (r = none ∧ FirstLive db now (l :: ls) none ∨
            ∃ cl comps, r = some cl ∧ Name.ofComps comps = .ok cl.name ∧ FirstLive db now (l :: ls) (some (cl.pkt, comps))) := by
      obtain ⟨r, h1, h2⟩ := ih
      refine ⟨r, he.trans h1, ?_⟩
      rcases h2 with ⟨k1, k2⟩ | ⟨cl, comps, k1, k2, a, x, b, k3, k4, k5⟩
      · refine .inl ⟨k1, ?_⟩
        intro x hx
        rcases List.mem_cons.1 hx with rfl | hx
        · exact h
        · exact k2 x hx
      · refine .inr ⟨cl, comps, k1, k2, l :: a, x, b, by rw [k3]; rfl, k4, ?_⟩
        intro y hy
        rcases List.mem_cons.1 hy with rfl | hy
        · exact h
        · exact k5 y hy
    by_cases ht : (asStampTag l.tag).1 > now
    · rcases read_claim hc hw l.ptr _ rfl with ⟨cl, comps, h1, h2, h3⟩ | ⟨h1, h2⟩
      · refine ⟨some cl, ?_, .inr ⟨cl, comps, rfl, h3, [], l, ls, rfl, ⟨ht, h2⟩, by intro x hx; cases hx⟩⟩
        unfold firstClaim
        rw [if_pos ht, h1]
      · refine skip (fun q cs h => h2 q cs h.2) ?_
        conv => lhs; unfold firstClaim
        rw [if_pos ht]
        rcases h1 with h1 | h1 <;> rw [h1]
    · refine skip (fun q cs h => ht h.1) ?_
      conv => lhs; unfold firstClaim
      rw [if_neg ht]

/-- The first claim the links lead to is only one. -/
theorem first_live_unique (hc : Consistent db) {links : List Link} {p q : NetParts} {cs ds : List Bytes}
    (h : FirstLive db now links (some (p, cs))) (h' : FirstLive db now links (some (q, ds))) : p = q := by
  obtain ⟨a, l, b, e, hl, ha⟩ := h
  obtain ⟨a', l', b', e', hl', ha'⟩ := h'
  have : l = l' := by
    rw [e] at e'
    rcases List.append_eq_append_iff.1 e' with ⟨t, h1, h2⟩ | ⟨t, h1, h2⟩
    · cases t with
      | nil => exact (List.cons.inj h2).1
      | cons y t =>
        obtain ⟨rfl, -⟩ := List.cons.inj h2
        exact absurd hl (ha' _ (by rw [h1]; simp) _ _)
    · cases t with
      | nil => exact (List.cons.inj h2).1.symm
      | cons y t =>
        obtain ⟨rfl, -⟩ := List.cons.inj h2
        exact absurd hl' (ha _ (by rw [h1]; simp) _ _)
  subst this
  obtain ⟨-, ⟨i, hi⟩, hh, -⟩ := hl
  obtain ⟨-, ⟨j, hj⟩, hh', -⟩ := hl'
  exact (log_unique hc hi hj (hh.trans hh'.symm)).2

/-- And it is read as a claim of that name. -/
theorem live_claim {links : List Link} {cl : Claim} {cs : List Bytes} (h : FirstLive db now links (some (cl.pkt, cs)))
    (hn : Name.ofComps cs = .ok cl.name) : Claim.ofPkt cl.pkt = .ok cl := by
  obtain ⟨a, l, b, e, ⟨-, -, -, c, lc, hp, hv, hk⟩, -⟩ := h
  exact (claim_of_parts hp hv cl).2 ⟨cs, lc, hk, rfl, hn⟩

/-- **C63**: which claim a tag and pointer lead to: of the first entry of the index for them, the first link whose time is not over and that points
to a stored claim. -/
theorem tag_lookup_iff_partial {tag ptr : Bytes} (ht : 1 ≤ tag.length ∧ tag.length ≤ 200) (hp : ptr.length = 32) {admin : Option Bytes}
    (ha : ∀ x, admin = some x → x.length = 32)
    (h1 : 1 < now) (h2 : now < 2 ^ 64) (hc : Consistent db) (hw : AllShow db) (hff : NoOnesKey db) (cl : Claim) :
    tagLookup db now tag ptr admin = .ok (some cl) ↔
      ∃ e comps, LeadAt db (List.replicate 32 0) (List.replicate 13 0 ++ ascii "lns") [ascii "by-tag", tag, ptr] admin now (some e) ∧
        FirstLive db now e.2.getLinks (some (cl.pkt, comps)) ∧ Name.ofComps comps = .ok cl.name := by
  obtain ⟨r, x1, x2⟩ := tag_lead ht hp ha h1 h2 hc hw hff
  unfold tagLookup
  rw [x2]
  cases r with
  | none =>
    constructor
    · intro h; cases h
    · rintro ⟨e, comps, k, -⟩
      cases lead_unique x1 k
  | some e =>
    obtain ⟨o, y1, y2⟩ := first_live (now := now) hc hw e.2.getLinks
    simp only
    rw [y1]
    constructor
    · intro h
      cases h
      rcases y2 with ⟨y, -⟩ | ⟨cl', comps, y, y3, y4⟩
      · cases y
      · cases y
        exact ⟨e, comps, x1, y4, y3⟩
    · rintro ⟨e', comps, k1, k2, k3⟩
      cases lead_unique x1 k1
      rcases y2 with ⟨y, y'⟩ | ⟨cl', comps', y, y3, y4⟩
      · obtain ⟨a, l, b, m1, m2, -⟩ := k2
        exact absurd m2 (y' l (by rw [m1]; simp) _ _)
      · have q1 := first_live_unique hc y4 k2
        have z1 := live_claim y4 y3
        rw [q1, live_claim k2 k3] at z1
        cases z1
        rw [y]

/-- The stand-in for the root can always be made. -/
theorem dummy_root_ok (C : Crypto) (nh : Bytes) (hn : Name.ofComps comps = .ok n) : ∃ cl, dummyRoot C nh n = .ok cl := by
  have hz := rooted_size (claims_valid ((name_of_iff _ _).1 hn).1).1
  obtain ⟨cl, g, h, _⟩ := claim_new (C := C) nh hn (until_ := u64End - 1) (by decide) (by decide)
    (l := ⟨List.replicate 16 255, List.replicate 32 0⟩) (ls := []) (by
      intro l hl
      rw [List.mem_singleton.1 hl]
      exact ⟨(by decide : (List.replicate 16 (255 : UInt8)).length = 16), List.length_replicate⟩) (.inr (by decide)) []
    (by simp only [List.length_nil]; omega)
  exact ⟨cl, by unfold dummyRoot; rw [h]; rfl⟩

/-- What reading a point of the place of a local name as a claim gives. -/
theorem place_claim (hn : Name.ofComps comps = .ok n) {e : NetParts} (hm : MadeAt privateGroup lnsDomain (claimsOf comps) none now e) (cl : Claim) :
    Claim.ofPkt e = .ok cl ↔ cl = ⟨e, n⟩ ∧ ∃ c lc, e.parts = c.parts ∧ c.Valid ∧ IsClaim c comps lc := by
  obtain ⟨t, ht, -, -, ts, -⟩ := hm
  have hc : ∃ c : Content, e.parts = c.parts ∧ c.Valid ∧ ∀ lc, c = .link lc → WellRooted lc.rspace t.space := by
    obtain ⟨lc, hr, -, -, -, -, ⟨hp, -⟩ | ⟨sig, hp⟩⟩ := ht
    · exact ⟨_, hp.parts, hp.valid, fun lc' h => by cases h; exact hr⟩
    · exact ⟨_, hp.parts, hp.valid, nofun⟩
  obtain ⟨c, hp, hv, hr⟩ := hc
  rw [claim_of_parts hp hv]
  constructor
  · rintro ⟨comps', lc, hic, hpk, hn'⟩
    have hsp := wellRooted_space (hr lc hic.point)
    have h2 : encodeSpace (claimsOf comps') = encodeSpace (claimsOf comps) := by rw [← ts, ← hsp]; exact hic.space.symm
    have hcs := space_unique _ _ _ (h2 ▸ (claims_valid hic.name).1) (claims_valid ((name_of_iff _ _).1 hn).1).1
    have : comps' = comps := by
      have := (List.cons.inj hcs).2
      rw [← List.reverse_reverse comps', this, List.reverse_reverse]
    subst this
    rw [hn] at hn'
    cases hn'
    obtain ⟨pkt, name⟩ := cl
    cases hpk
    exact ⟨rfl, c, lc, hp, hv, hic⟩
  · rintro ⟨rfl, c', lc, hp', hv', hic⟩
    have : c' = c := parts_injective (hp'.symm.trans hp)
    subst this
    exact ⟨comps, lc, hic, rfl, hn⟩

/-- **C63**: looking up a local name: nothing is found if there is no point at the place of its claims; else its first point has to be a
claim. -/
theorem local_lookup (C : Crypto) (nh : Bytes) (iter : List Tally → List Tally) (hn : Name.ofComps comps = .ok n) (hl : IsLocal comps)
    (h1 : 1 < now) (h2 : now < 2 ^ 64) (hc : Consistent db) (hw : AllShow db) (hff : NoOnesKey db) :
    ∃ r, LeadAt db privateGroup lnsDomain (claimsOf comps) none now r ∧
      lookupClaim C nh db iter now n = (match r with
        | none => .ok none
        | some e => match tryL (Claim.ofPkt e.2) with
          | .error x => .error x
          | .ok c => .ok (some c)) := by
  obtain ⟨r, x1, x2⟩ := private_lead hn (admin := none) nofun h1 h2 hc hw hff
  refine ⟨r, x1, ?_⟩
  unfold lookupClaim
  rw [if_pos (((name_of_iff _ _).1 hn).2.2.2 hl), x2]
  cases r with
  | none =>
    obtain ⟨cl, h⟩ := dummy_root_ok C nh hn
    simp only [h]
  | some e =>
    simp only
    generalize tryL (Claim.ofPkt e.2) = o
    cases o <;> rfl

/-- **C63**: the claim that is found is the first point of the place, if that is a claim of the name. -/
theorem local_found_iff_partial (C : Crypto) (nh : Bytes) (iter : List Tally → List Tally) (hn : Name.ofComps comps = .ok n) (hl : IsLocal comps)
    (h1 : 1 < now) (h2 : now < 2 ^ 64) (hc : Consistent db) (hw : AllShow db) (hff : NoOnesKey db) (cl : Claim) :
    lookupClaim C nh db iter now n = .ok (some cl) ↔
      ∃ e c lc, LeadAt db (List.replicate 32 0) (List.replicate 13 0 ++ ascii "lns") (claimsOf comps) none now (some e) ∧
        e.2.parts = c.parts ∧ c.Valid ∧ IsClaim c comps lc ∧ cl = ⟨e.2, n⟩ := by
  obtain ⟨r, x1, x2⟩ := local_lookup C nh iter hn hl h1 h2 hc hw hff
  rw [x2]
  cases r with
  | none =>
    constructor
    · nofun
    · rintro ⟨e, c, lc, he, _⟩
      cases lead_unique x1 he
  | some e =>
    have hp := place_claim hn x1.2.1
    simp only
    constructor
    · intro h
      cases ho : Claim.ofPkt e.2 with
      | ok c =>
        rw [ho] at h
        cases h
        obtain ⟨a, c, lc, b1, b2, b3⟩ := (hp cl).1 ho
        exact ⟨e, c, lc, x1, b1, b2, b3, a⟩
      | error f =>
        rw [ho] at h
        cases f <;> cases h
    · rintro ⟨e', c, lc, he, b1, b2, b3, b4⟩
      cases lead_unique x1 he
      rw [(hp cl).2 ⟨b4, c, lc, b1, b2, b3⟩]
      rfl

/-- **C63**: nothing is found exactly if there is no point at the place. -/
theorem local_none_iff_partial (C : Crypto) (nh : Bytes) (iter : List Tally → List Tally) (hn : Name.ofComps comps = .ok n) (hl : IsLocal comps)
    (h1 : 1 < now) (h2 : now < 2 ^ 64) (hc : Consistent db) (hw : AllShow db) (hff : NoOnesKey db) :
    lookupClaim C nh db iter now n = .ok none ↔
      ∀ e ∈ db.log, ¬ MadeAt (List.replicate 32 0) (List.replicate 13 0 ++ ascii "lns") (claimsOf comps) none now e.2 := by
  obtain ⟨r, x1, x2⟩ := local_lookup C nh iter hn hl h1 h2 hc hw hff
  rw [x2]
  cases r with
  | none => exact ⟨fun _ => x1, fun _ => rfl⟩
  | some e =>
    simp only
    constructor
    · intro h
      cases ho : Claim.ofPkt e.2 with
      | ok c => rw [ho] at h; cases h
      | error f => rw [ho] at h; cases f <;> cases h
    · exact fun h => absurd x1.2.1 (h e x1.1)

/-- **C63**: looking up a local name never aborts; it is an error exactly if the first point of the place is no claim. -/
theorem local_error_iff_partial (C : Crypto) (nh : Bytes) (iter : List Tally → List Tally) (hn : Name.ofComps comps = .ok n) (hl : IsLocal comps)
    (h1 : 1 < now) (h2 : now < 2 ^ 64) (hc : Consistent db) (hw : AllShow db) (hff : NoOnesKey db) (x : LStop) :
    lookupClaim C nh db iter now n = .error x ↔ x = .err ∧
      ∃ e, LeadAt db (List.replicate 32 0) (List.replicate 13 0 ++ ascii "lns") (claimsOf comps) none now (some e) ∧
        ¬ ∃ c lc, e.2.parts = c.parts ∧ c.Valid ∧ IsClaim c comps lc := by
  obtain ⟨r, x1, x2⟩ := local_lookup C nh iter hn hl h1 h2 hc hw hff
  rw [x2]
  cases r with
  | none =>
    constructor
    · nofun
    · rintro ⟨-, e, he, _⟩
      cases lead_unique x1 he
  | some e =>
    have hp := place_claim hn x1.2.1
    simp only
    cases ho : Claim.ofPkt e.2 with
    | ok c =>
      constructor
      · nofun
      · rintro ⟨-, e', he, h⟩
        cases lead_unique x1 he
        obtain ⟨a, c, lc, b⟩ := (hp c).1 ho
        exact absurd ⟨c, lc, b⟩ h
    | error f =>
      have hf : f = .err () := by
        cases f with
        | err _ => rfl
        | panic =>
          obtain ⟨t, ht, _⟩ := x1.2.1
          obtain ⟨lc, -, -, -, -, -, ⟨h, -⟩ | ⟨sig, h⟩⟩ := ht <;> exact absurd ho (claim_of_parts_no_panic h.parts h.valid)
      subst hf
      constructor
      · intro h
        cases h
        refine ⟨rfl, e, x1, ?_⟩
        rintro ⟨c, lc, b⟩
        have := (hp ⟨e.2, n⟩).2 ⟨rfl, c, lc, b⟩
        rw [ho] at this
        cases this
      · rintro ⟨rfl, -⟩
        rfl

end

end Verif.Props
