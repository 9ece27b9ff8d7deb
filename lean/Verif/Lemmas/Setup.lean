import Verif.Props.Local
/-!
# Lemmas for claiming a local name
-/
namespace Verif.Props
open Verif Verif.Pkt Verif.Tree Verif.Pred Verif.Env Verif.Spec Verif.Query Verif.Lns Verif.Shake

/-- What making a point without a key gives. -/
theorem link_made {C : Crypto} {c : LinkContent} (hs : c.Sized) {nh : Bytes} {p : NetParts}
    (h : tryLinkpoint C c.group c.domain c.rspace c.links c.data c.stamp nh = .ok p) :
    p = ⟨nh, C.hash (Content.link c).layout, (Content.link c).parts⟩ ∧ (Content.link c).Valid := by
  have e := tryPoint_eq (C := C) hs none nh
  have : tryPoint C c.group c.domain c.rspace c.links c.data c.stamp none nh = .ok p := h
  rw [this] at e
  by_cases hz : (contentOf C c none).size ≤ 65024
  · rw [if_pos hz] at e
    cases e
    exact ⟨rfl, hz, hs⟩
  · rw [if_neg hz] at e
    cases e

/-- A packet with a content. -/
def packet (C : Crypto) (nh : Bytes) (c : Content) : NetParts := ⟨nh, C.hash c.layout, c.parts⟩

theorem packet_tuple {C : Crypto} (hC : C.Laws) {nh : Bytes} (hnh : nh.length = 32) {c : LinkContent} (hv : (Content.link c).Valid)
    {cs : List Bytes} (hr : WellRooted c.rspace cs) :
    HasTuple (packet C nh (.link c)) ⟨c.group, c.domain, cs, List.replicate 32 0, c.stamp, (packet C nh (.link c)).hash⟩ :=
  ⟨c, hr, rfl, rfl, rfl, rfl, .inl ⟨⟨rfl, hv, hC.hash_len _, hnh⟩, rfl⟩⟩

theorem claims_rooted {comps : List Bytes} (hg : GoodName comps) : WellRooted (rootedOf (claimsOf comps)) (claimsOf comps) :=
  ⟨(claims_valid hg).1, (claims_valid hg).2, .inl rfl⟩

theorem local_group {comps : List Bytes} {n : Name} (hn : Name.ofComps comps = .ok n) (hl : IsLocal comps) : n.claimGroup = privateGroup := by
  unfold Name.claimGroup
  rw [if_pos (((name_of_iff _ _).1 hn).2.2.2 hl)]

/-- The claim of a key, if one can be made. -/
theorem key_claim {C : Crypto} {nh : Bytes} {comps : List Bytes} {n : Name} (hn : Name.ofComps comps = .ok n) (hl : IsLocal comps)
    {pk : Bytes} (hpk : pk.length = 32) {enckey : Bytes} {cl : Claim}
    (h : Claim.new C nh n (u64End - 1) [⟨List.replicate 9 0 ++ pubkeyTag, pk⟩] enckey = .ok cl) :
    cl = ⟨packet C nh (keyClaim comps pk enckey), n⟩ ∧ (keyClaim comps pk enckey).Valid := by
  have hg := ((name_of_iff _ _).1 hn).1
  obtain ⟨hc, hc8⟩ := claims_valid hg
  unfold Claim.new at h
  simp only at h
  rw [if_neg (Classical.not_not.2 (.inl (by decide))), claim_space_eq hn, local_group hn hl] at h
  simp only at h
  have ht : beBytes 8 (u64End - 1) ++ (List.replicate 9 0 ++ pubkeyTag).drop 8 = List.replicate 8 255 ++ [0] ++ ascii "pubkey@" := by decide
  rw [ht] at h
  have hs : LinkContent.Sized ⟨List.replicate 32 0, List.replicate 13 0 ++ ascii "lns", 0, [⟨List.replicate 8 255 ++ [0] ++ ascii "pubkey@", pk⟩],
      rootedOf (ascii "claims" :: comps.reverse), enckey⟩ := by
    refine ⟨List.length_replicate, (by decide : (List.replicate 13 (0 : UInt8) ++ ascii "lns").length = 16), (by decide : 0 < 2 ^ 64), ?_, rooted_check_accepts _ hc hc8⟩
    intro l hl
    rw [List.mem_singleton.1 hl]
    exact ⟨(by decide : (List.replicate 8 (255 : UInt8) ++ [0] ++ ascii "pubkey@").length = 16), hpk⟩
  cases hm : tryLinkpoint C privateGroup lnsDomain (rootedOf (ascii "claims" :: comps.reverse))
      [⟨List.replicate 8 255 ++ [0] ++ ascii "pubkey@", pk⟩] enckey 0 nh with
  | error e => rw [hm] at h; cases h
  | ok p =>
    rw [hm] at h
    simp only at h
    obtain ⟨rfl, hv⟩ := link_made hs hm
    refine ⟨?_, hv⟩
    split at h
    · cases h
    · have hic : IsClaim (keyClaim comps pk enckey) comps ⟨List.replicate 32 0, List.replicate 13 0 ++ ascii "lns", 0,
          [⟨List.replicate 8 255 ++ [0] ++ ascii "pubkey@", pk⟩], rootedOf (ascii "claims" :: comps.reverse), enckey⟩ := by
        refine ⟨rfl, hg, rfl, ⟨fun _ => rfl, fun h => absurd hl h⟩, ?_, by simp⟩
        exact wellRooted_space (claims_rooted hg)
      have := (claim_of_parts (p := packet C nh (keyClaim comps pk enckey)) rfl hv ⟨packet C nh (keyClaim comps pk enckey), n⟩).2 ⟨comps, _, hic, rfl, hn⟩
      have h2 : Except.ok cl = Except.ok (Claim.mk (packet C nh (keyClaim comps pk enckey)) n) := h.symm.trans this
      exact Except.ok.inj h2

/-- A point of the index: no key, made now. -/
def Indexed (C : Crypto) (nh : Bytes) (now : Nat) (cs : List Bytes) (links : List Link) (p : NetParts) : Prop :=
  ∃ r, WellRooted r cs ∧ (Content.link ⟨privateGroup, lnsDomain, now, links, r, []⟩).Valid ∧ p = packet C nh (.link ⟨privateGroup, lnsDomain, now, links, r, []⟩)

theorem entryLinks_sized {links : List Link} (h : LinksSized links) (remove : Option Bytes) {add : Option (Bool × Link)}
    (ha : ∀ b l, add = some (b, l) → l.tag.length = 16 ∧ l.ptr.length = 32) (now : Nat) : LinksSized (entryLinks links remove add now) := by
  have hk : ∀ x ∈ (links.filter fun l => decide (some l.ptr ≠ remove)).filter fun l => decide ((asStampTag l.tag).1 > now),
      x.tag.length = 16 ∧ x.ptr.length = 32 := fun x hx => h x (List.mem_filter.1 (List.mem_filter.1 hx).1).1
  intro x hx
  unfold entryLinks at hx
  simp only at hx
  split at hx
  · rcases List.mem_cons.1 hx with rfl | hx
    · exact ha _ _ rfl
    · exact hk x hx
  · rcases List.mem_append.1 hx with hx | hx
    · exact hk x hx
    · rw [List.mem_singleton.1 hx]; exact ha _ _ rfl
  · exact hk x hx

theorem mut_entry {C : Crypto} {nh : Bytes} {links : List Link} (hls : LinksSized links) {r : Bytes} {cs : List Bytes} (hr : WellRooted r cs)
    (hck : Rooted.checkComponents r = .ok ()) {remove : Option Bytes} {add : Option (Bool × Link)}
    (ha : ∀ b l, add = some (b, l) → l.tag.length = 16 ∧ l.ptr.length = 32) {now : Nat} (hnow : now < 2 ^ 64) {p : NetParts}
    (h : mutEntry C nh links r remove add none now = .ok p) : Indexed C nh now cs (entryLinks links remove add now) p := by
  have hs : LinkContent.Sized ⟨privateGroup, lnsDomain, now, entryLinks links remove add now, r, []⟩ :=
    ⟨(by decide : privateGroup.length = 32), (by decide : lnsDomain.length = 16), hnow, entryLinks_sized hls remove ha now, hck⟩
  unfold mutEntry at h
  simp only at h
  cases hm : tryLinkpoint C privateGroup lnsDomain r (entryLinks links remove add now) [] now nh with
  | error e => rw [hm] at h; cases h
  | ok q =>
    rw [hm] at h
    cases h
    obtain ⟨e, hv⟩ := link_made hs hm
    exact ⟨r, hr, hv, e⟩

/-- The space and links of a point. -/
theorem tuple_point {p : NetParts} {t : TreeTuple} (h : HasTuple p t) :
    WellRooted (getRspace p) t.space ∧ Rooted.checkComponents (getRspace p) = .ok () ∧ LinksSized p.getLinks ∧ p.getCreate = t.create := by
  obtain ⟨c, hr, -, -, hcr, -, ⟨hp, -⟩ | ⟨sig, hp⟩⟩ := h
  · have e1 : getRspace p = c.rspace := by unfold getRspace; rw [hp.parts]; rfl
    have e2 : p.getLinks = c.links := by unfold NetParts.getLinks; rw [hp.parts]; rfl
    have e3 : p.getCreate = c.stamp := by unfold NetParts.getCreate; rw [hp.parts]; rfl
    rw [e1, e2, e3, hcr]
    exact ⟨hr, hp.valid.2.rspace, hp.valid.2.links, rfl⟩
  · have e1 : getRspace p = c.rspace := by unfold getRspace; rw [hp.parts]; rfl
    have e2 : p.getLinks = c.links := by unfold NetParts.getLinks; rw [hp.parts]; rfl
    have e3 : p.getCreate = c.stamp := by unfold NetParts.getCreate; rw [hp.parts]; rfl
    rw [e1, e2, e3, hcr]
    exact ⟨hr, hp.valid.2.1.rspace, hp.valid.2.1.links, rfl⟩

theorem indexed_tuple {C : Crypto} (hC : C.Laws) {nh : Bytes} (hnh : nh.length = 32) {now : Nat} {cs : List Bytes} {links : List Link} {p : NetParts}
    (h : Indexed C nh now cs links p) : HasTuple p ⟨privateGroup, lnsDomain, cs, List.replicate 32 0, now, p.hash⟩ := by
  obtain ⟨r, hr, hv, rfl⟩ := h
  exact packet_tuple hC hnh hv hr

section
variable {C : Crypto} {nh : Bytes} {db : Db} {now : Nat}

theorem drop_entry {oldHash : Option Bytes} {tag : Bytes} (ht : 1 ≤ tag.length ∧ tag.length ≤ 200) {old new : Option Bytes}
    (ho : ∀ x, old = some x → x.length = 32) (h1 : 1 < now) (h2 : now < 2 ^ 64) (hc : Consistent db) (hw : AllShow db) (hff : NoOnesKey db)
    {r : Option NetParts} (h : dropEntry C nh db now none oldHash tag old new = .ok r) {p : NetParts} (hp : r = some p) :
    ∃ ptr e, old = some ptr ∧ some ptr ≠ new ∧ LeadAt db privateGroup lnsDomain (tagSpace tag ptr) none now (some e) ∧
      Indexed C nh now (tagSpace tag ptr) (entryLinks e.2.getLinks oldHash none now) p := by
  unfold dropEntry at h
  cases old with
  | none => simp only at h; cases h; cases hp
  | some ptr =>
    simp only at h
    by_cases hn : some ptr = new
    · rw [if_pos hn] at h; cases h; cases hp
    · rw [if_neg hn] at h
      obtain ⟨r0, x1, x2⟩ := tag_lead ht (ho ptr rfl) (admin := none) nofun h1 h2 hc hw hff
      have x2 : tagEntry db now tag ptr (Option.map C.pubkey none) = .ok r0 := x2
      rw [x2] at h
      cases r0 with
      | none => simp only at h; cases h; cases hp
      | some e =>
        simp only at h
        obtain ⟨t, ht', -, -, hts, -⟩ := x1.2.1
        obtain ⟨a1, a2, a3, -⟩ := tuple_point ht'
        cases hm : mutEntry C nh e.2.getLinks (getRspace e.2) oldHash none none now with
        | error x => rw [hm] at h; cases h
        | ok q =>
          rw [hm] at h
          cases h
          cases hp
          exact ⟨ptr, e, rfl, hn, x1, mut_entry a3 (hts ▸ a1) a2 (fun _ _ h => by cases h) h2 hm⟩

theorem add_entry {oldHash : Option Bytes} {tag : Bytes} (ht : 1 ≤ tag.length ∧ tag.length ≤ 200) {prio : Bool} {claim : Claim}
    (hh : claim.pkt.hash.length = 32) {new : Option Bytes}
    (ho : ∀ x, new = some x → x.length = 32) (h1 : 1 < now) (h2 : now < 2 ^ 64) (hc : Consistent db) (hw : AllShow db) (hff : NoOnesKey db)
    {r : Option NetParts} (h : addEntry C nh db now none oldHash tag prio claim new = .ok r) :
    (new = none → r = none) ∧ ∀ ptr, new = some ptr → ∃ r0 until_ p, LeadAt db privateGroup lnsDomain (tagSpace tag ptr) none now r0 ∧
      claim.until = .ok until_ ∧ r = some p ∧
      Indexed C nh now (tagSpace tag ptr) (entryLinks ((r0.map (·.2.getLinks)).getD []) oldHash
        (some (prio, ⟨stampTag until_ (List.replicate 8 0), claim.pkt.hash⟩)) now) p := by
  unfold addEntry at h
  cases new with
  | none => simp only at h; cases h; exact ⟨fun _ => rfl, nofun⟩
  | some ptr =>
    refine ⟨nofun, fun ptr' he => ?_⟩
    cases he
    simp only at h
    obtain ⟨r0, x1, x2⟩ := tag_lead ht (ho ptr rfl) (admin := none) nofun h1 h2 hc hw hff
    have x2 : tagEntry db now tag ptr (Option.map C.pubkey none) = .ok r0 := x2
    obtain ⟨s1, s2⟩ := tag_space ht (ho ptr rfl)
    rw [x2, s2] at h
    simp only at h
    rw [rooted_of_space true _ _ s1 (by simp [tagSpace])] at h
    simp only [unwrapL] at h
    cases hu : claim.until with
    | error x => rw [hu] at h; cases h
    | ok until_ =>
      rw [hu] at h
      simp only at h
      generalize hm : mutEntry C nh _ _ _ _ _ _ = o at h
      cases o with
      | error x => cases h
      | ok q =>
        cases h
        have hls : LinksSized ((r0.map (·.2.getLinks)).getD []) := by
          cases r0 with
          | none => nofun
          | some e =>
            obtain ⟨t, ht', -⟩ := x1.2.1
            exact (tuple_point ht').2.2.1
        refine ⟨r0, until_, q, x1, rfl, rfl, mut_entry hls ⟨s1, by simp [tagSpace], .inl rfl⟩ (rooted_check_accepts _ s1 (by simp [tagSpace])) ?_ h2 hm⟩
        intro b l he
        cases he
        exact ⟨by rw [stampTag, List.length_append, beBytes_length, List.length_replicate], hh⟩

theorem firstTail_mem {ls : List Link} {t k : Bytes} (h : (firstTail ls t).map (·.ptr) = some k) : ∃ l ∈ ls, l.ptr = k := by
  unfold firstTail at h
  split at h
  · cases h
  · obtain ⟨l, hl, rfl⟩ := Option.map_eq_some_iff.1 h
    exact ⟨l, List.mem_of_find?_eq_some hl, rfl⟩

variable {iter : List Tally → List Tally} {comps : List Bytes} {n : Name} {pk enckey : Bytes}

theorem key_until {nh : Bytes} : Claim.until ⟨packet C nh (keyClaim comps pk enckey), n⟩ = .ok (2 ^ 64 - 1) := by
  show Except.ok (asStampTag (List.replicate 8 255 ++ [0] ++ ascii "pubkey@")).1 = _
  rw [show (asStampTag (List.replicate 8 255 ++ [0] ++ ascii "pubkey@")).1 = 2 ^ 64 - 1 from by decide]
theorem key_group {nh : Bytes} : Claim.group ⟨packet C nh (keyClaim comps pk enckey), n⟩ = none := by
  show (firstTail [⟨List.replicate 8 255 ++ [0] ++ ascii "pubkey@", pk⟩] groupTag).map (·.ptr) = none
  unfold firstTail
  rw [if_neg (by decide), List.find?_cons]
  simp only
  rw [show decide (groupTag <:+ List.replicate 8 255 ++ [0] ++ ascii "pubkey@") = false from by decide]
  rfl
theorem key_tail : (firstTail [⟨List.replicate 8 255 ++ [0] ++ ascii "pubkey@", pk⟩] pubkeyTag).map (·.ptr) = some pk := by
  unfold firstTail
  rw [if_neg (by decide), List.find?_cons]
  simp only
  rw [show decide (pubkeyTag <:+ List.replicate 8 255 ++ [0] ++ ascii "pubkey@") = true from by decide]
  rfl
theorem key_pubkey {nh : Bytes} : Claim.pubkey ⟨packet C nh (keyClaim comps pk enckey), n⟩ = some pk := key_tail

/-- What is saved for the claim of a key. -/
theorem key_batch (hC : C.Laws) (hn : Name.ofComps comps = .ok n) (hl : IsLocal comps) (hpk : pk.length = 32)
    (h1 : 1 < now) (h2 : now < 2 ^ 64) (hc : Consistent db) (hw : AllShow db) (hff : NoOnesKey db) {r : Option (List NetParts)}
    (h : privateBatch C nh db iter now ⟨packet C nh (keyClaim comps pk enckey), n⟩ none [] true = .ok r) :
    ∃ old, lookupClaim C nh db iter now n = .ok old ∧
      (r = none → ∃ o, old = some o ∧ o.pkt.hash = (packet C nh (keyClaim comps pk enckey)).hash) ∧
      ∀ b, r = some b → ∃ dg dp ap r0, b = packet C nh (keyClaim comps pk enckey) :: (dg.toList ++ dp.toList ++ [ap]) ∧
        (∀ p, dg = some p → ∃ ptr e, old.bind Claim.group = some ptr ∧ LeadAt db privateGroup lnsDomain (tagSpace groupTag ptr) none now (some e) ∧
          Indexed C nh now (tagSpace groupTag ptr) (entryLinks e.2.getLinks (old.map (·.pkt.hash)) none now) p) ∧
        (∀ p, dp = some p → ∃ ptr e, old.bind Claim.pubkey = some ptr ∧ ptr ≠ pk ∧
          LeadAt db privateGroup lnsDomain (tagSpace pubkeyTag ptr) none now (some e) ∧
          Indexed C nh now (tagSpace pubkeyTag ptr) (entryLinks e.2.getLinks (old.map (·.pkt.hash)) none now) p) ∧
        LeadAt db privateGroup lnsDomain (tagSpace pubkeyTag pk) none now r0 ∧
        Indexed C nh now (tagSpace pubkeyTag pk) (entryLinks ((r0.map (·.2.getLinks)).getD []) (old.map (·.pkt.hash))
          (some (true, ⟨stampTag (2 ^ 64 - 1) (List.replicate 8 0), (packet C nh (keyClaim comps pk enckey)).hash⟩)) now) ap := by
  unfold privateBatch at h
  simp only [key_group, key_pubkey] at h
  cases ho : lookupClaim C nh db iter now n with
  | error x => rw [ho] at h; cases h
  | ok old =>
    rw [ho] at h
    simp only at h
    have hsz : ∀ t x, (old.bind fun o => (firstTail o.pkt.getLinks t).map (·.ptr)) = some x → x.length = 32 := by
      intro t x hx
      obtain ⟨o, rfl, hx⟩ := Option.bind_eq_some_iff.1 hx
      obtain ⟨e, c, lc, -, b1, b2, b3, rfl⟩ := (local_found_iff_partial C nh iter hn hl h1 h2 hc hw hff o).1 ho
      obtain ⟨l, hm, rfl⟩ := firstTail_mem hx
      have hlc := b3.point
      subst hlc
      have : e.2.getLinks = lc.links := by unfold NetParts.getLinks; rw [b1]; rfl
      rw [this] at hm
      exact (b2.2.links l hm).2
    refine ⟨old, rfl, ?_⟩
    by_cases hsame : old.map (·.pkt.hash) = some (packet C nh (keyClaim comps pk enckey)).hash
    · rw [if_pos hsame] at h
      cases h
      refine ⟨fun _ => ?_, nofun⟩
      obtain ⟨o, h1, h2⟩ := Option.map_eq_some_iff.1 hsame
      exact ⟨o, h1, h2⟩
    · rw [if_neg hsame] at h
      generalize hdg : dropEntry C nh db now none (old.map (·.pkt.hash)) groupTag (old.bind Claim.group) none = dg at h
      cases dg with
      | error x => cases h
      | ok dg =>
        simp only [addEntry.eq_def C nh db now none _ groupTag] at h
        generalize hdp : dropEntry C nh db now none (old.map (·.pkt.hash)) pubkeyTag (old.bind Claim.pubkey) (some pk) = dp at h
        cases dp with
        | error x => cases h
        | ok dp =>
          simp only at h
          generalize hap : addEntry C nh db now none (old.map (·.pkt.hash)) pubkeyTag true _ (some pk) = ap at h
          cases ap with
          | error x => cases h
          | ok ap =>
            cases h
            refine ⟨nofun, fun b hb => ?_⟩
            cases hb
            obtain ⟨r0, until_, p, y1, y2, y3, y4⟩ := (add_entry (by decide) (hC.hash_len _) (fun x hx => by cases hx; exact hpk) h1 h2 hc hw hff hap).2 pk rfl
            rw [key_until] at y2
            cases y2
            subst y3
            refine ⟨dg, dp, p, r0, by simp, fun p hp => ?_, fun p hp => ?_, y1, y4⟩
            · obtain ⟨ptr, e, z1, z2, z3, z4⟩ := drop_entry (by decide) (hsz _) h1 h2 hc hw hff hdg hp
              exact ⟨ptr, e, z1, z3, z4⟩
            · obtain ⟨ptr, e, z1, z2, z3, z4⟩ := drop_entry (by decide) (hsz _) h1 h2 hc hw hff hdp hp
              exact ⟨ptr, e, z1, fun h => z2 (by rw [h]), z3, z4⟩

end

end Verif.Props
