import Verif.Lemmas.LnsGet
import Verif.Props.Setup
/-!
# What the program for names does
-/
namespace Verif.Props
open Verif Verif.Pkt Verif.Spec Verif.Cmd Verif.Pred Verif.Multi Verif.Shake Verif.Lns Verif.Env Verif.LnsCmd Verif.Ident

variable {C : Crypto} {nh : Bytes} {comps : List Bytes}

/-! ### create-claim -/

theorem made_secret {links : List Link} {data : Bytes} {s : Sent} (h : ClaimMade C nh comps links data s) : s.Secret ↔ IsLocal comps := by
  obtain ⟨-, -, g, hg, hc⟩ := h
  unfold Sent.Secret
  rw [hc]
  show some g = some zeroGroup ↔ _
  by_cases hl : IsLocal comps
  · rw [hg.1 hl]
    exact ⟨fun _ => hl, fun _ => rfl⟩
  · rw [hg.2 hl]
    exact ⟨fun h => absurd h (by decide), fun h => absurd h hl⟩

theorem create_key_of {look : Name → LRes (Option Bytes)} {c : Create} {key : Option Bytes} {data : Bytes}
    (hk : KeyOf (fun text k => pubkeyOf text = .ok k) (fun n k => look n = .ok k) c key data) : c.key look = .ok (key, data) := by
  unfold Create.key Create.own
  cases hk with
  | given h1 h2 => rw [h1, h2]
  | encrypted h1 h2 h3 h4 =>
    rw [h1, h2, h3]
    simp only [h4, true_or, if_true]
  | copied h1 h2 h3 h4 =>
    rw [h1, h2, h3]
    simp only [h4]

/-- `create-claim`: nothing is written if the name of an authority is too long, there is nothing to claim and that was not asked for, the claim
is too large, or it ends at the start of time.  Otherwise the claim goes to the destinations, and reading it gives what was asked for. -/
theorem create_spec (L : C.Laws) (hnh : nh.length = 32) (dbg : Bool) (y : Sys) (o : IoOpts) (iter : List Tally → List Tally) (now : Nat) {c : Create} (w : World)
    (hn : Name.ofComps comps = .ok c.name) {key : Option Bytes} {data : Bytes}
    (hk : KeyOf (fun text k => pubkeyOf text = .ok k) (fun n k => lookupPubkey C nh w.db iter now n = .ok k) c key data) (hs : CreateSized c key)
    {want : List (Bytes × Bytes)} (hwant : want = wanted c.group key c.noAuth c.auth) :
    ((LongName c.auth ∨ (want = [] ∧ c.allowEmpty = false)) → create C dbg y o nh iter now c w = (w, .error .err)) ∧
    (¬ LongName c.auth → (want = [] → c.allowEmpty = true) →
      (65024 < claimSize comps (claimed want) data → create C dbg y o nh iter now c w = (w, .error (.stop .panic))) ∧
      (claimSize comps (claimed want) data ≤ 65024 → c.until_ = 0 → create C dbg y o nh iter now c w = (w, .error .err)) ∧
      (claimSize comps (claimed want) data ≤ 65024 → 0 < c.until_ → (IsLocal comps → ¬ Forbids o) → ∀ {put : Sent → List Put},
        (∀ s, ClaimMade C nh comps (endsAt c.until_ (claimed want)) data s → Puts c.write s (put s)) → (∀ s x, Put.hold x ∉ put s) → Clock y w (dbCount c.write) →
        ∃ s w', create C dbg y o nh iter now c w = (w', .ok ()) ∧ ClaimMade C nh comps (endsAt c.until_ (claimed want)) data s ∧ Did w w' (allPut put [s]) ∧
          ∃ cl, Claim.ofPkt s.parts = .ok cl ∧ cl.name = c.name ∧ cl.until = .ok c.until_ ∧ cl.group = c.group ∧ cl.pubkey = key ∧
            cl.authorities = (if c.noAuth then [] else key.toList) ++ c.auth.map (·.ptr))) := by
  subst hwant
  unfold create
  rw [create_key_of hk]
  simp only [Done.get]
  rw [links_eq]
  refine ⟨fun h => ?_, fun hL he => ?_⟩
  · rw [if_pos h]
  · rw [if_neg (by rintro (h | ⟨h1, h2⟩); exact hL h; rw [he h1] at h2; cases h2)]
    simp only
    have h8 : ∀ x ∈ claimed (wanted c.group key c.noAuth c.auth), x.1.length = 8 ∧ x.2.length = 32 := fun x hx => ⟨wanted_tail hL hx, wanted_ptr hs hx⟩
    have hne : claimed (wanted c.group key c.noAuth c.auth) ≠ [] := by
      obtain ⟨x, xs, h⟩ := claimed_cons (wanted c.group key c.noAuth c.auth)
      rw [h]; nofun
    obtain ⟨m1, m2, m3⟩ := claim_made L hnh hn hs.until_ hne h8 data
    refine ⟨fun h => ?_, fun h h0 => ?_, fun h h0 hf put hp hh hc => ?_⟩
    · rw [m1 h]; rfl
    · rw [m2 h h0]; rfl
    · obtain ⟨s, e1, e2, e3, e4⟩ := m3 h h0
      rw [e1]
      obtain ⟨w', p1, p2, -⟩ := put_ok dbg y (hp s e2) (fun hsec => hf ((made_secret e2).1 hsec)) w (hh s) (n := 0) hc
      refine ⟨s, w', p1, e2, ?_, ⟨s.parts, c.name⟩, e3, rfl, e4, ?_⟩
      · unfold allPut
        simpa using p2
      · have hl : s.parts.getLinks = endsAt c.until_ (claimed (wanted c.group key c.noAuth c.auth)) := by
          obtain ⟨-, -, g, -, hcc⟩ := e2
          show NetParts.getLinks ⟨s.nh, s.hash, s.c.parts⟩ = _
          rw [hcc]
          rfl
        have hz := endsAt_sized (t := c.until_) h8
        refine ⟨?_, ?_, ?_⟩
        · unfold Claim.group
          simp only
          rw [hl, firstTail_tails hz (by decide), endsAt_tails, claimed_group]
        · unfold Claim.pubkey
          simp only
          rw [hl, firstTail_tails hz (by decide), endsAt_tails, claimed_key]
        · unfold Claim.authorities
          simp only
          rw [hl, auth_tails hz, endsAt_tails, claimed_auth _ _ _ hL]

/-! ### vote -/

section
variable {db : Db} {n : Name}

/-- The claim the lookup of a public name finds (C52). -/
def foundIn (db : Db) (iter : List Tally → List Tally) (comps : List Bytes) (cl : Claim) : Prop :=
  ∃ m s up is, Name.ofComps comps = .ok m ∧ lookupPublic db iter m = .ok ((true, s, up), is) ∧ s.claim = cl

theorem stored_claim_read (hc : Spec.Consistent db) {h : Bytes} {p : NetParts} (hn : Name.ofComps comps = .ok n) (hs : StoredClaim db h p comps) :
    (∃ i, db.read h = some (i, p)) ∧ Claim.ofPkt p = .ok ⟨p, n⟩ := by
  obtain ⟨⟨i, hi⟩, hh, c, lc, hp, hv, hic⟩ := hs
  exact ⟨⟨i, (read_hash_iff hc h i p).2 ⟨hi, hh⟩⟩, (claim_of_parts hp hv _).2 ⟨comps, lc, hic, rfl, hn⟩⟩

/-- The name and hash do not fit a stored claim: nothing is written. -/
theorem vote_unknown (dbg : Bool) (y : Sys) (o : IoOpts) (iter : List Tally → List Tally) (now sign : Nat) (hn : Name.ofComps comps = .ok n) (id : C.Key)
    (write : List Dest) {w : World} (hc : Spec.Consistent w.db) (hw : AllShow w.db) {h : Bytes} (hno : ∀ p, ¬ StoredClaim w.db h p comps) :
    vote C dbg y o nh iter now sign n h id write w = (w, .error .err) := by
  unfold vote
  cases hd : w.db.read h with
  | none => rfl
  | some e =>
    obtain ⟨i, p⟩ := e
    obtain ⟨hm, hh⟩ := (read_hash_iff hc h i p).1 hd
    obtain ⟨_, c, cs, ⟨hp, hv⟩, -⟩ := hw i p hm
    simp only
    cases ho : Claim.ofPkt p with
    | error f =>
      cases f with
      | panic => exact absurd ho (claim_of_parts_no_panic hp hv)
      | err e => rfl
    | ok cl =>
      obtain ⟨comps', lc, k1, k2, k3⟩ := (claim_of_parts hp hv cl).1 ho
      simp only [tryL, Done.get]
      rw [if_pos]
      intro he
      rw [he] at k3
      obtain rfl := name_inj hn k3
      exact hno p ⟨⟨i, hm⟩, hh, c, lc, hp, hv, k1⟩

/-- Of a stored claim with a local name: the command aborts. -/
theorem vote_local (dbg : Bool) (y : Sys) (o : IoOpts) (iter : List Tally → List Tally) (now sign : Nat) (hn : Name.ofComps comps = .ok n) (id : C.Key)
    (write : List Dest) {w : World} (hc : Spec.Consistent w.db) {h : Bytes} {p : NetParts} (hs : StoredClaim w.db h p comps) (hl : IsLocal comps) :
    vote C dbg y o nh iter now sign n h id write w = (w, .error (.stop .panic)) := by
  obtain ⟨⟨i, h1⟩, h2⟩ := stored_claim_read hc hn hs
  unfold vote
  rw [h1]
  simp only [h2, tryL, Done.get]
  rw [if_neg (by simp)]
  unfold authorityClaim
  rw [((local_inj hn).2 hl)]
  rfl

/-- The authority for the name of a stored claim. -/
theorem vote_authority (hn : Name.ofComps comps = .ok n) (iter : List Tally → List Tally) (now : Nat) (hl : ¬ IsLocal comps) (hc : Spec.Consistent db)
    (hw : AllShow db) (hit : ∀ m, (iter m).Perm m) :
    (∃ e, authorityClaim C nh db iter now n = .error e ∧ ∀ k, ¬ HasSay rootKeys (foundIn db iter) comps k) ∨
    (∃ cl, authorityClaim C nh db iter now n = .ok (false, cl) ∧ ∀ k, ¬ HasSay rootKeys (foundIn db iter) comps k) ∨
    (∃ cl, authorityClaim C nh db iter now n = .ok (true, cl) ∧ ∀ k, k ∈ cl.authorities ↔ HasSay rootKeys (foundIn db iter) comps k) := by
  have hgood := ((name_of_iff _ _).1 hn).1
  match comps, hgood, hn, hl with
  | [], hg, _, _ => exact absurd rfl hg.some
  | [c], _, hn, hl =>
    refine .inr (.inr ⟨_, authority_top iter now hn hl, fun k => ⟨fun h => .top h, ?_⟩⟩)
    rintro (h | _)
    exact h
  | a :: b :: rest, _, hn, hl =>
    obtain ⟨m, hm, -, -⟩ := tail_name hn (List.cons_ne_nil _ _)
    rw [authority_sub iter now hn (List.cons_ne_nil _ _) hl hm]
    cases hlk : lookupPublic db iter m with
    | error e =>
      refine .inl ⟨_, rfl, ?_⟩
      rintro k h
      cases h with
      | sub h _ =>
        obtain ⟨m', s, up, is, e1, e2, -⟩ := h
        rw [hm] at e1
        cases e1
        rw [hlk] at e2
        cases e2
    | ok r =>
      obtain ⟨⟨bb, s, up⟩, is⟩ := r
      cases bb with
      | false =>
        refine .inr (.inl ⟨_, rfl, ?_⟩)
        rintro k h
        cases h with
        | sub h _ =>
          obtain ⟨m', s, up, is, e1, e2, -⟩ := h
          rw [hm] at e1
          cases e1
          rw [hlk] at e2
          cases e2
      | true =>
        cases rest with
        | cons c cs =>
          have := subname_not_found hc hw hit (comps := b :: c :: cs) (by simp) hm hlk
          cases this
        | nil =>
          refine .inr (.inr ⟨_, rfl, fun k => ⟨fun h => .sub ⟨m, s, up, is, hm, hlk, rfl⟩ h, ?_⟩⟩)
          intro h
          cases h with
          | sub h hk =>
            obtain ⟨m', s', up', is', e1, e2, e3⟩ := h
            rw [hm] at e1
            cases e1
            rw [hlk] at e2
            cases e2
            rw [e3]
            exact hk

/-- Who has no say about the name gets no vote, and nothing is written. -/
theorem vote_refused (dbg : Bool) (y : Sys) (o : IoOpts) (iter : List Tally → List Tally) (hit : ∀ m, (iter m).Perm m) (now sign : Nat)
    (hn : Name.ofComps comps = .ok n) (hl : ¬ IsLocal comps) (id : C.Key)
    (write : List Dest) {w : World} (hc : Spec.Consistent w.db) (hw : AllShow w.db) (h : Bytes)
    (hno : ¬ HasSay rootKeys (foundIn w.db iter) comps (C.pubkey id)) :
    ∃ e, vote C dbg y o nh iter now sign n h id write w = (w, .error e) := by
  by_cases hs : ∃ p, StoredClaim w.db h p comps
  · obtain ⟨p, hs⟩ := hs
    obtain ⟨⟨i, h1⟩, h2⟩ := stored_claim_read hc hn hs
    unfold vote
    rw [h1]
    simp only [h2, tryL, Done.get]
    rw [if_neg (by simp)]
    rcases vote_authority (C := C) (nh := nh) hn iter now hl hc hw hit with ⟨e, he, -⟩ | ⟨cl, he, -⟩ | ⟨cl, he, ha⟩
    · rw [he]; exact ⟨e, rfl⟩
    · rw [he]; exact ⟨.err, rfl⟩
    · rw [he]
      simp only
      rw [if_neg (by simp), if_pos]
      · exact ⟨_, rfl⟩
      · intro hc
        exact hno ((ha _).1 (by simpa using hc))
  · exact ⟨_, vote_unknown dbg y o iter now sign hn id write hc hw fun p hp => hs ⟨p, hp⟩⟩

/-- Who has a say about the name of a stored claim gets a vote for it. -/
theorem vote_spec (L : C.Laws) (hnh : nh.length = 32) (dbg : Bool) (y : Sys) (o : IoOpts) (iter : List Tally → List Tally) (hit : ∀ m, (iter m).Perm m)
    (now : Nat) {sign : Nat} (hsign : sign < 2 ^ 64) (hn : Name.ofComps comps = .ok n) (hl : ¬ IsLocal comps) (id : C.Key)
    {write : List Dest} {w : World} (hc : Spec.Consistent w.db) (hw : AllShow w.db) {h : Bytes} {p : NetParts} (hs : StoredClaim w.db h p comps)
    (hsay : HasSay rootKeys (foundIn w.db iter) comps (C.pubkey id)) {put : Sent → List Put}
    (hp : ∀ s, VoteMade C nh comps h sign id s → Puts write s (put s)) (hh : ∀ s x, Put.hold x ∉ put s) {m : Nat} (hk : Clock y w (dbCount write + m)) :
    ∃ s w', vote C dbg y o nh iter now sign n h id write w = (w', .ok ()) ∧ VoteMade C nh comps h sign id s ∧ Did w w' (allPut put [s]) ∧ Clock y w' m := by
  obtain ⟨⟨i, h1⟩, h2⟩ := stored_claim_read hc hn hs
  unfold vote
  rw [h1]
  simp only [h2, tryL, Done.get]
  rw [if_neg (by simp)]
  rcases vote_authority (C := C) (nh := nh) hn iter now hl hc hw hit with ⟨e, he, hno⟩ | ⟨cl, he, hno⟩ | ⟨cl, he, ha⟩
  · exact absurd hsay (hno _)
  · exact absurd hsay (hno _)
  · obtain ⟨s, v1, v2⟩ := vote_made L hnh hc hw hn hs id hsign
    have hsec : ¬ s.Secret := by
      obtain ⟨-, -, -, g, sig, hg, hcc⟩ := v2
      unfold Sent.Secret
      rw [hcc]
      show ¬ some g = some zeroGroup
      rw [hg.2 hl]
      decide
    obtain ⟨w', p1, p2, p3⟩ := put_ok dbg y (o := o) (hp s v2) (fun h => absurd h hsec) w (hh s) hk
    refine ⟨s, w', ?_, v2, by unfold allPut; simpa using p2, p3⟩
    rw [he]
    simp only
    rw [if_neg (by simp), if_neg (by simpa using (ha _).2 hsay), v1]
    exact p1

/-- For a name of one component these are the seven keys of the root. -/
theorem say_top {iter : List Tally → List Tally} {c k : Bytes} : HasSay rootKeys (foundIn db iter) [c] k ↔ k ∈ rootKeys :=
  ⟨fun h => by cases h; assumption, .top⟩
/-- For names of three or more components it is nobody. -/
theorem say_deep {iter : List Tally → List Tally} (h3 : 3 ≤ comps.length) (k : Bytes) : ¬ HasSay rootKeys (foundIn db iter) comps k := by
  intro h
  cases h <;> simp at h3

theorem vote_at {h : Bytes} {sign : Nat} {id : C.Key} {s : Sent} (hv : VoteMade C nh comps h sign id s) (hn : Name.ofComps comps = .ok n)
    (hl : ¬ IsLocal comps) : HasTuple s.parts ⟨publicGroup, lnsDomain, ascii "claims" :: comps.reverse, C.pubkey id, sign, s.hash⟩ ∧ choice s.parts = some h ∧
      s.parts.getCreate = sign := by
  obtain ⟨-, -, -, g, sig, hg, hcc⟩ := hv
  have hg' : g = publicGroup := hg.2 hl
  subst hg'
  obtain ⟨nh', hs', c', x1, x2, x3⟩ := s
  simp only at hcc
  subst hcc
  refine ⟨⟨⟨publicGroup, List.replicate 13 0 ++ ascii "lns", sign, [⟨List.replicate 12 0 ++ ascii "vote", h⟩], rootedOf (ascii "claims" :: comps.reverse), []⟩,
    claims_rooted ((name_of_iff _ _).1 hn).1, rfl, rfl, rfl, rfl, .inr ⟨sig, ⟨rfl, x3, x2, x1⟩⟩⟩, ?_, rfl⟩
  unfold choice
  rw [show NetParts.getLinks (Sent.parts _) = [⟨List.replicate 12 0 ++ ascii "vote", h⟩] from rfl]
  exact if_pos rfl

/-- A stored vote counts as that of its key, if the older points of the key at the place were made before. -/
theorem vote_counts {h : Bytes} {sign : Nat} {id : C.Key} {s : Sent} (hv : VoteMade C nh comps h sign id s) (hn : Name.ofComps comps = .ok n)
    (hl : ¬ IsLocal comps) {db' : Db} {i : Nat} (hlog : db'.log = db.log ++ [(i, s.parts)])
    (hold : ∀ e ∈ db.log, At publicGroup lnsDomain (ascii "claims" :: comps.reverse) (C.pubkey id) e.2 → e.2.getCreate < sign) :
    NewestAt db' publicGroup lnsDomain (ascii "claims" :: comps.reverse) (C.pubkey id) (some (i, s.parts)) ∧ choice s.parts = some h ∧
      ∀ a r, a ≠ C.pubkey id → NewestAt db publicGroup lnsDomain (ascii "claims" :: comps.reverse) a r →
        NewestAt db' publicGroup lnsDomain (ascii "claims" :: comps.reverse) a r := by
  obtain ⟨ht, hch, hcr⟩ := vote_at hv hn hl
  refine ⟨⟨by rw [hlog]; simp, ⟨_, ht, rfl, rfl, rfl, rfl⟩, fun e he ha => ?_⟩, hch, fun a r hne hr => ?_⟩
  · rw [hlog] at he
    rcases List.mem_append.1 he with he | he
    · exact .inr (.inl (by rw [hcr]; exact hold e he ha))
    · exact .inl (List.mem_singleton.1 he)
  · have hnot : ∀ e ∈ db'.log, At publicGroup lnsDomain (ascii "claims" :: comps.reverse) a e.2 → e ∈ db.log := by
      intro e he ha
      rw [hlog] at he
      rcases List.mem_append.1 he with he | he
      · exact he
      · rw [List.mem_singleton.1 he] at ha
        obtain ⟨t, h1, -, -, -, h5⟩ := ha
        rw [tuple_unique h1 ht] at h5
        exact absurd h5.symm hne
    cases r with
    | none => exact fun e he ha => hr e (hnot e he ha) ha
    | some x => exact ⟨by rw [hlog]; exact List.mem_append_left _ hr.1, hr.2.1, fun e he ha => hr.2.2 e (hnot e he ha) ha⟩

/-- If three other keys of the root voted for the claim, the vote of a fourth, saved, makes it the claim of the name. -/
theorem vote_decides (L : C.Laws) (hnh : nh.length = 32) (dbg : Bool) (y : Sys) (o : IoOpts) (iter : List Tally → List Tally) (hit : ∀ m, (iter m).Perm m)
    (now : Nat) {sign : Nat} (hsign : sign < 2 ^ 64) {c : Bytes} (hn : Name.ofComps [c] = .ok n) (hl : ¬ IsLocal [c]) {id : C.Key}
    {write : List Dest} {w : World} (hc : Spec.Consistent w.db) (hw : AllShow w.db) (hff : NoOnesKey w.db) {h : Bytes} {p : NetParts}
    (hs : StoredClaim w.db h p [c]) (hkey : C.pubkey id ∈ rootKeys) {put : Sent → List Put}
    (hp : ∀ s, VoteMade C nh [c] h sign id s → Puts write s (put s)) (hh : ∀ s x, Put.hold x ∉ put s) (hsave : ∀ s, Put.save ∈ put s)
    (hk : Clock y w (dbCount write + 1)) (hnew : ∀ s, VoteMade C nh [c] h sign id s → ∀ e ∈ w.db.log, e.2.hash ≠ s.hash)
    (hold : ∀ e ∈ w.db.log, At publicGroup lnsDomain [ascii "claims", c] (C.pubkey id) e.2 → e.2.getCreate < sign)
    {f : Bytes → Option (Nat × NetParts)} (hf : ∀ a ∈ rootKeys, NewestAt w.db publicGroup lnsDomain [ascii "claims", c] a (f a))
    (h3 : 3 ≤ (votesFor ((rootKeys.erase (C.pubkey id)).map f) h).length) :
    ∃ w', vote C dbg y o nh iter now sign n h id write w = (w', .ok ()) ∧
      ∃ votes is, lookupPublic w'.db iter n = .ok ((true, ⟨⟨p, n⟩, votes⟩, [rootStep]), is) := by
  obtain ⟨s, w', e1, e2, e3, e4⟩ := vote_spec L hnh dbg y o iter hit now hsign hn hl id hc hw hs (say_top.2 hkey) hp hh hk
  refine ⟨w', e1, ?_⟩
  have e3 : Did w w' ((put s).map (s, ·)) := by unfold allPut at e3; simpa using e3
  obtain ⟨i, hlog⟩ := did_save e3 (hsave s) (hnew s e2)
  obtain ⟨n1, n2, n3⟩ := vote_counts e2 hn hl hlog hold
  obtain ⟨ht, -, -⟩ := vote_at e2 hn hl
  have hc' : Spec.Consistent w'.db := by
    rcases e4 with h | h
    · cases h
    · exact h.2.1
  have hw' : AllShow w'.db := by
    intro j q hq
    rw [hlog] at hq
    rcases List.mem_append.1 hq with hq | hq
    · exact hw j q hq
    · cases List.mem_singleton.1 hq
      obtain ⟨g, sig, -, hcc⟩ := e2.content
      refine ⟨_, s.c, [ascii "claims", c], ⟨rfl, s.valid, s.hashLen, s.nhLen⟩, rfl, ?_⟩
      rw [hcc]
      exact claims_rooted ((name_of_iff _ _).1 hn).1
  have hff' : NoOnesKey w'.db := by
    intro j q t hq hqt
    rw [hlog] at hq
    rcases List.mem_append.1 hq with hq | hq
    · exact hff j q t hq hqt
    · cases List.mem_singleton.1 hq
      rw [tuple_unique hqt ht]
      intro he
      have : List.replicate 32 255 ∈ rootKeys := by rw [← he]; exact hkey
      exact absurd this (by decide +kernel)
  have hf' : ∀ a ∈ rootKeys, NewestAt w'.db publicGroup lnsDomain [ascii "claims", c] a (if a = C.pubkey id then some (i, s.parts) else f a) := by
    intro a ha
    by_cases h : a = C.pubkey id
    · rw [if_pos h, h]; exact n1
    · rw [if_neg h]; exact n3 a _ h (hf a ha)
  have hperm := (List.perm_cons_erase hkey).map fun a => if a = C.pubkey id then some (i, s.parts) else f a
  have herase : (rootKeys.erase (C.pubkey id)).map (fun a => if a = C.pubkey id then some (i, s.parts) else f a) = (rootKeys.erase (C.pubkey id)).map f := by
    apply List.map_congr_left
    intro a ha
    rw [if_neg ((List.Nodup.mem_erase_iff rootKeys_seven.2.2).1 ha).1]
  have hcount : 4 ≤ (votesFor (rootKeys.map fun a => if a = C.pubkey id then some (i, s.parts) else f a) h).length := by
    unfold votesFor at h3 ⊢
    rw [(hperm.filterMap _).length_eq, List.map_cons, if_pos rfl, herase, List.filterMap_cons]
    simp only [Option.bind_some, n2, if_true, List.length_cons]
    omega
  have hahead : Ahead (rootKeys.map fun a => if a = C.pubkey id then some (i, s.parts) else f a) h := by
    intro h' hne
    have := votes_two (rootKeys.map fun a => if a = C.pubkey id then some (i, s.parts) else f a) hne
    rw [List.length_map, rootKeys_seven.1] at this
    left; omega
  obtain ⟨votes, is, -, -, hfound, -⟩ := public_lookup_partial hc' hw' hff' hit hn hf' hahead
  have ⟨⟨j, hj⟩, hh', _⟩ := hs
  exact ⟨votes, is, hfound (j, p) (by rw [hlog]; exact List.mem_append_left _ hj) hh' _ (stored_claim_read hc hn hs).2⟩

/-! ### get -/

variable {o : IoOpts} {write sigs : List Dest} {putW putS : Sent → List Put} {w : World}

/-- The claims of a chain that `get` shows. -/
theorem get_chain (dbg : Bool) {y : Sys} (ho : ¬ Forbids o) (hp : ∀ s, Puts write s (putW s)) (hh : ∀ s x, Put.hold x ∉ putW s)
    (hp' : ∀ s, Puts sigs s (putS s)) (hh' : ∀ s x, Put.hold x ∉ putS s) {iter : List Tally → List Tally} {now : Nat} (chain : Bool)
    {b : Bool} {s : Step} {up : List Step} (hl : liveChain C nh w.db iter now n = .ok (b, s, up)) {ss : List (Sent × List Sent)} (hs : Packed (shown chain s up) ss)
    (hk : Clock y w (chainCount write sigs ss)) :
    ∃ w', get C dbg y o nh iter now (some n) write sigs chain w = (w', if b then .ok () else .error .err) ∧ Did w w' (chainPut putW putS ss) := by
  obtain ⟨w', h1, h2, -⟩ := putChain_ok dbg y ho hp hh hp' hh' ss _ hs w (n := 0) hk
  refine ⟨w', ?_, h2⟩
  unfold LnsCmd.get
  simp only
  rw [hl]
  simp only [Done.get, h1, Done.next]
  cases b <;> rfl

/-- Without a name it is the root. -/
theorem get_root (C : Crypto) (nh : Bytes) (iter : List Tally → List Tally) (now : Nat) (dbg : Bool) {y : Sys} (ho : ¬ Forbids o)
    (hp : ∀ s, Puts write s (putW s)) (hh : ∀ s x, Put.hold x ∉ putW s)
    (hp' : ∀ s, Puts sigs s (putS s)) (hh' : ∀ s x, Put.hold x ∉ putS s) (hk : Clock y w (chainCount write sigs [(rootSent, [])])) (chain : Bool) :
    ∃ w', get C dbg y o nh iter now none write sigs chain w = (w', .ok ()) ∧ Did w w' (chainPut putW putS [(rootSent, [])]) := by
  obtain ⟨w', h1, h2, -⟩ := putChain_ok dbg y ho hp hh hp' hh' [(rootSent, [])] (shown chain rootStep []) (by
    unfold Packed
    rw [show shown chain rootStep [] = [rootStep] by cases chain <;> rfl]
    rw [List.map_singleton, List.map_singleton, rootSent_parts]
    rfl) w (n := 0) hk
  refine ⟨w', ?_, h2⟩
  unfold LnsCmd.get
  simp only [Done.get, h1, Done.next, if_true]

theorem live_public (iter : List Tally → List Tally) (now : Nat) (hn : Name.ofComps comps = .ok n) (hl : ¬ IsLocal comps) :
    liveChain C nh db iter now n = (match runL (lookupPublic db iter n) with
      | .error e => .error e
      | .ok (r, _) => .ok r) := by
  unfold liveChain
  rw [if_neg (fun h => hl ((local_inj hn).1 h))]
  cases runL (lookupPublic db iter n) <;> rfl

/-- `get` of a public name: if there is no claim for its last component, the root is written and the command fails.  Else the claim is written, with
`--chain` after the root, and the votes counted for it go to the destinations for signatures; it is a success if the name has one component. -/
theorem get_public (C : Crypto) (nh : Bytes) {iter : List Tally → List Tally} (hit : ∀ m, (iter m).Perm m) (now : Nat) (dbg : Bool) {y : Sys} (ho : ¬ Forbids o)
    (hp : ∀ s, Puts write s (putW s)) (hh : ∀ s x, Put.hold x ∉ putW s) (hp' : ∀ s, Puts sigs s (putS s)) (hh' : ∀ s x, Put.hold x ∉ putS s)
    (chain : Bool) (hc : Spec.Consistent w.db) (hw : AllShow w.db) (hff : NoOnesKey w.db)
    {rest : List Bytes} {c : Bytes} (hn : Name.ofComps (rest ++ [c]) = .ok n) (hl : ¬ IsLocal (rest ++ [c])) :
    (∃ e, lookupPublic w.db iter n = .error e ∧ get C dbg y o nh iter now (some n) write sigs chain w = (w, .error (.stop e))) ∨
    (∃ is, lookupPublic w.db iter n = .ok ((false, rootStep, []), is) ∧ (Clock y w (chainCount write sigs [(rootSent, [])]) →
      ∃ w', get C dbg y o nh iter now (some n) write sigs chain w = (w', .error .err) ∧ Did w w' (chainPut putW putS [(rootSent, [])]))) ∨
    (∃ b cl votes is s vs, lookupPublic w.db iter n = .ok ((b, ⟨cl, votes⟩, [rootStep]), is) ∧ (b = true ↔ rest = []) ∧ s.parts = cl.pkt ∧
      vs.map Sent.parts = votes.map (·.2) ∧ (∃ i, (i, s.parts) ∈ w.db.log) ∧ vs ≠ [] ∧ vs.length ≤ 7 ∧
      (∀ v ∈ vs, ∃ a ∈ rootKeys, ∃ i, NewestAt w.db publicGroup lnsDomain [ascii "claims", c] a (some (i, v.parts)) ∧ choice v.parts = some s.hash) ∧
      (Clock y w (chainCount write sigs (if chain then [(rootSent, []), (s, vs)] else [(s, vs)])) →
        ∃ w', get C dbg y o nh iter now (some n) write sigs chain w = (w', if b then .ok () else .error .err) ∧
          Did w w' (chainPut putW putS (if chain then [(rootSent, []), (s, vs)] else [(s, vs)])))) := by
  have hlive := live_public (C := C) (nh := nh) (db := w.db) iter now hn hl
  cases hlk : lookupPublic w.db iter n with
  | error e =>
    left
    refine ⟨e, rfl, ?_⟩
    rw [hlk] at hlive
    unfold LnsCmd.get
    simp only
    rw [hlive]
    rfl
  | ok r =>
    right
    obtain ⟨⟨b, s, u⟩, is⟩ := r
    rw [hlk] at hlive
    simp only [runL] at hlive
    rcases chain_public hc hw hff hit hn hlk with ⟨rfl, rfl, rfl⟩ | ⟨rfl, hb, e, he, hcl, hv, hv7, hvotes⟩
    · left
      refine ⟨is, rfl, fun hk => get_chain dbg ho hp hh hp' hh' chain hlive (ss := [(rootSent, [])]) (by
        unfold Packed
        rw [show shown chain rootStep [] = [rootStep] by cases chain <;> rfl]
        rw [List.map_singleton, List.map_singleton, rootSent_parts]
        rfl) hk⟩
    · right
      obtain ⟨cl, votes⟩ := s
      simp only at hcl hv hv7 hvotes
      have hpk := ofPkt_pkt hcl
      obtain ⟨sc, hsc⟩ := stored_sent hw (i := e.1) (p := e.2) he
      obtain ⟨vs, hvs⟩ := sents (fun v : Nat × NetParts => v.2) votes (fun v hv => by
        obtain ⟨a, ha, hna, -⟩ := hvotes v hv
        exact stored_sent hw (i := v.1) (p := v.2) hna.1)
      have hgo := get_chain (y := y) dbg ho hp hh hp' hh' chain hlive (ss := if chain then [(rootSent, []), (sc, vs)] else [(sc, vs)]) (by
        unfold Packed
        cases chain
        · simp only [shown, Bool.false_eq_true, if_false, List.map_singleton, hpk, hsc, hvs]
        · simp only [shown, if_true, List.reverse_cons, List.reverse_nil, List.nil_append, List.singleton_append, List.map_cons, List.map_nil, hpk, hsc, hvs, rootSent_parts]
          rfl)
      refine ⟨b, cl, votes, is, sc, vs, rfl, hb, by rw [hsc, hpk], hvs.symm, ⟨e.1, by rw [hsc]; exact he⟩, ?_, ?_, ?_, hgo⟩
      · rintro rfl
        cases votes with
        | nil => exact hv rfl
        | cons _ _ => cases hvs
      · have := congrArg List.length hvs
        rw [List.length_map, List.length_map] at this
        omega
      · intro v hv
        have : v.parts ∈ votes.map (·.2) := by rw [hvs]; exact List.mem_map.2 ⟨v, hv, rfl⟩
        obtain ⟨x, hx, hxv⟩ := List.mem_map.1 this
        obtain ⟨a, ha, hna, hch⟩ := hvotes x hx
        refine ⟨a, ha, x.1, ?_, ?_⟩
        · rw [← hxv]; exact hna
        · rw [← hxv, hch, ← hsc]; rfl

/-- A claim of a public name of one component that is ahead is written. -/
theorem get_ahead (C : Crypto) (nh : Bytes) {iter : List Tally → List Tally} (hit : ∀ m, (iter m).Perm m) (now : Nat) (dbg : Bool) {y : Sys} (ho : ¬ Forbids o)
    (hp : ∀ s, Puts write s (putW s)) (hh : ∀ s x, Put.hold x ∉ putW s) (hp' : ∀ s, Puts sigs s (putS s)) (hh' : ∀ s x, Put.hold x ∉ putS s)
    (chain : Bool) (hc : Spec.Consistent w.db) (hw : AllShow w.db) (hff : NoOnesKey w.db)
    {c : Bytes} (hn : Name.ofComps [c] = .ok n) (hl : ¬ IsLocal [c]) {f : Bytes → Option (Nat × NetParts)}
    (hf : ∀ a ∈ rootKeys, NewestAt w.db publicGroup lnsDomain [ascii "claims", c] a (f a)) {h : Bytes} (ha : Ahead (rootKeys.map f) h)
    {p : NetParts} (hs : StoredClaim w.db h p [c]) :
    ∃ s vs, s.parts = p ∧ vs ≠ [] ∧ vs.length ≤ 7 ∧
      (∀ v ∈ vs, ∃ a ∈ rootKeys, ∃ i, NewestAt w.db publicGroup lnsDomain [ascii "claims", c] a (some (i, v.parts)) ∧ choice v.parts = some h) ∧
      (Clock y w (chainCount write sigs (if chain then [(rootSent, []), (s, vs)] else [(s, vs)])) →
        ∃ w', get C dbg y o nh iter now (some n) write sigs chain w = (w', .ok ()) ∧
          Did w w' (chainPut putW putS (if chain then [(rootSent, []), (s, vs)] else [(s, vs)]))) := by
  obtain ⟨votes, is, -, -, hfound, -⟩ := public_lookup_partial hc hw hff hit hn hf ha
  have hlk := hfound _ hs.1.choose_spec hs.2.1 _ (stored_claim_read hc hn hs).2
  rcases get_public (y := y) C nh hit now dbg ho hp hh hp' hh' chain hc hw hff (rest := []) hn hl with ⟨e, h1, -⟩ | ⟨is', h1, -⟩ |
    ⟨b, cl, votes', is', s, vs, h1, h2, h3, -, -, h6, h6', h7, h8⟩
  · rw [hlk] at h1; cases h1
  · rw [hlk] at h1; cases h1
  · rw [hlk] at h1
    cases h1
    have hsh : s.hash = h := by
      have : s.parts.hash = h := by rw [h3]; exact hs.2.1
      exact this
    refine ⟨s, vs, h3, h6, h6', ?_, h8⟩
    rw [← hsh]
    exact h7

/-- `get` of a local name: the first point of its place is written, if that is a claim of the name.  If there is none, a claim made up for the name is written
before the command fails. -/
theorem get_local (L : C.Laws) (hnh : nh.length = 32) (iter : List Tally → List Tally) {now : Nat} (dbg : Bool) {y : Sys} (ho : ¬ Forbids o)
    (hp : ∀ s, Puts write s (putW s)) (hh : ∀ s x, Put.hold x ∉ putW s) (hp' : ∀ s, Puts sigs s (putS s)) (hh' : ∀ s x, Put.hold x ∉ putS s)
    (hk : Clock y w (dbCount write)) (chain : Bool) (h1 : 1 < now) (h2 : now < 2 ^ 64) (hc : Spec.Consistent w.db) (hw : AllShow w.db) (hff : NoOnesKey w.db)
    (hn : Name.ofComps comps = .ok n) (hl : IsLocal comps) :
    (∀ e c lc, LeadAt w.db (List.replicate 32 0) (List.replicate 13 0 ++ ascii "lns") (ascii "claims" :: comps.reverse) none now (some e) → e.2.parts = c.parts → c.Valid →
      IsClaim c comps lc → ∃ s w', s.parts = e.2 ∧ get C dbg y o nh iter now (some n) write sigs chain w = (w', .ok ()) ∧ Did w w' (chainPut putW putS [(s, [])])) ∧
    (∀ e, LeadAt w.db (List.replicate 32 0) (List.replicate 13 0 ++ ascii "lns") (ascii "claims" :: comps.reverse) none now (some e) →
      (¬ ∃ c lc, e.2.parts = c.parts ∧ c.Valid ∧ IsClaim c comps lc) → get C dbg y o nh iter now (some n) write sigs chain w = (w, .error .err)) ∧
    (LeadAt w.db (List.replicate 32 0) (List.replicate 13 0 ++ ascii "lns") (ascii "claims" :: comps.reverse) none now none →
      ∃ s w', ClaimMade C nh comps [⟨List.replicate 16 255, List.replicate 32 0⟩] [] s ∧
        get C dbg y o nh iter now (some n) write sigs chain w = (w', .error .err) ∧ Did w w' (chainPut putW putS [(s, [])])) := by
  obtain ⟨r, x1, x2⟩ := private_lead hn (admin := none) nofun h1 h2 hc hw hff
  have hlive : liveChain C nh w.db iter now n = (match (generalizing := false) r with
      | some p => (match tryL (Claim.ofPkt p.2) with
        | .error e => .error e
        | .ok c => .ok (true, ⟨c, []⟩, []))
      | none => (match dummyRoot C nh n with
        | .error e => .error e
        | .ok c => .ok (false, ⟨c, []⟩, []))) := by
    unfold liveChain
    rw [if_pos ((local_inj hn).2 hl), x2]
    cases r <;> rfl
  have hone : ∀ (cl : Claim) (s : Sent), s.parts = cl.pkt → Packed (shown chain ⟨cl, []⟩ []) [(s, [])] := by
    intro cl s hs
    unfold Packed
    rw [show shown chain ⟨cl, []⟩ [] = [⟨cl, []⟩] by cases chain <;> rfl]
    simp [hs]
  refine ⟨?_, ?_, ?_⟩
  · intro e c lc he hpc hv hic
    cases lead_unique x1 he
    have ho' := (claim_of_parts hpc hv ⟨e.2, n⟩).2 ⟨comps, lc, hic, rfl, hn⟩
    simp only [ho', tryL] at hlive
    obtain ⟨s, hs⟩ := stored_sent hw (i := e.1) (p := e.2) x1.1
    obtain ⟨w', g1, g2⟩ := get_chain dbg ho hp hh hp' hh' chain hlive (hone _ s hs) (by simpa [chainCount] using hk)
    exact ⟨s, w', hs, g1, g2⟩
  · intro e he hno
    cases lead_unique x1 he
    unfold LnsCmd.get
    simp only
    rw [hlive]
    have hpc := place_claim hn x1.2.1
    cases ho' : Claim.ofPkt e.2 with
    | ok cl =>
      obtain ⟨-, c, lc, q1, q2, q3⟩ := (hpc cl).1 ho'
      exact absurd ⟨c, lc, q1, q2, q3⟩ hno
    | error f =>
      cases f with
      | err _ => simp only [ho', tryL, Done.get]
      | panic =>
        obtain ⟨_, c, cs, ⟨hp, hv⟩, -⟩ := hw e.1 e.2 x1.1
        exact absurd ho' (claim_of_parts_no_panic hp hv)
  · intro he
    cases lead_unique x1 he
    obtain ⟨s, d1, d2⟩ := dummy_made L hnh hn
    simp only [d1] at hlive
    obtain ⟨w', g1, g2⟩ := get_chain dbg ho hp hh hp' hh' chain hlive (hone ⟨s.parts, n⟩ s rfl) (by simpa [chainCount] using hk)
    exact ⟨s, w', d2, g1, g2⟩

end

/-! ### cases -/

/-- What is put where: to standard output, and into the database. -/
def outAndDb : List Dest := [{ out := .fd stdout }, { out := .db }]
def putBoth (s : Sent) : List Put := [.file stdout s.bytes, .save]
theorem puts_both (s : Sent) : Puts outAndDb s (putBoth s) := .file stdout (.save none (.nil s))
theorem both_free (s : Sent) (x : Bytes) : Put.hold x ∉ putBoth s := by unfold putBoth; simp
/-- A clock that ticks. -/
def tickSys : Sys := { now := fun n => 1000 + n }
theorem tick_clock {db : Db} (hc : Spec.Consistent db) (hl : ∀ e ∈ db.log, e.1 < 1000) {n : Nat} (hn : n < 1000) : Clock tickSys { db } n :=
  .inr ⟨fun _ _ => rfl, hc, hl, fun i hi => by show 1000 + (0 + i) < 1000 + (0 + i + 1) ∧ 1000 + (0 + i) + 1 < 2 ^ 64; omega⟩

/-- `create-claim` of `shop:com` with a group, a key and an authority. -/
def exShop : List Bytes := [ascii "shop", ascii "com"]
def exCreate : Create where
  name := ⟨encodeSpace exShop.reverse, false⟩
  group := some (List.replicate 32 3)
  pubkey := some (List.replicate 32 4)
  auth := [⟨List.replicate 13 0 ++ ascii "bob", List.replicate 32 6⟩]
  until_ := 5000
  write := outAndDb
theorem exShop_name : Name.ofComps exShop = .ok exCreate.name :=
  (name_of_iff _ _).2 ⟨⟨by unfold exShop; simp, by decide, by unfold exShop; simp [ascii], by decide⟩, rfl, by unfold IsLocal; decide⟩
theorem exCreate_sized : CreateSized exCreate exCreate.pubkey :=
  ⟨fun g hg => by cases hg; rfl, fun k hk => by cases hk; rfl, by unfold LinksSized; decide, by decide⟩
example : ∃ s w', create toyCrypto true tickSys {} (List.replicate 32 0) id 7 exCreate {} = (w', .ok ()) ∧
    Did {} w' [(s, .file stdout s.bytes), (s, .save)] ∧
    ∃ cl, Claim.ofPkt s.parts = .ok cl ∧ cl.until = .ok 5000 ∧ cl.group = some (List.replicate 32 3) ∧ cl.pubkey = some (List.replicate 32 4) ∧
      cl.authorities = [List.replicate 32 4, List.replicate 32 6] := by
  obtain ⟨-, h⟩ := create_spec (nh := List.replicate 32 0) toyCrypto_laws rfl true tickSys {} id 7 (c := exCreate) {} exShop_name (.given rfl rfl) exCreate_sized rfl
  obtain ⟨-, -, h⟩ := h (by decide) (by decide)
  obtain ⟨s, w', h1, h2, h3, cl, h4, -, h5, h6, h7, h8⟩ := h (by decide) (by decide) (fun _ => by decide) (fun s _ => puts_both s) both_free
    (tick_clock empty_consistent (by simp) (by decide))
  exact ⟨s, w', h1, h3, cl, h4, h5, h6, h7, h8⟩

/-- The key of a name nobody has claimed is asked for: the claim is made without a key. -/
theorem copy_missing : ∃ s w', create toyCrypto true tickSys {} (List.replicate 32 0) id 7 { exCreate with pubkey := none, auth := [], copyFrom := some nameMe } {} = (w', .ok ()) ∧
    Did {} w' [(s, .file stdout s.bytes), (s, .save)] ∧ ∃ cl, Claim.ofPkt s.parts = .ok cl ∧ cl.pubkey = none ∧ cl.authorities = [] := by
  obtain ⟨-, h⟩ := create_spec (nh := List.replicate 32 0) toyCrypto_laws rfl true tickSys {} id 7
    (c := { exCreate with pubkey := none, auth := [], copyFrom := some nameMe }) {} exShop_name (.copied (key := none) rfl rfl rfl (by decide +kernel))
    ⟨fun g hg => by cases hg; rfl, nofun, by unfold LinksSized; decide, by decide⟩ rfl
  obtain ⟨-, -, h⟩ := h (by decide) (by decide)
  obtain ⟨s, w', h1, h2, h3, cl, h4, -, -, -, h7, h8⟩ := h (by decide) (by decide) (fun _ => by decide) (fun s _ => puts_both s) both_free
    (tick_clock empty_consistent (by simp) (by decide))
  exact ⟨s, w', h1, h3, cl, h4, h7, h8⟩

/-- The keys of the root. -/
def rootCrypto : Crypto where
  hash b := 99 :: (toyCrypto.hash b).drop 1
  Key := UInt8
  pubkey k := rootKeys.getD k.toNat (List.replicate 32 k)
  sign k h := rootKeys.getD k.toNat (List.replicate 32 k) ++ (h ++ List.replicate 32 0).take 32
  verify pk sig h := sig == pk ++ (h ++ List.replicate 32 0).take 32
theorem rootCrypto_laws : rootCrypto.Laws where
  hash_len b := by
    show (99 :: (toyCrypto.hash b).drop 1).length = 32
    rw [List.length_cons, List.length_drop, toyCrypto_laws.hash_len]
  pub_len k := by revert k; apply Abtxt.all_u8; decide +kernel
  sign_len (k : UInt8) h := by
    have : ∀ k : UInt8, (rootKeys.getD k.toNat (List.replicate 32 k)).length = 32 := by apply Abtxt.all_u8; decide +kernel
    show (rootKeys.getD k.toNat (List.replicate 32 k) ++ (h ++ List.replicate 32 0).take 32).length = 64
    rw [List.length_append, List.length_take, List.length_append, List.length_replicate, this]; omega
  verify_sign k h := beq_self_eq_true _

/-- Three votes for the claim 1 and two for the claim 2. -/
def exThree : List (NetParts × TreeTuple) :=
  [(exClaim [ascii "com"] 1, exClaimTuple [ascii "com"] 1),
   (exClaim [ascii "com"] 2, exClaimTuple [ascii "com"] 2),
   (exVote 0 (ascii "com") 1 10 11, exVoteTuple 0 (ascii "com") 10 11),
   (exVote 1 (ascii "com") 2 11 12, exVoteTuple 1 (ascii "com") 11 12),
   (exVote 2 (ascii "com") 1 12 13, exVoteTuple 2 (ascii "com") 12 13),
   (exVote 3 (ascii "com") 2 13 14, exVoteTuple 3 (ascii "com") 13 14),
   (exVote 4 (ascii "com") 1 14 15, exVoteTuple 4 (ascii "com") 14 15)]
def exThreeDb : Db := saved (exThree.map (·.1))
def exThreeAnswers (a : Bytes) : Option (Nat × NetParts) := ((listed exThree).filter fun x => x.2.pubkey == a).getLast?.map (·.1)
theorem exThree_has : ∀ x ∈ exThree, HasTuple x.1 x.2 := by
  intro x hx
  simp only [exThree, List.mem_cons, List.not_mem_nil, or_false] at hx
  rcases hx with rfl | rfl | rfl | rfl | rfl | rfl | rfl
  · exact exClaim_has _ _ exCom_space (by decide) (by decide)
  · exact exClaim_has _ _ exCom_space (by decide) (by decide)
  all_goals exact exVote_has _ _ _ _ _ exCom_space (by decide) (by decide +kernel)
theorem exThree_log : exThreeDb.log = (listed exThree).map (·.1) := by decide +kernel
theorem exCom_claim (db : Db) (i : Nat) (h : (i, exClaim [ascii "com"] 1) ∈ db.log) : StoredClaim db (List.replicate 32 1) (exClaim [ascii "com"] 1) [ascii "com"] :=
  ⟨⟨i, h⟩, rfl, .link (exClaimContent [ascii "com"]), exClaimContent [ascii "com"], rfl,
    ⟨by decide, by decide, by decide, by decide, by unfold LinksSized; decide, rooted_check_accepts _ exCom_space (by decide)⟩,
    rfl, ((name_of_iff _ _).1 exVoteDb_meets.2.2.2.1).1, rfl, ⟨fun h => absurd h (by unfold IsLocal; decide), fun _ => rfl⟩, by decide, by decide⟩

/-- The vote of the sixth key for the claim 1, saved, makes it the claim of `com`. -/
example : ∃ w', vote rootCrypto true tickSys {} (List.replicate 32 0) id 7 500 exComName (List.replicate 32 1) (6 : UInt8) outAndDb { db := exThreeDb } = (w', .ok ()) ∧
    ∃ votes is, lookupPublic w'.db id exComName = .ok ((true, ⟨⟨exClaim [ascii "com"] 1, exComName⟩, votes⟩, [rootStep]), is) := by
  refine vote_decides (C := rootCrypto) rootCrypto_laws rfl true tickSys {} id (fun _ => .refl _) 7 (by decide) exVoteDb_meets.2.2.2.1 (by unfold IsLocal; decide)
    (write := outAndDb) (w := { db := exThreeDb })
    (saved_consistent _) (listed_show exThree_has exThree_log) (listed_keys exThree_has exThree_log (by decide +kernel)) (exCom_claim _ 100 (by decide +kernel))
    (by decide +kernel) (fun s _ => puts_both s) both_free (fun s => by unfold putBoth; simp) (tick_clock (saved_consistent _) (by decide +kernel) (by decide))
    ?_ ?_ (f := exThreeAnswers) ?_ (by decide +kernel)
  · intro s hs e he hh
    have : ∀ e ∈ exThreeDb.log, e.2.hash.head? ≠ some 99 := by decide +kernel
    exact this e he (by rw [hh, hs.hash]; rfl)
  · intro e he _
    have : ∀ e ∈ exThreeDb.log, e.2.getCreate < 500 := by decide +kernel
    exact this e he
  · have : ∀ a ∈ rootKeys, newestOk (listed exThree) publicGroup lnsDomain [ascii "claims", ascii "com"] a (exThreeAnswers a) = true := by decide +kernel
    exact fun a ha => newest_listed exThree_log (listed_has exThree_has) (this a ha)

/-- `get --chain` of `com`: the root, the claim and its votes. -/
example : ∃ s vs, s.parts = exClaim [ascii "com"] 1 ∧ vs ≠ [] ∧
    ∃ w', get toyCrypto true tickSys {} (List.replicate 32 0) id 7 (some exComName) outAndDb [{ out := .fd stdout }] true { db := exVoteDb } = (w', .ok ()) ∧
      Did { db := exVoteDb } w' ([(rootSent, .file stdout rootSent.bytes), (rootSent, .save), (s, .file stdout s.bytes), (s, .save)] ++ vs.flatMap fun v => [(v, .file stdout v.bytes)]) := by
  obtain ⟨m1, m2, m3, m4, m5, m6, -⟩ := exVoteDb_meets
  obtain ⟨s, vs, h1, h2, -, -, h3⟩ := get_ahead (y := tickSys) (w := { db := exVoteDb }) (o := {}) toyCrypto (List.replicate 32 0) (iter := id) (fun _ => .refl _) 7 true (by decide) puts_both both_free
    (fun s => .file stdout (.nil s)) (sigs := [{ out := .fd stdout }]) (putS := fun s => [.file stdout s.bytes]) (fun s x => by simp) true m1 m2 m3 m4 (by unfold IsLocal; decide)
    m5 m6 (exCom_claim _ 100 (by decide +kernel))
  obtain ⟨w', h4, h5⟩ := h3 (tick_clock m1 (by decide +kernel) (by simp [chainCount, dbCount, outAndDb]))
  refine ⟨s, vs, h1, h2, w', h4, ?_⟩
  simpa [chainPut, allPut, putBoth] using h5
/-- No claim of a local name in an empty database: one is made up, printed and saved, and the command fails. -/
example : ∃ s w', get toyCrypto true tickSys {} (List.replicate 32 0) id 7 (some nameMe) outAndDb [] true {} = (w', .error .err) ∧
    Did {} w' [(s, .file stdout s.bytes), (s, .save)] := by
  obtain ⟨-, -, h⟩ := get_local (y := tickSys) (w := {}) (o := {}) (comps := exMe) (n := nameMe) (write := outAndDb) (sigs := []) (putW := putBoth) (putS := fun _ => [])
    toyCrypto_laws (nh := List.replicate 32 0) rfl id (now := 7) true (by decide) puts_both both_free (fun s => .nil s) (fun s x => by simp)
    (tick_clock empty_consistent (by simp) (by decide)) true (by decide) (by decide) empty_consistent (fun i p h => by cases h) (fun i p t h => by cases h) nameMe_of (by unfold IsLocal; decide)
  obtain ⟨s, w', -, h2, h3⟩ := h (fun e he => by cases he)
  refine ⟨s, w', h2, ?_⟩
  simpa [chainPut, allPut, putBoth] using h3

end Verif.Props
