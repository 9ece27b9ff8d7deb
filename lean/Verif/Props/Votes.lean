import Verif.Lemmas.Place
import Verif.Lemmas.Votes
import Verif.Props.Name
/-!
# C52: looking up a public name
-/
namespace Verif.Props
open Verif Verif.Pkt Verif.Tree Verif.Pred Verif.Env Verif.Spec Verif.Query Verif.Lns Verif.Shake

theorem tuple_unique {p : NetParts} {t u : TreeTuple} (ht : HasTuple p t) (hu : HasTuple p u) : t = u := by
  obtain ⟨_, _, _, _, _, _, _, _, a1, a2, he⟩ := fromPkt_of_tuple ht 0
  obtain ⟨_, _, _, _, _, _, _, _, b1, b2, _⟩ := fromPkt_of_tuple hu 0
  have k1 := keyOf_pkt ht he
  have k2 := keyOf_pkt hu he
  obtain ⟨g, d, s, k, c, h⟩ := t
  obtain ⟨g', d', s', k', c', h'⟩ := u
  have e1 : g = g' := k1.keyGroup.symm.trans k2.keyGroup
  have e2 : d = d' := k1.keyDomain.symm.trans k2.keyDomain
  have e3 : k = k' := k1.keyPubkey.symm.trans k2.keyPubkey
  have e4 : encodeSpace s = encodeSpace s' := k1.keySpace.symm.trans k2.keySpace
  have e5 : s = s' := by
    have h1 := k1.space
    have h2 := k2.space
    simp only at h1 h2
    rw [← e4] at h2
    exact space_unique _ _ _ h1 h2
  have e6 : c = c' := a2.symm.trans b2
  have e7 : h = h' := a1.trans b1.symm
  rw [e1, e2, e3, e5, e6, e7]

theorem before_older {g d : Bytes} {cs : List Bytes} {k : Bytes} {p q : NetParts} (hp : At g d cs k p) (hq : At g d cs k q)
    (h : TreeBefore false p q) : Older q p := by
  obtain ⟨a, b, ha, hb, h⟩ := h
  obtain ⟨t, ht, t1, t2, t3, t4⟩ := hp
  obtain ⟨u, hu, u1, u2, u3, u4⟩ := hq
  cases tuple_unique ha ht
  cases tuple_unique hb hu
  have hkey : a.KeyEq b := ⟨t1.trans u1.symm, t2.trans u2.symm, t3.trans u3.symm, t4.trans u4.symm⟩
  rcases h with h | ⟨-, h⟩
  · exfalso
    obtain ⟨h1, h2, h3, h4⟩ := hkey
    have no : ∀ x : Bytes, ¬ BytesBefore x x := fun x hx => by
      have := (bytesBefore_iff _ _).1 hx
      rw [bytesLt_irrefl] at this; cases this
    unfold TreeTuple.KeyLt LexLt at h
    rw [h1, h2, h3, h4] at h
    simp [LexLt, no] at h
  · simp only [Bool.false_eq_true, if_false] at h
    obtain ⟨_, _, _, _, _, _, _, _, a1, a2, _⟩ := fromPkt_of_tuple ha 0
    obtain ⟨_, _, _, _, _, _, _, _, b1, b2, _⟩ := fromPkt_of_tuple hb 0
    unfold Older
    rw [a2, b2, ← a1, ← b1]
    rcases h with h | ⟨h, h' | ⟨-, h'⟩⟩
    · exact .inl h
    · exact .inr ⟨h, h'⟩
    · exact h'.elim

/-- No stored point is signed with the key of all ones, see `last_key_hangs`. -/
def NoOnesKey (db : Db) : Prop := ∀ i p t, (i, p) ∈ db.log → HasTuple p t → t.pubkey ≠ List.replicate 32 255

theorem votePreds_place (g : Bytes) (cs : List Bytes) (a : Bytes) : votePreds g (rootedOf cs) a = (placeAbs g lnsDomain cs 2 a).preds := by
  have h : (votePreds g (rootedOf cs) a).set = (placeAbs g lnsDomain cs 2 a).set := by
    funext f
    cases f <;> rfl
  show Preds.mk (votePreds g (rootedOf cs) a).set _ _ _ = Preds.mk (placeAbs g lnsDomain cs 2 a).set _ _ _
  rw [h]
  rfl

/-- The vote of an authority is its newest point at the place. -/
theorem vote_newest {g : Bytes} {cs : List Bytes} {a : Bytes} (hg : g.length = 32) (ha : a.length = 32) (hsp : IsSpace (encodeSpace cs) cs)
    (h2 : cs.length = 2) {db : Db} (hc : Consistent db) (hw : AllShow db) (hff : NoOnesKey db) {r : Option (Nat × NetParts)}
    (hr : NewestAt db g lnsDomain cs a r) : getFirst db ⟨.tree, false⟩ (votePreds g (rootedOf cs) a) = .ok r := by
  obtain ⟨r', h1, h2⟩ := place_first hg (d := lnsDomain) (by decide) ha hsp (by omega) h2.symm hc (allProper_allShow.2 hw) (.inr hff) false
  rw [votePreds_place, h1]
  cases r' with
  | none =>
    cases r with
    | none => rfl
    | some e => exact absurd hr.2.1 (h2 e hr.1)
  | some e' =>
    obtain ⟨x1, x2, x3⟩ := h2
    cases r with
    | none => exact absurd x2 (hr e' x1)
    | some e =>
      rcases hr.2.2 e' x1 x2 with h | h
      · rw [h]
      · rcases x3 e hr.1 hr.2.1 with h' | h'
        · rw [h']
        · exfalso
          have h' := before_older x2 hr.2.1 h'
          unfold Older at h h'
          rcases h with h | ⟨h, hh⟩
          · rcases h' with h' | ⟨h', -⟩ <;> omega
          · rcases h' with h' | ⟨-, hh'⟩
            · omega
            · have y1 := (bytesBefore_iff _ _).1 hh
              have y2 := (bytesBefore_iff _ _).1 hh'
              have := bytesLt_trans y1 y2
              rw [bytesLt_irrefl] at this; cases this

theorem read_total {db : Db} (hc : Consistent db) (hw : AllShow db) (h : Bytes) : ∃ x, readClaim db h = .ok x := by
  unfold readClaim
  cases hr : db.read h with
  | none => exact ⟨_, rfl⟩
  | some e =>
    obtain ⟨i, p⟩ := e
    obtain ⟨h1, -⟩ := (read_hash_iff hc h i p).1 hr
    obtain ⟨x, c, cs, hp, -⟩ := hw i p h1
    have := claim_of_parts_no_panic hp.parts hp.valid
    simp only
    cases hcl : Claim.ofPkt p with
    | ok cl => exact ⟨_, rfl⟩
    | error e =>
      cases e with
      | err e => exact ⟨_, rfl⟩
      | panic => exact absurd hcl this

/-- A claim that can stand for `h`. -/
theorem readClaim_iff {db : Db} (hc : Consistent db) {h : Bytes} {o : Option Claim} {is : List Issue} (hr : readClaim db h = .ok (o, is)) (cl : Claim) :
    o = some cl ↔ ∃ e ∈ db.log, e.2.hash = h ∧ Claim.ofPkt e.2 = .ok cl := by
  unfold readClaim at hr
  cases hd : db.read h with
  | none =>
    rw [hd] at hr
    injection hr with hr
    injection hr with hr _
    subst hr
    constructor
    · nofun
    · rintro ⟨⟨i, p⟩, h1, h2, -⟩
      have := (read_hash_iff hc h i p).2 ⟨h1, h2⟩
      rw [hd] at this; cases this
  | some e =>
    obtain ⟨i, p⟩ := e
    obtain ⟨h1, h2⟩ := (read_hash_iff hc h i p).1 hd
    have huniq : ∀ e ∈ db.log, e.2.hash = h → e = (i, p) := by
      rintro ⟨j, q⟩ hj hq
      obtain ⟨rfl, rfl⟩ := log_unique hc hj h1 (hq.trans h2.symm)
      rfl
    rw [hd] at hr
    simp only at hr
    constructor
    · rintro rfl
      refine ⟨(i, p), h1, h2, ?_⟩
      split at hr
      · rename_i c hcl
        injection hr with hr
        injection hr with hr _
        injection hr with hr
        rw [← hr]; exact hcl
      · injection hr with hr
        injection hr with hr _
        cases hr
      · cases hr
    · rintro ⟨e, he, heh, hcl⟩
      cases huniq e he heh
      simp only at hcl
      rw [hcl] at hr
      injection hr with hr
      injection hr with hr _
      exact hr.symm

/-- What is counted at a claim whose space has one component. -/
theorem step_counts {db : Db} (hc : Consistent db) (hw : AllShow db) (hff : NoOnesKey db) {cur : Step} {c0 sub : Bytes}
    (hr : getRspace cur.claim.pkt = rootedOf [c0]) (hg : cur.claim.pkt.getGroup.length = 32) (hl : ∀ a ∈ cur.claim.authorities, a.length = 32)
    (hsp : IsSpace (encodeSpace [c0, sub]) [c0, sub])
    {f : Bytes → Option (Nat × NetParts)} (hf : ∀ a ∈ cur.claim.authorities, NewestAt db cur.claim.pkt.getGroup lnsDomain [c0, sub] a (f a)) :
    ∃ m is k, Lns.Counted db m ((cur.claim.authorities.map f).take k) ∧
      ((cur.claim.authorities.map f).length ≤ k ∨ ∃ h, ((cur.claim.authorities.map f).length + 1) / 2 ≤ (votesFor ((cur.claim.authorities.map f).take k) h).length) ∧
      ∀ iter up comps, walk db iter cur up (sub :: comps) = (match outcome (iter m) with
        | .nobody => .ok ((false, cur, up), is)
        | .tie ts => .ok ((false, cur, up), is ++ [.tie ts])
        | .live t =>
          match t.claim with
          | none => .ok ((false, cur, up), is ++ [.unknownLive t.hash])
          | some c => noting is (walk db iter ⟨c, t.votes⟩ (cur :: up) comps)) := by
  have h0 : IsSpace (encodeSpace [c0]) [c0] := by
    refine ⟨?_, rfl, ?_⟩
    · have := hsp.comps
      rw [ValidComps.cons_iff] at this
      exact ValidComps.cons_iff.2 ⟨this.1, .nil⟩
    · have := hsp.size
      rw [Space.encodeSpace_cons, List.length_cons, List.length_append] at this ⊢
      have e : (encodeSpace ([] : List Bytes)).length = 0 := rfl
      omega
  have happ : Rooted.tryAppendComponent (getRspace cur.claim.pkt) sub = .ok (rootedOf [c0, sub]) := by
    rw [hr]
    exact (rooted_append_iff [c0] sub _ h0 (by simp)).2 ⟨rfl, hsp, by simp⟩
  obtain ⟨m, is, k, h1, h2, h3⟩ := collect_spec (db := db) (f := f) (parent := cur.claim.pkt.hash)
    (ask := fun a => getFirst db ⟨.tree, false⟩ (votePreds cur.claim.pkt.getGroup (rootedOf [c0, sub]) a))
    (need := (cur.claim.authorities.length + 1) / 2) (read_total hc hw) cur.claim.authorities
    (fun a hal => vote_newest hg (hl a hal) hsp rfl hc hw hff (hf a hal)) (Counted.nil db)
  rw [List.nil_append] at h2 h3
  have hlen : (cur.claim.authorities.map f).length = cur.claim.authorities.length := List.length_map ..
  rw [← hlen] at h3
  refine ⟨m, is, k, h2, h3, ?_⟩
  intro iter up comps
  rw [walk.eq_def]
  simp only
  rw [happ]
  simp only
  rw [h1]
  simp only
  cases outcome (iter m) with
  | nobody => rfl
  | tie ts => rfl
  | live t =>
    simp only
    generalize t.claim = o
    cases o <;> rfl

/-- **C52**, one level: at a claim whose space has one component, the votes are the newest points of its authorities at the space below it. If one
claim is ahead of all others, it is the one that is followed, whatever the order of the map, and if it is not stored or not a claim the name is
not found.

The full statement has no condition on the depth of the space, which the code fixes to two, see `subname_not_found`; no condition on the
claim that is ahead, see `tie_hidden`; none on the key of all ones; and it asks that the claim be one of the name looked up, see
`other_name_found`, and not be over. -/
theorem lookup_step_partial {db : Db} (hc : Consistent db) (hw : AllShow db) (hff : NoOnesKey db) {iter : List Tally → List Tally}
    (hit : ∀ m, (iter m).Perm m) {cur : Step} (up : List Step) {c0 sub : Bytes} (comps : List Bytes) (hr : getRspace cur.claim.pkt = rootedOf [c0])
    (hg : cur.claim.pkt.getGroup.length = 32) (hl : ∀ a ∈ cur.claim.authorities, a.length = 32) (hsp : IsSpace (encodeSpace [c0, sub]) [c0, sub])
    {f : Bytes → Option (Nat × NetParts)} (hf : ∀ a ∈ cur.claim.authorities, NewestAt db cur.claim.pkt.getGroup lnsDomain [c0, sub] a (f a))
    {h : Bytes} (ha : Ahead (cur.claim.authorities.map f) h) :
    ∃ votes is, votes ≠ [] ∧ (∀ v ∈ votes, v ∈ votesFor (cur.claim.authorities.map f) h) ∧
      (∀ e ∈ db.log, e.2.hash = h → ∀ cl, Claim.ofPkt e.2 = .ok cl →
        walk db iter cur up (sub :: comps) = noting is (walk db iter ⟨cl, votes⟩ (cur :: up) comps)) ∧
      ((∀ e ∈ db.log, e.2.hash = h → ∀ cl, Claim.ofPkt e.2 ≠ .ok cl) →
        walk db iter cur up (sub :: comps) = .ok ((false, cur, up), is ++ [.unknownLive h])) := by
  obtain ⟨m, is, k, h2, h3, hwk⟩ := step_counts hc hw hff hr hg hl hsp hf
  obtain ⟨t, js, o1, o2, o3, o4, o5⟩ := ahead_wins h2 h3 (hit m) ha (by
    intro v hv
    obtain ⟨a, hal, hav⟩ := List.mem_map.1 hv
    have := hf a hal
    rw [hav] at this
    obtain ⟨t, ht, -⟩ := this.2.1
    obtain ⟨_, _, _, _, _, _, b1, _, _, b2, _⟩ := fromPkt_of_tuple ht 0
    rw [b2]; exact b1)
  have hwalk : walk db iter cur up (sub :: comps) = (match t.claim with
      | none => .ok ((false, cur, up), is ++ [.unknownLive t.hash])
      | some c => noting is (walk db iter ⟨c, t.votes⟩ (cur :: up) comps)) := by
    rw [hwk]
    rw [o1]
  refine ⟨t.votes, is, o4, ?_, ?_, ?_⟩
  · intro v hv
    rw [o3, votesFor_mem] at hv
    exact votesFor_mem.2 ⟨List.mem_of_mem_take hv.1, hv.2⟩
  · intro e he heh cl hcl
    have : t.claim = some cl := (readClaim_iff hc o5 cl).2 ⟨e, he, heh, hcl⟩
    rw [hwalk, this]
  · intro hno
    have : t.claim = none := by
      cases ht : t.claim with
      | none => rfl
      | some cl =>
        obtain ⟨e, he, heh, hcl⟩ := (readClaim_iff hc o5 cl).1 ht
        exact absurd hcl (hno e he heh cl)
    rw [hwalk, this, o2]

/-! ### the public names -/

/-- The keys of the seven authorities of the root. -/
def rootKeys : List Bytes := rootStep.claim.authorities
theorem rootKeys_seven : rootKeys.length = 7 ∧ (∀ a ∈ rootKeys, a.length = 32) ∧ rootKeys.Nodup := by decide +kernel
theorem root_place : getRspace rootStep.claim.pkt = rootedOf [ascii "claims"] ∧ rootStep.claim.pkt.getGroup = publicGroup := by decide +kernel

theorem lookup_one (db : Db) (iter : List Tally → List Tally) {c : Bytes} {n : Name} (hn : Name.ofComps [c] = .ok n) :
    IsSpace (encodeSpace [ascii "claims", c]) [ascii "claims", c] ∧ lookupPublic db iter n = walk db iter rootStep [] [c] := by
  obtain ⟨g1, g2, -⟩ := (name_of_iff _ _).1 hn
  have hsp := (claims_valid g1).1
  simp only [List.reverse_singleton] at hsp g2
  have hiter : Space.iter n.space = .ok [c] := by
    rw [g2]
    refine space_iter _ _ ⟨(ValidComps.cons_iff.1 hsp.comps).2, rfl, ?_⟩
    have := hsp.size
    rw [Space.encodeSpace_cons, List.length_cons, List.length_append] at this
    omega
  exact ⟨hsp, by unfold lookupPublic; rw [hiter]⟩

/-- **C52**, names of one component. -/
theorem public_lookup_partial {db : Db} (hc : Consistent db) (hw : AllShow db) (hff : NoOnesKey db) {iter : List Tally → List Tally}
    (hit : ∀ m, (iter m).Perm m) {c : Bytes} {n : Name} (hn : Name.ofComps [c] = .ok n) {f : Bytes → Option (Nat × NetParts)}
    (hf : ∀ a ∈ rootKeys, NewestAt db publicGroup lnsDomain [ascii "claims", c] a (f a)) {h : Bytes} (ha : Ahead (rootKeys.map f) h) :
    ∃ votes is, votes ≠ [] ∧ (∀ v ∈ votes, v ∈ votesFor (rootKeys.map f) h) ∧
      (∀ e ∈ db.log, e.2.hash = h → ∀ cl, Claim.ofPkt e.2 = .ok cl → lookupPublic db iter n = .ok ((true, ⟨cl, votes⟩, [rootStep]), is)) ∧
      ((∀ e ∈ db.log, e.2.hash = h → ∀ cl, Claim.ofPkt e.2 ≠ .ok cl) → lookupPublic db iter n = .ok ((false, rootStep, []), is ++ [.unknownLive h])) := by
  obtain ⟨hsp, hlook⟩ := lookup_one db iter hn
  rw [hlook]
  obtain ⟨votes, is, h1, h2, h3, h4⟩ := lookup_step_partial hc hw hff hit (cur := rootStep) [] [] root_place.1 (by rw [root_place.2]; decide)
    rootKeys_seven.2.1 hsp (f := f) (by rw [root_place.2]; exact hf) ha
  refine ⟨votes, is, h1, h2, ?_, h4⟩
  intro e he heh cl hcl
  rw [h3 e he heh cl hcl]
  show (.ok (_, is ++ []) : QRes _) = _
  rw [List.append_nil]

/-- The lookup of a name of one component always ends. It finds the name only if somebody voted, and then it gives a stored claim, with votes for
it, that no other claim has more votes than. -/
theorem public_lookup_most {db : Db} (hc : Consistent db) (hw : AllShow db) (hff : NoOnesKey db) {iter : List Tally → List Tally}
    (hit : ∀ m, (iter m).Perm m) {c : Bytes} {n : Name} (hn : Name.ofComps [c] = .ok n) {f : Bytes → Option (Nat × NetParts)}
    (hf : ∀ a ∈ rootKeys, NewestAt db publicGroup lnsDomain [ascii "claims", c] a (f a)) :
    ∃ b s u is, lookupPublic db iter n = .ok ((b, s, u), is) ∧ ((∀ h, votesFor (rootKeys.map f) h = []) → b = false) ∧
      (b = false → s = rootStep ∧ u = []) ∧
      (b = true → u = [rootStep] ∧ ∃ e ∈ db.log, Claim.ofPkt e.2 = .ok s.claim ∧ s.votes ≠ [] ∧ (∀ v ∈ s.votes, v ∈ votesFor (rootKeys.map f) e.2.hash) ∧
        ∀ h', (votesFor (rootKeys.map f) h').length ≤ (votesFor (rootKeys.map f) e.2.hash).length) := by
  obtain ⟨hsp, hlook⟩ := lookup_one db iter hn
  rw [hlook]
  obtain ⟨m, is, k, h2, h3, hwk⟩ := step_counts hc hw hff (cur := rootStep) root_place.1 (by rw [root_place.2]; decide)
    rootKeys_seven.2.1 hsp (f := f) (by rw [root_place.2]; exact hf)
  rw [hwk]
  cases ho : outcome (iter m) with
  | nobody => exact ⟨_, _, _, _, rfl, fun _ => rfl, fun _ => ⟨rfl, rfl⟩, nofun⟩
  | tie ts => exact ⟨_, _, _, _, rfl, fun _ => rfl, fun _ => ⟨rfl, rfl⟩, nofun⟩
  | live t =>
    obtain ⟨htm, hmost⟩ := most_wins h2 h3 (hit m) ho
    obtain ⟨hv1, hv2⟩ := h2.votes t htm
    have hsub : ∀ v ∈ t.votes, v ∈ votesFor (rootKeys.map f) t.hash := by
      intro v hv
      rw [hv1, votesFor_mem] at hv
      exact votesFor_mem.2 ⟨List.mem_of_mem_take hv.1, hv.2⟩
    cases htc : t.claim with
    | none => simp only [htc]; exact ⟨_, _, _, _, rfl, fun _ => rfl, fun _ => ⟨rfl, rfl⟩, nofun⟩
    | some cl =>
      simp only [htc]
      refine ⟨true, ⟨cl, t.votes⟩, [rootStep], is ++ [], rfl, ?_, nofun, fun _ => ⟨rfl, ?_⟩⟩
      · intro hno
        obtain ⟨v, hv⟩ := List.exists_mem_of_ne_nil _ hv2
        have := hsub v hv
        rw [hno] at this; cases this
      · obtain ⟨js, hj⟩ := h2.claim t htm
        obtain ⟨e, he, heh, hcl⟩ := (readClaim_iff hc hj cl).1 htc
        refine ⟨e, he, hcl, hv2, ?_, ?_⟩
        · rw [heh]; exact hsub
        · rw [heh]; exact hmost

/-! ### names below -/

theorem collect_nothing {db : Db} {ask : Bytes → QRes (Option (Nat × NetParts))} {parent : Bytes} {need : Nat} (hask : ∀ a r, ask a = .ok r → r = none)
    {as : List Bytes} {m m' : List Tally} {is : List Issue} (h : collect db ask parent need m as = .ok (m', is)) : m' = m := by
  induction as generalizing m' is with
  | nil => unfold collect at h; cases h; rfl
  | cons a as ih =>
    unfold collect at h
    cases hr : ask a with
    | error e => rw [hr] at h; cases h
    | ok r =>
      cases hask a r hr
      rw [hr] at h
      simp only at h
      cases hcol : collect db ask parent need m as with
      | error e => rw [hcol] at h; cases h
      | ok x =>
        obtain ⟨m1, js⟩ := x
        rw [hcol] at h
        simp only [noting] at h
        injection h with h
        injection h with h _
        rw [← h]
        exact ih hcol

/-- Below a claim, whose space has two components or more, nothing is found. -/
theorem deep_not_found {db : Db} (hc : Consistent db) (hw : AllShow db) {iter : List Tally → List Tally}
    (hit : ∀ m, (iter m).Perm m) {cur : Step} {up : List Step} {cs : List Bytes} (hr : WellRooted (getRspace cur.claim.pkt) cs) (h2 : 2 ≤ cs.length)
    (hl : ∀ a ∈ cur.claim.authorities, a.length = 32)
    {sub : Bytes} {comps : List Bytes} {b : Bool} {s : Step} {u : List Step} {is : List Issue}
    (h : walk db iter cur up (sub :: comps) = .ok ((b, s, u), is)) : b = false ∧ s = cur ∧ u = up := by
  have hform : getRspace cur.claim.pkt = rootedOf cs := by
    rcases hr.form with h | h
    · exact h
    · rw [h, rootedOf, if_neg (by rintro rfl; simp at h2)]
  rw [walk.eq_def] at h
  simp only at h
  rw [hform] at h
  cases happ : Rooted.tryAppendComponent (rootedOf cs) sub with
  | error e => rw [happ] at h; cases h
  | ok r =>
    obtain ⟨rfl, hs, h8⟩ := (rooted_append_iff cs sub r hr.space hr.depth).1 happ
    rw [happ] at h
    simp only at h
    split at h
    · cases h
    · rename_i m js hcol
      have hm : m = [] := by
        refine collect_nothing (db := db) (ask := fun a => if a.length = 32 then getFirst db ⟨.tree, false⟩ (votePreds cur.claim.pkt.getGroup (rootedOf (cs ++ [sub])) a) else .ok none)
          (parent := cur.claim.pkt.hash) (need := (cur.claim.authorities.length + 1) / 2) ?_ (as := cur.claim.authorities) (is := js) (m := []) ?_
        · intro a r hr
          split at hr
          · rename_i ha
            rw [votePreds_place] at hr
            exact place_deep ha hs (by simp; omega) (by omega) hc (allProper_allShow.2 hw) hr
          · cases hr; rfl
        · rw [← hcol]
          have hcongr : ∀ (as : List Bytes) (m : List Tally), (∀ a ∈ as, a.length = 32) →
              collect db (fun a => if a.length = 32 then getFirst db ⟨.tree, false⟩ (votePreds cur.claim.pkt.getGroup (rootedOf (cs ++ [sub])) a) else .ok none)
                cur.claim.pkt.hash ((cur.claim.authorities.length + 1) / 2) m as =
              collect db (fun a => getFirst db ⟨.tree, false⟩ (votePreds cur.claim.pkt.getGroup (rootedOf (cs ++ [sub])) a))
                cur.claim.pkt.hash ((cur.claim.authorities.length + 1) / 2) m as := by
            intro as
            induction as with
            | nil => intro m _; rfl
            | cons a as ih =>
              intro m hal
              have ih := fun m => ih m (fun b hb => hal b (List.mem_cons_of_mem _ hb))
              unfold collect
              simp only [if_pos (hal a List.mem_cons_self), ih]
          exact hcongr _ _ hl
      subst hm
      have hi : iter [] = [] := List.Perm.eq_nil (hit [])
      rw [hi] at h
      have : outcome [] = .nobody := rfl
      rw [this] at h
      simp only at h
      cases h
      exact ⟨rfl, rfl, rfl⟩

/-- Stored claims have a space of two components or more and authorities whose keys have 32 bytes. -/
theorem claim_deep {db : Db} (hw : AllShow db) {e : Nat × NetParts} (he : e ∈ db.log) {cl : Claim} (hcl : Claim.ofPkt e.2 = .ok cl) :
    cl.pkt = e.2 ∧ (∃ cs, WellRooted (getRspace cl.pkt) cs ∧ 2 ≤ cs.length) ∧ ∀ a ∈ cl.authorities, a.length = 32 := by
  obtain ⟨x, c, cs, hp, -, hwr⟩ := hw e.1 e.2 he
  obtain ⟨comps, lc, hic, h1, h2⟩ := (claim_of_parts hp.parts hp.valid cl).1 hcl
  have := hic.point
  subst this
  simp only at hwr
  have hf : e.2.parts.fields = (Content.link lc).fields := by rw [hp.parts]; rfl
  have hrs : getRspace e.2 = lc.rspace := by unfold getRspace; rw [hf]; rfl
  refine ⟨h1, ⟨cs, by rw [h1, hrs]; exact hwr, ?_⟩, ?_⟩
  · have hv := (claims_valid hic.name).1
    have hs := wellRooted_space hwr
    have : lc.rspace.drop 8 = encodeSpace cs := hs
    rw [← hic.space, this] at hv
    have := space_unique _ _ _ hv hwr.space
    rw [← this]
    have := hic.name.some
    cases comps with
    | nil => exact absurd rfl this
    | cons c cs => simp
  · intro a ha
    unfold Claim.authorities at ha
    obtain ⟨l, hl, rfl⟩ := List.mem_map.1 ha
    have hl := (List.mem_filter.1 hl).1
    rw [h1] at hl
    have hlinks : e.2.getLinks = lc.links := by unfold NetParts.getLinks; rw [hf]; rfl
    rw [hlinks] at hl
    exact (hp.valid.2.links l hl).2

/-- C52 does not hold: a public name of more than one component is never found, whatever is stored, as the votes are only looked for at a depth of
two. -/
theorem subname_not_found {db : Db} (hc : Consistent db) (hw : AllShow db) {iter : List Tally → List Tally}
    (hit : ∀ m, (iter m).Perm m) {comps : List Bytes} (h2 : 2 ≤ comps.length) {n : Name} (hn : Name.ofComps comps = .ok n)
    {b : Bool} {s : Step} {u : List Step} {is : List Issue} (h : lookupPublic db iter n = .ok ((b, s, u), is)) : b = false := by
  obtain ⟨g1, g2, -⟩ := (name_of_iff _ _).1 hn
  have hsp := (claims_valid g1).1
  have hiter : Space.iter n.space = .ok comps.reverse := by
    rw [g2]
    refine space_iter _ _ ⟨(ValidComps.cons_iff.1 hsp.comps).2, rfl, ?_⟩
    have := hsp.size
    rw [Space.encodeSpace_cons, List.length_cons, List.length_append] at this
    omega
  unfold lookupPublic at h
  rw [hiter] at h
  simp only at h
  obtain ⟨c1, c2, cs, hcs⟩ : ∃ c1 c2 cs, comps.reverse = c1 :: c2 :: cs := by
    have : 2 ≤ comps.reverse.length := by simpa using h2
    match comps.reverse, this with
    | c1 :: c2 :: cs, _ => exact ⟨c1, c2, cs, rfl⟩
  rw [hcs, walk.eq_def] at h
  simp only at h
  split at h
  · cases h
  · split at h
    · cases h
    · rename_i m js hcol
      split at h
      · cases h; rfl
      · cases h; rfl
      · rename_i t hout
        split at h
        · cases h; rfl
        · rename_i cl hcl
          have hmem : t ∈ m := outcome_mem hout |> (hit m).mem_iff.1
          obtain ⟨is', hi⟩ := collect_claims hcol t hmem
          rw [hcl] at hi
          obtain ⟨e, he, -, hof⟩ := (readClaim_iff hc hi cl).1 rfl
          obtain ⟨-, ⟨ds, d1, d2⟩, d3⟩ := claim_deep hw he hof
          cases hwk : walk db iter ⟨cl, t.votes⟩ [rootStep] (c2 :: cs) with
          | error e => rw [hwk] at h; cases h
          | ok x =>
            obtain ⟨⟨b', s', u'⟩, js'⟩ := x
            rw [hwk] at h
            simp only [noting] at h
            cases h
            exact (deep_not_found hc hw hit d1 d2 d3 hwk).1

/-! ### cases -/

def exVoteLink (target : UInt8) : Link := ⟨List.replicate 12 0 ++ ascii "vote", List.replicate 32 target⟩
def exVoteContent (c : Bytes) (target : UInt8) (stamp : Nat) : LinkContent :=
  ⟨publicGroup, lnsDomain, stamp, [exVoteLink target], rootedOf [ascii "claims", c], []⟩
/-- A vote of the authority number `a` of the root for the claim with the hash of 32 bytes `target`. -/
def exVote (a : Nat) (c : Bytes) (target : UInt8) (stamp : Nat) (h : UInt8) : NetParts :=
  ⟨List.replicate 32 0, List.replicate 32 h, (Content.key (exVoteContent c target stamp) (rootKeys.getD a (List.replicate 32 1)) (List.replicate 64 9)).parts⟩
def exVoteTuple (a : Nat) (c : Bytes) (stamp : Nat) (h : UInt8) : TreeTuple :=
  ⟨publicGroup, lnsDomain, [ascii "claims", c], rootKeys.getD a (List.replicate 32 1), stamp, List.replicate 32 h⟩
/-- A claim of a name. -/
def exClaimContent (comps : List Bytes) : LinkContent :=
  ⟨publicGroup, lnsDomain, 3, [⟨List.replicate 9 0 ++ ascii "pubkey@", List.replicate 32 7⟩, ⟨List.replicate 15 0 ++ ascii "^", List.replicate 32 8⟩],
    rootedOf (ascii "claims" :: comps), []⟩
def exClaim (comps : List Bytes) (h : UInt8) : NetParts :=
  ⟨List.replicate 32 0, List.replicate 32 h, (Content.link (exClaimContent comps)).parts⟩
def exClaimTuple (comps : List Bytes) (h : UInt8) : TreeTuple :=
  ⟨publicGroup, lnsDomain, ascii "claims" :: comps, List.replicate 32 0, 3, List.replicate 32 h⟩

theorem exVote_has (a : Nat) (c : Bytes) (target : UInt8) (stamp : Nat) (h : UInt8)
    (hs : IsSpace (encodeSpace [ascii "claims", c]) [ascii "claims", c]) (hst : stamp < 2 ^ 64)
    (hz : (Content.key (exVoteContent c target stamp) (rootKeys.getD a (List.replicate 32 1)) (List.replicate 64 9)).size ≤ 65024) :
    HasTuple (exVote a c target stamp h) (exVoteTuple a c stamp h) := by
  have hkey : (rootKeys.getD a (List.replicate 32 1)).length = 32 := by
    rw [List.getD_eq_getElem?_getD]
    cases ha : rootKeys[a]? with
    | none => rfl
    | some k => exact rootKeys_seven.2.1 k (List.mem_of_getElem? ha)
  refine ⟨exVoteContent c target stamp, ⟨hs, by show 2 ≤ 8; omega, .inl rfl⟩, rfl, rfl, rfl, rfl, .inr ⟨List.replicate 64 9, rfl,
    ⟨hz, ⟨(by decide : publicGroup.length = 32), (by decide : lnsDomain.length = 16), hst, ?_, rooted_check_accepts _ hs (by show 2 ≤ 8; omega)⟩, hkey, List.length_replicate⟩,
    List.length_replicate, List.length_replicate⟩⟩
  intro l hl
  rw [List.mem_singleton.1 hl]
  exact ⟨(by decide : (List.replicate 12 (0 : UInt8) ++ ascii "vote").length = 16), List.length_replicate⟩

theorem exClaim_has (comps : List Bytes) (h : UInt8) (hs : IsSpace (encodeSpace (ascii "claims" :: comps)) (ascii "claims" :: comps)) (h8 : comps.length < 8)
    (hz : (Content.link (exClaimContent comps)).size ≤ 65024) : HasTuple (exClaim comps h) (exClaimTuple comps h) := by
  refine ⟨exClaimContent comps, ⟨hs, h8, .inl rfl⟩, rfl, rfl, rfl, rfl, .inl ⟨⟨rfl, ⟨hz, (by decide : publicGroup.length = 32),
    (by decide : lnsDomain.length = 16), (by decide : 3 < 2 ^ 64), ?_, rooted_check_accepts _ hs h8⟩, List.length_replicate, List.length_replicate⟩, rfl⟩⟩
  intro l hl
  simp only [exClaimContent, List.mem_cons, List.not_mem_nil, or_false] at hl
  rcases hl with rfl | rfl <;> decide

/-- Four votes for the claim 1, the last of which replaced one for the claim 2, and two for the claim 2; the seventh authority has not voted. -/
def exVotes : List (NetParts × TreeTuple) :=
  [(exClaim [ascii "com"] 1, exClaimTuple [ascii "com"] 1),
   (exClaim [ascii "com"] 2, exClaimTuple [ascii "com"] 2),
   (exVote 0 (ascii "com") 1 10 11, exVoteTuple 0 (ascii "com") 10 11),
   (exVote 1 (ascii "com") 2 11 12, exVoteTuple 1 (ascii "com") 11 12),
   (exVote 2 (ascii "com") 1 12 13, exVoteTuple 2 (ascii "com") 12 13),
   (exVote 3 (ascii "com") 2 13 14, exVoteTuple 3 (ascii "com") 13 14),
   (exVote 4 (ascii "com") 1 14 15, exVoteTuple 4 (ascii "com") 14 15),
   (exVote 5 (ascii "com") 2 15 16, exVoteTuple 5 (ascii "com") 15 16),
   (exVote 5 (ascii "com") 1 16 17, exVoteTuple 5 (ascii "com") 16 17)]
def exVoteDb : Db := saved (exVotes.map (·.1))
def exComName : Name := ⟨encodeSpace [ascii "com"], false⟩

/-- The hash of the claim that was found, the hashes of the votes, and the number of issues. -/
def found (r : QRes ((Bool × Step × List Step) × List Issue)) : Option (Bool × Bytes × List Bytes × Nat) :=
  match r with
  | .ok ((b, s, _), is) => some (b, s.claim.pkt.hash, s.votes.map (·.2.hash), is.length)
  | .error _ => none

example : found (lookupPublic exVoteDb id exComName) =
    some (true, List.replicate 32 1, [List.replicate 32 11, List.replicate 32 13, List.replicate 32 15, List.replicate 32 17], 0) := by decide +kernel

/-- A listed point is at a place. -/
def placed (g d : Bytes) (cs : List Bytes) (k : Bytes) (x : (Nat × NetParts) × TreeTuple) : Bool :=
  x.2.group == g && x.2.domain == d && x.2.space == cs && x.2.pubkey == k
theorem placed_iff {g d : Bytes} {cs : List Bytes} {k : Bytes} {x : (Nat × NetParts) × TreeTuple} :
    placed g d cs k x = true ↔ x.2.group = g ∧ x.2.domain = d ∧ x.2.space = cs ∧ x.2.pubkey = k := by
  simp only [placed, Bool.and_eq_true, beq_iff_eq, and_assoc]
/-- The last of the listed points at a place is the newest. -/
def newestOk (L : List ((Nat × NetParts) × TreeTuple)) (g d : Bytes) (cs : List Bytes) (k : Bytes) (r : Option (Nat × NetParts)) : Bool :=
  match (L.filter (placed g d cs k)).getLast? with
  | none => r == none
  | some e => r == some e.1 && L.all fun x => !placed g d cs k x || x.1 == e.1 || x.1.2.getCreate < e.1.2.getCreate

theorem newest_listed {db : Db} {L : List ((Nat × NetParts) × TreeTuple)} (hlog : db.log = L.map (·.1)) (hL : ∀ x ∈ L, HasTuple x.1.2 x.2)
    {g d : Bytes} {cs : List Bytes} {k : Bytes} {r : Option (Nat × NetParts)} (hr : newestOk L g d cs k r = true) : NewestAt db g d cs k r := by
  have hat : ∀ x ∈ L, At g d cs k x.1.2 ↔ x.2.group = g ∧ x.2.domain = d ∧ x.2.space = cs ∧ x.2.pubkey = k := by
    intro x hx
    constructor
    · rintro ⟨t, ht, h⟩
      rw [← tuple_unique ht (hL x hx)]; exact h
    · exact fun h => ⟨_, hL x hx, h⟩
  unfold newestOk at hr
  split at hr
  · rename_i hnone
    rw [beq_iff_eq] at hr
    subst hr
    intro e he hpl
    rw [hlog] at he
    obtain ⟨x, hx, rfl⟩ := List.mem_map.1 he
    rw [List.getLast?_eq_none_iff] at hnone
    have : x ∈ L.filter (placed g d cs k) := List.mem_filter.2 ⟨hx, placed_iff.2 ((hat x hx).1 hpl)⟩
    rw [hnone] at this; cases this
  · rename_i e he
    rw [Bool.and_eq_true, beq_iff_eq, List.all_eq_true] at hr
    obtain ⟨rfl, hr⟩ := hr
    have hm := List.mem_filter.1 (List.mem_of_getLast? he)
    refine ⟨by rw [hlog]; exact List.mem_map.2 ⟨e, hm.1, rfl⟩, (hat e hm.1).2 (placed_iff.1 hm.2), ?_⟩
    intro f hf hpl
    rw [hlog] at hf
    obtain ⟨x, hx, rfl⟩ := List.mem_map.1 hf
    have h := hr x hx
    rw [placed_iff.2 ((hat x hx).1 hpl)] at h
    simp only [Bool.not_true, Bool.false_or, Bool.or_eq_true, beq_iff_eq, decide_eq_true_eq] at h
    rcases h with h | h
    · exact .inl h
    · exact .inr (.inl h)

/-- Points with their tuples, stored in this order. -/
def listed (ps : List (NetParts × TreeTuple)) : List ((Nat × NetParts) × TreeTuple) := ps.zipIdx.map fun x => ((100 + x.2, x.1.1), x.1.2)
theorem listed_has {ps : List (NetParts × TreeTuple)} (h : ∀ x ∈ ps, HasTuple x.1 x.2) : ∀ x ∈ listed ps, HasTuple x.1.2 x.2 := by
  intro x hx
  obtain ⟨⟨y, i⟩, hy, rfl⟩ := List.mem_map.1 hx
  exact h y (by rw [(List.mem_zipIdx' hy).2]; exact List.getElem_mem _)
theorem listed_show {ps : List (NetParts × TreeTuple)} (h : ∀ x ∈ ps, HasTuple x.1 x.2) {db : Db} (hlog : db.log = (listed ps).map (·.1)) : AllShow db := by
  apply allProper_allShow.1
  intro i p hp
  rw [hlog] at hp
  obtain ⟨x, hx, he⟩ := List.mem_map.1 hp
  have := listed_has h _ hx
  rw [he] at this
  exact .inl ⟨_, this⟩
theorem listed_keys {ps : List (NetParts × TreeTuple)} (h : ∀ x ∈ ps, HasTuple x.1 x.2) {db : Db} (hlog : db.log = (listed ps).map (·.1))
    (hk : (listed ps).all (fun x => x.2.pubkey != List.replicate 32 255) = true) : NoOnesKey db := by
  intro i p t hp ht
  rw [hlog] at hp
  obtain ⟨x, hx, he⟩ := List.mem_map.1 hp
  have h1 := listed_has h _ hx
  rw [he] at h1
  rw [tuple_unique ht h1]
  simpa using List.all_eq_true.1 hk x hx

theorem exCom_space : IsSpace (encodeSpace [ascii "claims", ascii "com"]) [ascii "claims", ascii "com"] := ⟨by simp [ValidComps, ascii], rfl, by decide⟩
theorem exVotes_has : ∀ x ∈ exVotes, HasTuple x.1 x.2 := by
  intro x hx
  simp only [exVotes, List.mem_cons, List.not_mem_nil, or_false] at hx
  rcases hx with rfl | rfl | rfl | rfl | rfl | rfl | rfl | rfl | rfl
  · exact exClaim_has _ _ exCom_space (by decide) (by decide)
  · exact exClaim_has _ _ exCom_space (by decide) (by decide)
  all_goals exact exVote_has _ _ _ _ _ exCom_space (by decide) (by decide +kernel)
theorem exVoteDb_log : exVoteDb.log = (listed exVotes).map (·.1) := by decide +kernel

/-- The votes in the case above. -/
def exAnswers (a : Bytes) : Option (Nat × NetParts) := ((listed exVotes).filter fun x => x.2.pubkey == a).getLast?.map (·.1)

theorem exVoteDb_meets : Consistent exVoteDb ∧ AllShow exVoteDb ∧ NoOnesKey exVoteDb ∧ Name.ofComps [ascii "com"] = .ok exComName ∧
    (∀ a ∈ rootKeys, NewestAt exVoteDb publicGroup lnsDomain [ascii "claims", ascii "com"] a (exAnswers a)) ∧
    Ahead (rootKeys.map exAnswers) (List.replicate 32 1) ∧ ∃ e ∈ exVoteDb.log, e.2.hash = List.replicate 32 1 ∧ ∃ cl, Claim.ofPkt e.2 = .ok cl := by
  refine ⟨saved_consistent _, listed_show exVotes_has exVoteDb_log, listed_keys exVotes_has exVoteDb_log (by decide +kernel), ?_, ?_, ?_,
    (100, exClaim [ascii "com"] 1), by decide +kernel, rfl, ?_⟩
  · exact (name_of_iff _ _).2 ⟨⟨by simp, by decide, by simp [ascii], by decide⟩, rfl, by unfold IsLocal; decide⟩
  · have : ∀ a ∈ rootKeys, newestOk (listed exVotes) publicGroup lnsDomain [ascii "claims", ascii "com"] a (exAnswers a) = true := by decide +kernel
    exact fun a ha => newest_listed exVoteDb_log (listed_has exVotes_has) (this a ha)
  · intro h' hne
    have h1 := votes_two (rootKeys.map exAnswers) hne
    have h2 : (votesFor (rootKeys.map exAnswers) (List.replicate 32 1)).length = 4 := by decide +kernel
    have h3 : (rootKeys.map exAnswers).length = 7 := by decide +kernel
    left; omega
  · have : (match Claim.ofPkt (exClaim [ascii "com"] 1) with | .ok _ => true | _ => false) = true := by decide +kernel
    split at this
    · exact ⟨_, by assumption⟩
    · cases this

/-! ### what the lookup gets wrong -/

/-- C52 does not hold: two claims have two votes each, the last of them at the same time, and a third claim has one vote. No tie is reported, and
which of the two is found depends on the order of the map. -/
def exTieDb : Db := saved [exClaim [ascii "com"] 1, exClaim [ascii "com"] 2, exClaim [ascii "com"] 3, exVote 0 (ascii "com") 1 10 11,
  exVote 1 (ascii "com") 2 10 12, exVote 2 (ascii "com") 1 20 13, exVote 3 (ascii "com") 2 20 14, exVote 4 (ascii "com") 3 5 15]
theorem tie_hidden : found (lookupPublic exTieDb id exComName) = some (true, List.replicate 32 2, [List.replicate 32 12, List.replicate 32 14], 2) ∧
    found (lookupPublic exTieDb List.reverse exComName) = some (true, List.replicate 32 1, [List.replicate 32 11, List.replicate 32 13], 2) := by
  decide +kernel

/-- With the two claims alone the tie is reported. -/
def exTieOnly : Db := saved [exClaim [ascii "com"] 1, exClaim [ascii "com"] 2, exVote 0 (ascii "com") 1 10 11,
  exVote 1 (ascii "com") 2 10 12, exVote 2 (ascii "com") 1 20 13, exVote 3 (ascii "com") 2 20 14]
example : found (lookupPublic exTieOnly id exComName) = some (false, rootPkt.hash, [], 4) := by decide +kernel

/-- C52 does not hold: votes at the name `com` for a claim of the name `org` make it the claim of `com`. -/
def exOtherDb : Db := saved [exClaim [ascii "org"] 1, exVote 0 (ascii "com") 1 10 11]
theorem other_name_found : ∃ e ∈ exOtherDb.log, ∃ cl, Claim.ofPkt e.2 = .ok cl ∧ cl.name.space = encodeSpace [ascii "org"] ∧
    found (lookupPublic exOtherDb id exComName) = some (true, e.2.hash, [List.replicate 32 11], 6) := by
  refine ⟨(100, exClaim [ascii "org"] 1), by decide +kernel, ?_⟩
  have : (match Claim.ofPkt (exClaim [ascii "org"] 1) with | .ok cl => decide (cl.name.space = encodeSpace [ascii "org"]) | _ => false) = true := by decide +kernel
  split at this
  · exact ⟨_, by assumption, of_decide_eq_true this, by decide +kernel⟩
  · cases this

/-- C52 does not hold: if the claim found has a name of seven components, the lookup of a name below it aborts. -/
def exDeepDb : Db := saved [exClaim (List.replicate 7 [97]) 1, exVote 0 (ascii "com") 1 10 11]
theorem deep_claim_aborts : ∃ n, Name.ofComps [ascii "x", ascii "com"] = .ok n ∧ lookupPublic exDeepDb id n = .error .panic := by
  refine ⟨⟨encodeSpace [ascii "com", ascii "x"], false⟩, (name_of_iff _ _).2 ⟨⟨by simp, by decide, by simp [ascii], by decide⟩, rfl, by unfold IsLocal; decide⟩, ?_⟩
  have : (match lookupPublic exDeepDb id ⟨encodeSpace [ascii "com", ascii "x"], false⟩ with | .error .panic => true | _ => false) = true := by decide +kernel
  split at this
  · assumption
  · cases this

/-- With four authorities the count stops once two agree: here claim 2 also has two votes, the last of them earlier, and yet claim 1 is found.
This is why `Ahead` asks more of a claim with exactly half of the votes. -/
def exEvenStep : Step := ⟨⟨⟨List.replicate 32 0, List.replicate 32 77, (Content.link ⟨publicGroup, lnsDomain, 3,
  (rootKeys.take 4).map (fun k => ⟨List.replicate 15 0 ++ ascii "^", k⟩), rootedOf [ascii "claims"], []⟩).parts⟩, .root⟩, []⟩
def exEvenDb : Db := saved [exClaim [ascii "com"] 1, exClaim [ascii "com"] 2, exVote 0 (ascii "com") 1 50 11,
  exVote 1 (ascii "com") 1 60 12, exVote 2 (ascii "com") 2 10 13, exVote 3 (ascii "com") 2 20 14]
theorem half_stops : found (walk exEvenDb id exEvenStep [] [ascii "com"]) = some (true, List.replicate 32 1, [List.replicate 32 11, List.replicate 32 12], 0) := by
  decide +kernel

/-- A claim that lists one key twice as authority gives that key two votes: the loop of `public_claim.rs:80` runs over the links, not over the distinct keys.
Without the repeated link the other claim is live, whose vote is older. -/
def exStepOf (ks : List Bytes) : Step := ⟨⟨⟨List.replicate 32 0, List.replicate 32 77, (Content.link ⟨publicGroup, lnsDomain, 3,
  ks.map (fun k => ⟨List.replicate 15 0 ++ ascii "^", k⟩), rootedOf [ascii "claims"], []⟩).parts⟩, .root⟩, []⟩
def exTwiceDb : Db := saved [exClaim [ascii "com"] 1, exClaim [ascii "com"] 2, exVote 0 (ascii "com") 1 50 11, exVote 1 (ascii "com") 2 10 12]
theorem key_twice : found (walk exTwiceDb id (exStepOf [rootKeys[0]!, rootKeys[0]!, rootKeys[1]!]) [] [ascii "com"]) =
      some (true, List.replicate 32 1, [List.replicate 32 11, List.replicate 32 11], 0) ∧
    found (walk exTwiceDb id (exStepOf [rootKeys[0]!, rootKeys[1]!]) [] [ascii "com"]) =
      some (true, List.replicate 32 2, [List.replicate 32 12], 0) := by
  decide +kernel

end Verif.Props
