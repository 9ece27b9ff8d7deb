import Verif.Lemmas.LnsVote
/-!
Lemmas about the program for names: reading claims.
-/
namespace Verif.LnsCmd
open Verif Verif.Pkt Verif.Spec Verif.Cmd Verif.Pred Verif.Multi Verif.Props Verif.Shake Verif.Lns Verif.Env Verif.Query

theorem did_nil (w : World) : Did w w [] := ⟨by simp [linesOf], saves_same rfl⟩
theorem did_trans {w w' w'' : World} {a b : List (Sent × Put)} (h : Did w w' a) (h' : Did w' w'' b) : Did w w'' (a ++ b) := by
  refine ⟨?_, ?_⟩
  · rw [h'.1, h.1, linesOf_append, List.append_assoc]
  · rw [savedOf_append]; exact saves_trans h.2 h'.2

theorem allPut_cons (put : Sent → List Put) (s : Sent) (ss : List Sent) : allPut put (s :: ss) = (put s).map (s, ·) ++ allPut put ss := rfl
theorem allPut_one (put : Sent → List Put) (s : Sent) : allPut put [s] = (put s).map (s, ·) := by simp [allPut]

theorem putVotes_ok (dbg : Bool) (y : Sys) {o : IoOpts} (ho : ¬ Forbids o) {sigs : List Dest} {put : Sent → List Put} (hp : ∀ s, Puts sigs s (put s))
    (hh : ∀ s x, Put.hold x ∉ put s) (ss : List Sent) (vs : List (Nat × NetParts)) (hv : vs.map (·.2) = ss.map Sent.parts) (w : World) {n : Nat}
    (hc : Clock y w (dbCount sigs * ss.length + n)) :
    ∃ w', putVotes dbg y (setWrite o) sigs vs w = (w', .ok ()) ∧ Did w w' (allPut put ss) ∧ Clock y w' n := by
  induction ss generalizing vs w with
  | nil =>
    match vs, hv with
    | [], _ => exact ⟨w, rfl, did_nil w, by simpa using hc⟩
  | cons s ss ih =>
    match vs, hv with
    | v :: vs, hv =>
      simp only [List.map_cons, List.cons.injEq] at hv
      rw [List.length_cons, show dbCount sigs * (ss.length + 1) + n = dbCount sigs + (dbCount sigs * ss.length + n) by rw [Nat.mul_succ]; omega] at hc
      obtain ⟨w1, a1, a2, a3⟩ := put_ok dbg y (o := o) (hp s) (fun _ => ho) w (hh s) hc
      obtain ⟨w2, b1, b2, b3⟩ := ih vs hv.2 w1 a3
      refine ⟨w2, ?_, ?_, b3⟩
      · unfold putVotes
        rw [hv.1, a1]
        exact b1
      · rw [allPut_cons]; exact did_trans a2 b2

theorem putChain_ok (dbg : Bool) (y : Sys) {o : IoOpts} (ho : ¬ Forbids o) {write sigs : List Dest} {putW putS : Sent → List Put} (hp : ∀ s, Puts write s (putW s))
    (hh : ∀ s x, Put.hold x ∉ putW s) (hp' : ∀ s, Puts sigs s (putS s)) (hh' : ∀ s x, Put.hold x ∉ putS s) (ss : List (Sent × List Sent)) (steps : List Step)
    (hs : Packed steps ss) (w : World) {n : Nat} (hc : Clock y w (chainCount write sigs ss + n)) :
    ∃ w', putChain dbg y (setWrite o) write sigs steps w = (w', .ok ()) ∧ Did w w' (chainPut putW putS ss) ∧ Clock y w' n := by
  induction ss generalizing steps w with
  | nil =>
    match steps, hs with
    | [], _ => exact ⟨w, rfl, did_nil w, by simpa [chainCount] using hc⟩
    | st :: sts, hs => cases hs
  | cons s ss ih =>
    match steps, hs with
    | [], hs => cases hs
    | st :: sts, hs =>
      unfold Packed at hs
      simp only [List.map_cons, List.cons.injEq, Prod.mk.injEq] at hs
      rw [show chainCount write sigs (s :: ss) + n = dbCount write + (dbCount sigs * s.2.length + (chainCount write sigs ss + n)) by
        unfold chainCount; rw [List.map_cons, List.sum_cons]; omega] at hc
      obtain ⟨w1, a1, a2, a3⟩ := put_ok dbg y (o := o) (hp s.1) (fun _ => ho) w (hh s.1) hc
      have hv : ∃ w2, (if sigs.isEmpty then (w1, .ok ()) else putVotes dbg y (setWrite o) sigs st.votes w1 : Done) = (w2, .ok ()) ∧
          Did w1 w2 (allPut putS s.2) ∧ Clock y w2 (chainCount write sigs ss + n) := by
        cases hsig : sigs with
        | nil =>
          refine ⟨w1, rfl, ?_, clock_less a3 (by rw [hsig]; omega)⟩
          have : ∀ s, putS s = [] := by
            intro s
            have := hp' s
            rw [hsig] at this
            generalize putS s = l at this
            cases this
            rfl
          have : allPut putS s.2 = [] := by
            unfold allPut
            simp [this]
          rw [this]
          exact did_nil w1
        | cons d ds =>
          rw [← hsig]
          obtain ⟨w2, b1, b2, b3⟩ := putVotes_ok dbg y ho hp' hh' s.2 st.votes hs.1.2 w1 a3
          refine ⟨w2, ?_, b2, b3⟩
          rw [if_neg (by rw [hsig]; simp), b1]
      obtain ⟨w2, b1, b2, b3⟩ := hv
      obtain ⟨w3, c1, c2, c3⟩ := ih sts hs.2 w2 b3
      refine ⟨w3, ?_, ?_, c3⟩
      · unfold putChain
        rw [hs.1.1, a1]
        simp only [Done.next]
        rw [b1]
        exact c1
      · have := did_trans (did_trans a2 b2) c2
        exact this

/-! ### The claims of a chain are packets -/

/-- The first packet of the file with the roots. -/
def rootContent : LinkContent := ⟨publicGroup, lnsDomain, 1688459451750173, rootPkt.getLinks, claimPrefix, (rootPkt.parts.fields.tail?.map (·.data)).getD []⟩
def rootSent : Sent := ⟨rootPkt.netHeader, rootPkt.hash, .link rootContent, by decide +kernel, by decide +kernel,
  ⟨by decide +kernel, by decide +kernel, by decide +kernel, by decide +kernel, by unfold LinksSized; decide +kernel, by decide +kernel⟩⟩
theorem rootSent_parts : rootSent.parts = rootPkt := by decide +kernel

theorem stored_sent {db : Db} (hw : AllShow db) {i : Nat} {p : NetParts} (h : (i, p) ∈ db.log) : ∃ s : Sent, s.parts = p := by
  obtain ⟨x, c, cs, hp, -⟩ := hw i p h
  refine ⟨⟨p.netHeader, p.hash, c, hp.header, hp.hash, hp.valid⟩, ?_⟩
  obtain ⟨a, b, d⟩ := p
  have := hp.parts
  simp only at this
  subst this
  rfl

theorem sents {α : Type} (g : α → NetParts) (l : List α) (h : ∀ v ∈ l, ∃ s : Sent, s.parts = g v) : ∃ ss : List Sent, l.map g = ss.map Sent.parts := by
  induction l with
  | nil => exact ⟨[], rfl⟩
  | cons v l ih =>
    obtain ⟨s, hs⟩ := h v List.mem_cons_self
    obtain ⟨ss, hss⟩ := ih fun x hx => h x (List.mem_cons_of_mem _ hx)
    exact ⟨s :: ss, by rw [List.map_cons, List.map_cons, hs, hss]⟩

theorem newest_exists {db : Db} (hc : Spec.Consistent db) (hw : AllShow db) (hff : NoOnesKey db) {g : Bytes} {cs : List Bytes} {a : Bytes} (hg : g.length = 32)
    (ha : a.length = 32) (hsp : IsSpace (encodeSpace cs) cs) (h2 : cs.length = 2) : ∃ r, NewestAt db g lnsDomain cs a r := by
  obtain ⟨r, -, h⟩ := place_first hg (d := lnsDomain) (by decide) ha hsp (by omega) h2.symm hc (allProper_allShow.2 hw) (.inr hff) false
  refine ⟨r, ?_⟩
  cases r with
  | none => exact h
  | some e => exact ⟨h.1, h.2.1, fun f hf hat => (h.2.2 f hf hat).imp_right (before_older h.2.1 hat)⟩

/-- The chain of a public name: the root, or the root and a claim that keys of the root voted for. -/
theorem chain_public {db : Db} (hc : Spec.Consistent db) (hw : AllShow db) (hff : NoOnesKey db) {iter : List Tally → List Tally} (hit : ∀ m, (iter m).Perm m)
    {rest : List Bytes} {c : Bytes} {n : Name} (hn : Name.ofComps (rest ++ [c]) = .ok n) {b : Bool} {s : Step} {u : List Step} {is : List Issue}
    (h : lookupPublic db iter n = .ok ((b, s, u), is)) :
    (s = rootStep ∧ u = [] ∧ b = false) ∨ (u = [rootStep] ∧ (b = true ↔ rest = []) ∧ ∃ e ∈ db.log, Claim.ofPkt e.2 = .ok s.claim ∧ s.votes ≠ [] ∧ s.votes.length ≤ 7 ∧
      ∀ v ∈ s.votes, ∃ a ∈ rootKeys, NewestAt db publicGroup lnsDomain [ascii "claims", c] a (some v) ∧ choice v.2 = some e.2.hash) := by
  obtain ⟨g1, g2, -⟩ := (name_of_iff _ _).1 hn
  have hsp := (claims_valid g1).1
  have hiter : Space.iter n.space = .ok (rest ++ [c]).reverse := by
    rw [g2]
    refine space_iter _ _ ⟨(ValidComps.cons_iff.1 hsp.comps).2, rfl, ?_⟩
    have := hsp.size
    rw [Space.encodeSpace_cons, List.length_cons, List.length_append] at this
    omega
  have hone : IsSpace (encodeSpace [ascii "claims", c]) [ascii "claims", c] := by
    have hgc : GoodName [c] := ⟨by simp, by simp, fun x hx => g1.each x (by rw [List.mem_singleton.1 hx]; simp), by
      have := g1.size
      rw [List.map_append, List.sum_append] at this
      simp only [List.map_cons, List.map_nil] at this ⊢
      omega⟩
    exact (claims_valid hgc).1
  unfold lookupPublic at h
  rw [hiter, List.reverse_append] at h
  simp only [List.reverse_singleton, List.singleton_append] at h
  have hfe : ∀ a, a ∈ rootKeys → ∃ r, NewestAt db publicGroup lnsDomain [ascii "claims", c] a r :=
    fun a ha => newest_exists hc hw hff (by decide) (rootKeys_seven.2.1 a ha) hone rfl
  let f : Bytes → Option (Nat × NetParts) := fun a => if ha : a ∈ rootKeys then Classical.choose (hfe a ha) else none
  have hf : ∀ a ∈ rootKeys, NewestAt db publicGroup lnsDomain [ascii "claims", c] a (f a) := by
    intro a ha
    have : f a = Classical.choose (hfe a ha) := dif_pos ha
    rw [this]
    exact Classical.choose_spec (hfe a ha)
  obtain ⟨m, js, k, h2, h3, hwk⟩ := step_counts hc hw hff (cur := rootStep) root_place.1 (by rw [root_place.2]; decide)
    rootKeys_seven.2.1 hone (f := f) (by rw [root_place.2]; exact hf)
  rw [hwk] at h
  cases ho : outcome (iter m) with
  | nobody => rw [ho] at h; cases h; exact .inl ⟨rfl, rfl, rfl⟩
  | tie ts => rw [ho] at h; cases h; exact .inl ⟨rfl, rfl, rfl⟩
  | live t =>
    rw [ho] at h
    simp only at h
    have htm : t ∈ m := (hit m).mem_iff.1 (outcome_mem ho)
    cases htc : t.claim with
    | none => rw [htc] at h; cases h; exact .inl ⟨rfl, rfl, rfl⟩
    | some cl =>
      rw [htc] at h
      simp only at h
      obtain ⟨ks, hj⟩ := h2.claim t htm
      obtain ⟨e, he, heh, hcl⟩ := (readClaim_iff hc hj cl).1 htc
      obtain ⟨hv1, hv2⟩ := h2.votes t htm
      have hvotes : ∀ v ∈ t.votes, ∃ a ∈ rootKeys, NewestAt db publicGroup lnsDomain [ascii "claims", c] a (some v) ∧ choice v.2 = some e.2.hash := by
        intro v hv
        rw [hv1, votesFor_mem] at hv
        obtain ⟨a, ha, hav⟩ := List.mem_map.1 (List.mem_of_mem_take hv.1)
        have := hf a ha
        rw [hav] at this
        exact ⟨a, ha, this, by rw [heh]; exact hv.2⟩
      have hv7 : t.votes.length ≤ 7 := by
        rw [hv1]
        unfold votesFor
        refine Nat.le_trans (List.length_filterMap_le _ _) ?_
        rw [List.length_take, List.length_map]
        have : rootStep.claim.authorities.length = 7 := by decide +kernel
        omega
      cases hr : rest.reverse with
      | nil =>
        rw [hr, walk.eq_def] at h
        cases h
        have : rest = [] := by simpa using hr
        exact .inr ⟨rfl, by simp [this], e, he, hcl, hv2, hv7, hvotes⟩
      | cons c2 cs =>
        rw [hr] at h
        obtain ⟨-, ⟨ds, d1, d2⟩, d3⟩ := claim_deep hw he hcl
        have hne : rest ≠ [] := by rintro rfl; simp at hr
        cases hwk : walk db iter ⟨cl, t.votes⟩ [rootStep] (c2 :: cs) with
        | error e => rw [hwk] at h; cases h
        | ok x =>
          obtain ⟨⟨b', s', u'⟩, js'⟩ := x
          rw [hwk] at h
          simp only [noting] at h
          cases h
          obtain ⟨q1, q2, q3⟩ := deep_not_found hc hw hit d1 d2 d3 hwk
          subst q1 q2 q3
          exact .inr ⟨rfl, by simp [hne], e, he, hcl, hv2, hv7, hvotes⟩

theorem new_head {C : Crypto} {nh : Bytes} {n : Name} {t : Nat} {ls : List Link} {data : Bytes} {cl : Claim} (h : Claim.new C nh n t ls data = .ok cl) :
    cl.pkt.netHeader = nh := by
  unfold Claim.new at h
  simp only at h
  repeat' split at h
  all_goals first | (cases h; done) | skip
  rename_i p hp _
  rw [ofPkt_pkt h]
  unfold tryLinkpoint at hp
  simp only at hp
  repeat' split at hp
  all_goals first | (cases hp; done) | (cases hp; rfl)

/-- The claim made up for a name. -/
theorem dummy_made {C : Crypto} (L : C.Laws) {nh : Bytes} (hnh : nh.length = 32) {comps : List Bytes} {n : Name} (hn : Name.ofComps comps = .ok n) :
    ∃ s, dummyRoot C nh n = .ok ⟨s.parts, n⟩ ∧ ClaimMade C nh comps [⟨List.replicate 16 255, List.replicate 32 0⟩] [] s := by
  have hz := rooted_size (claims_valid ((name_of_iff _ _).1 hn).1).1
  obtain ⟨cl, g, h, e2, e3, -, e5, -, -⟩ := claim_new (C := C) nh hn (until_ := u64End - 1) (by decide) (by decide)
    (l := ⟨List.replicate 16 255, List.replicate 32 0⟩) (ls := []) (by
      intro l hl
      rw [List.mem_singleton.1 hl]
      exact ⟨(by decide : (List.replicate 16 (255 : UInt8)).length = 16), List.length_replicate⟩) (.inr (by decide)) []
    (by simp only [List.length_nil]; omega)
  have hcl := new_head h
  obtain ⟨pkt, name⟩ := cl
  obtain rfl : name = n := e5
  have hpk : pkt = ⟨nh, C.hash (Content.link (claimContent g comps (u64End - 1) ⟨List.replicate 16 255, List.replicate 32 0⟩ [] [])).layout,
      (Content.link (claimContent g comps (u64End - 1) ⟨List.replicate 16 255, List.replicate 32 0⟩ [] [])).parts⟩ := by
    obtain ⟨a, b, d⟩ := pkt
    have h1 : a = nh := hcl
    have h2 := e3.hash
    have h3 := e3.parts
    simp only at h2 h3
    rw [h1, h2, h3]
  subst hpk
  refine ⟨⟨nh, C.hash (Content.link (claimContent g comps (u64End - 1) ⟨List.replicate 16 255, List.replicate 32 0⟩ [] [])).layout,
    .link (claimContent g comps (u64End - 1) ⟨List.replicate 16 255, List.replicate 32 0⟩ [] []), hnh, L.hash_len _, e3.valid⟩, ?_, rfl, rfl, g, e2, ?_⟩
  · unfold dummyRoot
    rw [h]
    rfl
  · show Content.link (claimContent g comps (u64End - 1) ⟨List.replicate 16 255, List.replicate 32 0⟩ [] []) = _
    unfold claimContent
    rw [show beBytes 8 (u64End - 1) ++ List.drop 8 (List.replicate 16 255) = List.replicate 16 255 by decide]

end Verif.LnsCmd
