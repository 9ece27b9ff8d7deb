import Verif.Lemmas.LnsCmd
import Verif.Lemmas.Setup
/-!
Lemmas about the program for names: votes.
-/
namespace Verif.LnsCmd
open Verif Verif.Pkt Verif.Spec Verif.Cmd Verif.Pred Verif.Multi Verif.Props Verif.Shake Verif.Lns Verif.Env

variable {C : Crypto} {nh : Bytes} {db : Db} {comps : List Bytes} {n : Name}

theorem name_inj {a b : List Bytes} (ha : Name.ofComps a = .ok n) (hb : Name.ofComps b = .ok n) : a = b := by
  obtain ⟨g1, e1, -⟩ := (name_of_iff _ _).1 ha
  obtain ⟨g2, e2, -⟩ := (name_of_iff _ _).1 hb
  have h1 := (claims_valid g1).1
  have h2 := (claims_valid g2).1
  rw [Space.encodeSpace_cons, ← e1] at h1
  rw [Space.encodeSpace_cons, ← e2] at h2
  have := space_unique _ _ _ h1 h2
  injection this with _ this
  exact List.reverse_inj.1 this

theorem stored_rspace (hc : Spec.Consistent db) (hw : AllShow db) {h : Bytes} {p : NetParts} (hs : StoredClaim db h p comps) :
    getRspace p = rootedOf (ascii "claims" :: comps.reverse) ∧ h.length = 32 := by
  obtain ⟨⟨i, hi⟩, rfl, c, lc, hp, hv, hic⟩ := hs
  obtain ⟨x, c', cs, hip, -, hwr⟩ := hw i p hi
  refine ⟨?_, hip.hash⟩
  obtain ⟨n, hn⟩ : ∃ n, Name.ofComps comps = .ok n := by
    by_cases hl : IsLocal comps
    · exact ⟨⟨_, true⟩, (name_of_iff _ _).2 ⟨hic.name, rfl, fun _ => hl, fun _ => rfl⟩⟩
    · exact ⟨⟨_, false⟩, (name_of_iff _ _).2 ⟨hic.name, rfl, nofun, fun h => absurd h hl⟩⟩
  have ho := (claim_of_parts hp hv ⟨p, n⟩).2 ⟨comps, lc, hic, rfl, hn⟩
  obtain ⟨comps', l, hic', -, hn'⟩ := (claim_of_parts hip.parts hip.valid _).1 ho
  obtain rfl := name_inj hn hn'
  obtain rfl := hic'.point
  have hf : p.parts.fields = (Content.link l).fields := by rw [hip.parts]; rfl
  have hrs : getRspace p = l.rspace := by unfold getRspace; rw [hf]; rfl
  simp only at hwr
  rw [hrs]
  have hs := Tree.wellRooted_space hwr
  have hsv := (claims_valid hic'.name).1
  have : l.rspace.drop 8 = encodeSpace cs := hs
  rw [← hic'.space, this] at hsv
  have := space_unique _ _ _ hsv hwr.space
  subst this
  rcases hwr.form with h | h
  · exact h
  · rw [h, rootedOf, if_neg (by simp)]

theorem local_inj (ha : Name.ofComps comps = .ok n) : (n.isLocal = true ↔ IsLocal comps) := ((name_of_iff _ _).1 ha).2.2

theorem vote_made (L : C.Laws) (hnh : nh.length = 32) (hc : Spec.Consistent db) (hw : AllShow db) (hn : Name.ofComps comps = .ok n) {h : Bytes} {p : NetParts}
    (hs : StoredClaim db h p comps) (id : C.Key) {t : Nat} (ht : t < 2 ^ 64) :
    ∃ s, voteFor C nh ⟨p, n⟩ id [] t = .ok s.parts ∧ VoteMade C nh comps h t id s := by
  obtain ⟨h1, h2⟩ := stored_rspace hc hw hs
  have hph : p.hash = h := hs.2.1
  unfold voteFor
  simp only [h1, hph]
  have hgood := ((name_of_iff _ _).1 hn).1
  obtain ⟨v1, v2⟩ := claims_valid hgood
  have hglen : n.claimGroup.length = 32 := by
    unfold Name.claimGroup
    split <;> decide
  have hg := (claim_group_iff hn n.claimGroup).1 rfl
  have hsz : LinkContent.Sized ⟨n.claimGroup, lnsDomain, t, [⟨voteTag, h⟩], rootedOf (ascii "claims" :: comps.reverse), []⟩ :=
    ⟨hglen, show lnsDomain.length = 16 by decide, ht, one_sized (by decide) h2, rooted_check_accepts _ v1 v2⟩
  have hsize : (contentOf C ⟨n.claimGroup, lnsDomain, t, [⟨voteTag, h⟩], rootedOf (ascii "claims" :: comps.reverse), []⟩ (some id)).size ≤ 65024 := by
    show LinkContent.len _ + 96 ≤ 65024
    unfold LinkContent.len
    simp only
    have := v1.size
    rw [rootedOf_len, if_neg (by simp), List.length_nil, List.length_singleton]
    omega
  have hpt := tryPoint_eq (C := C) hsz (some id) nh
  rw [if_pos hsize] at hpt
  simp only [tryPoint] at hpt
  refine ⟨⟨nh, C.hash (contentOf C ⟨n.claimGroup, lnsDomain, t, [⟨voteTag, h⟩], rootedOf (ascii "claims" :: comps.reverse), []⟩ (some id)).layout,
    contentOf C ⟨n.claimGroup, lnsDomain, t, [⟨voteTag, h⟩], rootedOf (ascii "claims" :: comps.reverse), []⟩ (some id), hnh, L.hash_len _,
    ⟨hsize, hsz, L.pub_len _, L.sign_len _ _⟩⟩, ?_, rfl, rfl, L.verify_sign _ _, n.claimGroup, _, hg, rfl⟩
  unfold keypoint
  rw [hpt]
  rfl

/-! ### Who decides about a name -/

theorem parent_of (hn : Name.ofComps comps = .ok n) : Space.pop n.space = .ok (encodeSpace comps.tail.reverse, comps.head?) := by
  obtain ⟨g, e, -⟩ := (name_of_iff _ _).1 hn
  have hsp := (claims_valid g).1
  have : IsSpace n.space comps.reverse := by
    refine ⟨(ValidComps.cons_iff.1 hsp.comps).2, e, ?_⟩
    have := hsp.size
    rw [Space.encodeSpace_cons, List.length_cons, List.length_append] at this
    rw [e]
    omega
  rw [space_pop this, List.dropLast_reverse, List.getLast?_reverse]

theorem tail_name {a : Bytes} {rest : List Bytes} (hn : Name.ofComps (a :: rest) = .ok n) (hr : rest ≠ []) :
    ∃ m, Name.ofComps rest = .ok m ∧ Name.fromSpace (encodeSpace rest.reverse) = .ok m ∧ m.isLocal = n.isLocal := by
  obtain ⟨g, e, hl⟩ := (name_of_iff _ _).1 hn
  have hg : GoodName rest := ⟨hr, by have := g.few; rw [List.length_cons] at this; omega, fun c hc => g.each c (List.mem_cons_of_mem _ hc),
    by have := g.size; rw [List.map_cons, List.sum_cons] at this; omega⟩
  have hm : Name.ofComps rest = .ok ⟨encodeSpace rest.reverse, n.isLocal⟩ := by
    refine (name_of_iff _ _).2 ⟨hg, rfl, ?_⟩
    rw [hl]
    unfold IsLocal
    rw [List.getLast?_cons_of_ne_nil hr]
  exact ⟨_, hm, name_space_roundtrip hm, rfl⟩

theorem authority_top (iter : List Tally → List Tally) (t : Nat) {c : Bytes} (hn : Name.ofComps [c] = .ok n) (hl : ¬ IsLocal [c]) :
    authorityClaim C nh db iter t n = .ok (true, rootStep.claim) := by
  have hloc : n.isLocal = false := by
    cases h : n.isLocal with
    | true => exact absurd ((local_inj hn).1 h) hl
    | false => rfl
  unfold authorityClaim
  rw [hloc, parent_of hn]
  simp only [Bool.false_eq_true, if_false, unwrapL, List.tail_cons, List.reverse_nil]
  rw [show Name.fromSpace (encodeSpace []) = .error (.err .minLen) by
    unfold Name.fromSpace
    rw [space_to_array (cs := []) ⟨by simp [ValidComps], rfl, by decide⟩, if_pos (by decide)]
    rfl]
  simp only
  unfold liveChain
  rw [show Name.root.isLocal = false from rfl]
  simp only [Bool.false_eq_true, if_false]
  rw [show lookupPublic db iter Name.root = .ok ((true, rootStep, []), []) by
    unfold lookupPublic
    rw [show Name.root.space = encodeSpace [] from rfl, space_iter (encodeSpace []) [] ⟨by simp [ValidComps], rfl, by decide⟩]
    simp only
    rw [walk.eq_def]]
  rfl

theorem authority_sub (iter : List Tally → List Tally) (t : Nat) {a : Bytes} {rest : List Bytes} (hn : Name.ofComps (a :: rest) = .ok n) (hr : rest ≠ [])
    (hl : ¬ IsLocal (a :: rest)) {m : Name} (hm : Name.ofComps rest = .ok m) :
    authorityClaim C nh db iter t n = (match runL (lookupPublic db iter m) with
      | .error e => .error e
      | .ok (r, _) => .ok (r.1, r.2.1.claim)) := by
  have hloc : n.isLocal = false := by
    cases h : n.isLocal with
    | true => exact absurd ((local_inj hn).1 h) hl
    | false => rfl
  obtain ⟨m', h1, h2, h3⟩ := tail_name hn hr
  rw [hm] at h1
  cases h1
  unfold authorityClaim
  rw [hloc, parent_of hn]
  simp only [Bool.false_eq_true, if_false, unwrapL, List.tail_cons]
  rw [h2]
  simp only
  unfold liveChain
  rw [h3, hloc]
  simp only [Bool.false_eq_true, if_false]
  cases runL (lookupPublic db iter m) <;> rfl

/-! ### After the vote -/

theorem news_same {known : List Bytes} {p : NetParts} (hp : p.hash ∉ known) (k : Nat) (hk : 0 < k) : news known (List.replicate k p) = [p] := by
  obtain ⟨k, rfl⟩ : ∃ j, k = j + 1 := ⟨k - 1, by omega⟩
  rw [List.replicate_succ, news, if_neg hp]
  congr 1
  clear hk
  induction k with
  | zero => rfl
  | succ k ih => rw [List.replicate_succ, news, if_pos List.mem_cons_self]; exact ih

theorem saved_once {s : Sent} {l : List Put} (h : Put.save ∈ l) : ∃ k, 0 < k ∧ (savedOf (l.map (s, ·))).map Sent.parts = List.replicate k s.parts := by
  refine ⟨(l.filter Put.isSave).length, ?_, ?_⟩
  · have : Put.save ∈ l.filter Put.isSave := List.mem_filter.2 ⟨h, rfl⟩
    exact List.length_pos_of_mem this
  · unfold savedOf
    rw [List.filter_map, List.map_map, List.map_map]
    show (l.filter Put.isSave).map (fun _ => s.parts) = _
    rw [List.map_const']

/-- A packet that is new is added to the log once. -/
theorem did_save {w w' : World} {s : Sent} {l : List Put} (hd : Did w w' (l.map (s, ·))) (h : Put.save ∈ l) (hnew : ∀ e ∈ w.db.log, e.2.hash ≠ s.hash) :
    ∃ i, w'.db.log = w.db.log ++ [(i, s.parts)] := by
  obtain ⟨-, L, h1, h2⟩ := hd
  obtain ⟨k, hk, h3⟩ := saved_once (s := s) h
  rw [h3, news_same (by
    intro hm
    obtain ⟨e, he, hh⟩ := List.mem_map.1 hm
    exact hnew e he hh) k hk] at h2
  match L, h2 with
  | [⟨i, p⟩], h2 =>
    simp only [List.map_cons, List.map_nil, List.cons.injEq, and_true] at h2
    subst h2
    exact ⟨i, h1⟩

end Verif.LnsCmd
