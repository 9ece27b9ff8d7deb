import Verif.Lemmas.Pull
/-!
# C67: pull requests

`lk_pull_point` writes a query into a point where exchange processes look for it; `lk multi-watch` reads the text of such points back.
-/
namespace Verif.Props
open Verif Verif.Pkt Verif.Pred Verif.Spec Verif.Conv Verif.QText Verif.Opt Verif.Query Verif.Eval Verif.Abl Verif.Ast Verif.Fit Verif.Abtxt

/-- Bytes as the number of a field, and back. -/
theorem be_bytes {n : Nat} {b : Bytes} (hb : b.length = n) : be (w := 8 * n) (BitVec.ofNat _ (beNat b)) = b := by
  have h : beNat b < 2 ^ (8 * n) := by
    have := beNat_lt b
    rw [hb, show (256 : Nat) = 2 ^ 8 from rfl, ← Nat.pow_mul] at this
    exact this
  unfold be
  rw [BitVec.toNat_ofNat, Nat.mod_eq_of_lt h, Nat.mul_div_cancel_left n (by decide : 0 < 8), ← hb]
  exact beBytes_beNat b

theorem be_number {n : Nat} (v : BitVec (8 * n)) : (be v).length = n ∧ beNat (be v) = v.toNat := by
  unfold be
  rw [Nat.mul_div_cancel_left n (by decide : 0 < 8)]
  refine ⟨beBytes_length _ _, beNat_beBytes _ _ ?_⟩
  rw [show (256 : Nat) = 2 ^ 8 from rfl, ← Nat.pow_mul]
  exact v.isLt

/-- The place of a request is a space exactly if the id has between 1 and 186 bytes. -/
theorem pull_place {g d i : Bytes} (hg : g.length = 32) (hd : d.length = 16) :
    IsSpace (encodeSpace (pullSpace g d i)) (pullSpace g d i) ↔ 1 ≤ i.length ∧ i.length ≤ 186 := by
  have hlen : (encodeSpace (pullSpace g d i)).length = 56 + i.length := by
    simp only [encodeSpace, pullSpace, List.flatMap_cons, List.flatMap_nil, List.length_append, List.length_cons, List.length_nil, hg, hd]
    have : (ascii "pull").length = 4 := by decide
    omega
  constructor
  · intro h
    have h1 := (h.comps i (by simp [pullSpace])).1
    have h2 := h.size
    omega
  · rintro ⟨h1, h2⟩
    refine ⟨?_, rfl, by omega⟩
    intro c hc
    simp only [pullSpace, List.mem_cons, List.not_mem_nil, or_false] at hc
    have : (ascii "pull").length = 4 := by decide
    rcases hc with rfl | rfl | rfl | rfl <;> omega

/-- The content of the request. -/
def pullContent (g d i text : Bytes) (now : Nat) : LinkContent :=
  ⟨zeroGroup, List.replicate 8 255 ++ ascii "exchange", now, [], rootedOf (pullSpace g d i), text⟩

theorem pull_sized {g d i : Bytes} (text : Bytes) {now : Nat} (hg : g.length = 32) (hd : d.length = 16) (h1 : 1 ≤ i.length) (h2 : i.length ≤ 186)
    (hn : now < 2 ^ 64) : (pullContent g d i text now).Sized where
  group := rfl
  domain := by show (List.replicate 8 255 ++ ascii "exchange").length = 16; decide
  stamp := hn
  links := fun _ h => nomatch h
  rspace := rooted_check_accepts _ ((pull_place hg hd).2 ⟨h1, h2⟩) (by simp [pullSpace])

variable {C : Crypto} {nh : Bytes} {now : Nat} {q : QText.Query} {rs : List Stmt}

/-- **C67**: a request is made exactly if the comparisons of the query leave one group and one domain, its newest `qid` is `:qid:` and one
value of 1 to 186 bytes, it can be printed, and its text fits into a point.  The request is then the unsigned point made now in the private
group, the domain of exchanges and the place of this group, domain and id, with the text of the query. -/
theorem pull_iff (h : Preds.default.run true rs = .ok q.preds) (hc : ∀ l ∈ q.conf, IsOption l) (hn : now < 2 ^ 64) (p : NetParts) :
    pullPoint C nh now q = .ok p ↔ ∃ g d i text, g.length = 32 ∧ d.length = 16 ∧ Pins rs .group (beNat g) ∧ Pins rs .domain (beNat d) ∧
      Newest (Carries (ascii "qid")) q.conf (plainOption (ascii "qid") i) ∧ 1 ≤ i.length ∧ i.length ≤ 186 ∧ toText true q = .ok text ∧
      128 + i.length + text.length ≤ 65024 ∧
      p = ⟨nh, C.hash (Content.link (pullContent g d i text now)).layout, (Content.link (pullContent g d i text now)).parts⟩ := by
  have hsize : ∀ g d i text : Bytes, g.length = 32 → d.length = 16 → (Content.link (pullContent g d i text now)).size = 128 + i.length + text.length := by
    intro g d i text hg hd
    show 64 + 48 * 0 + (rootedOf (pullSpace g d i)).length + text.length = _
    rw [rootedOf, if_neg (by simp [pullSpace]), Rooted.rootedWith_length]
    have : (encodeSpace (pullSpace g d i)).length = 56 + i.length := by
      simp only [encodeSpace, pullSpace, List.flatMap_cons, List.flatMap_nil, List.length_append, List.length_cons, List.length_nil, hg, hd]
      have : (ascii "pull").length = 4 := by decide
      omega
    omega
  have hmake : ∀ g d i text : Bytes, g.length = 32 → d.length = 16 → 1 ≤ i.length → i.length ≤ 186 →
      (ofPkt (tryLinkpoint C privateGroup exchangeDomain (rootedOf (pullSpace g d i)) [] text now nh) = .ok p ↔ 128 + i.length + text.length ≤ 65024 ∧
      p = ⟨nh, C.hash (Content.link (pullContent g d i text now)).layout, (Content.link (pullContent g d i text now)).parts⟩) := by
    intro g d i text hg hd h1 h2
    have e := tryPoint_eq (C := C) (pull_sized text hg hd h1 h2 hn) none nh
    have hsz : (contentOf C (pullContent g d i text now) none).size = 128 + i.length + text.length := hsize g d i text hg hd
    have e' : tryLinkpoint C privateGroup exchangeDomain (rootedOf (pullSpace g d i)) [] text now nh = _ := e
    rw [e', hsz]
    by_cases hz : 128 + i.length + text.length ≤ 65024
    · rw [if_pos hz]
      simp only [ofPkt, Except.ok.injEq]
      exact ⟨fun h => ⟨hz, h.symm⟩, fun h => h.2.symm⟩
    · rw [if_neg hz]
      constructor
      · intro h; cases h
      · intro h; exact absurd h.1 hz
  constructor
  · intro hp
    unfold pullPoint at hp
    cases hg : (q.preds.set .group).asEq with
    | none => rw [hg] at hp; cases hp
    | some g =>
      rw [hg] at hp
      simp only [orErr] at hp
      cases hd : (q.preds.set .domain).asEq with
      | none => rw [hd] at hp; cases hp
      | some d =>
        rw [hd] at hp
        simp only [orErr] at hp
        unfold queryId at hp
        cases ho : getOption q.conf (ascii "qid") with
        | error e => rw [ho] at hp; cases e <;> cases hp
        | ok o =>
          rw [ho] at hp
          match o with
          | none => cases hp
          | some none => cases hp
          | some (some i) =>
            simp only [Option.bind_some, id] at hp
            cases ht : toText true q with
            | error e => rw [ht] at hp; cases hp
            | ok text =>
              rw [ht] at hp
              simp only at hp
              obtain ⟨g1, g2⟩ := be_number (n := 32) g
              obtain ⟨d1, d2⟩ := be_number (n := 16) d
              unfold rspaceBuf at hp
              cases hr : Rooted.tryFromIter [ascii "pull", be g, be d, i] with
              | error e => rw [hr] at hp; cases hp
              | ok r =>
                rw [hr] at hp
                simp only at hp
                obtain ⟨rfl, hs, _⟩ := (rooted_build_iff _ _).1 hr
                obtain ⟨h1, h2⟩ := (pull_place g1 d1).1 hs
                obtain ⟨k1, k2⟩ := (hmake _ _ i text g1 d1 h1 h2).1 hp
                refine ⟨be g, be d, i, text, g1, d1, ?_, ?_, (option_value_iff hc _ _).1 ho, h1, h2, rfl, k1, k2⟩
                · exact (congrArg (Pins rs .group) g2).mpr ((asEq_iff h (f := .group) nofun nofun g).1 hg)
                · exact (congrArg (Pins rs .domain) d2).mpr ((asEq_iff h (f := .domain) nofun nofun d).1 hd)
  · rintro ⟨g, d, i, text, g1, d1, pg, pd, hi, h1, h2, ht, h3, h4⟩
    have hnum : ∀ {n : Nat} {b : Bytes}, b.length = n → (BitVec.ofNat (8 * n) (beNat b)).toNat = beNat b := by
      intro n b hb
      have := be_bytes hb
      have h2 := (be_number (n := n) (BitVec.ofNat (8 * n) (beNat b))).2
      rw [this] at h2
      exact h2.symm
    have hg := (asEq_iff h (f := .group) nofun nofun (BitVec.ofNat (8 * 32) (beNat g))).2 ((congrArg (Pins rs .group) (hnum g1)).mpr pg)
    have hd := (asEq_iff h (f := .domain) nofun nofun (BitVec.ofNat (8 * 16) (beNat d))).2 ((congrArg (Pins rs .domain) (hnum d1)).mpr pd)
    have ho := (option_value_iff hc _ _).2 hi
    have hr : Rooted.tryFromIter [ascii "pull", g, d, i] = .ok (rootedOf (pullSpace g d i)) :=
      (rooted_build_iff _ _).2 ⟨rfl, (pull_place g1 d1).2 ⟨h1, h2⟩, by simp⟩
    unfold pullPoint queryId rspaceBuf
    rw [hg, hd, ho]
    simp only [orErr, Option.bind_some, id, ht]
    have e1 : @be VF.group.width (BitVec.ofNat (8 * 32) (beNat g)) = g := be_bytes g1
    have e2 : @be VF.domain.width (BitVec.ofNat (8 * 16) (beNat d)) = d := be_bytes d1
    rw [e1, e2, hr]
    exact (hmake g d i text g1 d1 h1 h2).2 ⟨h3, h4⟩

theorem pull_valid {g d i text : Bytes} (hg : g.length = 32) (hd : d.length = 16) (h1 : 1 ≤ i.length) (h2 : i.length ≤ 186)
    (h3 : 128 + i.length + text.length ≤ 65024) (hn : now < 2 ^ 64) : (Content.link (pullContent g d i text now)).Valid := by
  refine ⟨?_, pull_sized text hg hd h1 h2 hn⟩
  show 64 + 48 * 0 + (rootedOf (pullSpace g d i)).length + text.length ≤ 65024
  rw [rootedOf, if_neg (by simp [pullSpace]), Rooted.rootedWith_length]
  have : (encodeSpace (pullSpace g d i)).length = 56 + i.length := by
    simp only [encodeSpace, pullSpace, List.flatMap_cons, List.flatMap_nil, List.length_append, List.length_cons, List.length_nil, hg, hd]
    have : (ascii "pull").length = 4 := by decide
    omega
  omega

theorem pull_rooted {g d i : Bytes} (hg : g.length = 32) (hd : d.length = 16) (h1 : 1 ≤ i.length) (h2 : i.length ≤ 186) :
    WellRooted (rootedOf (pullSpace g d i)) (pullSpace g d i) :=
  ⟨(pull_place hg hd).2 ⟨h1, h2⟩, by simp [pullSpace], .inl rfl⟩

theorem pull_request (hC : C.Laws) (hnh : nh.length = 32) (hn : now < 2 ^ 64) {g d i text : Bytes} (hg : g.length = 32) (hd : d.length = 16)
    (h1 : 1 ≤ i.length) (h2 : i.length ≤ 186) (h3 : 128 + i.length + text.length ≤ 65024) :
    PullRequest ⟨nh, C.hash (Content.link (pullContent g d i text now)).layout, (Content.link (pullContent g d i text now)).parts⟩ g d i text now :=
  ⟨pullContent g d i text now, ⟨rfl, pull_valid hg hd h1 h2 h3 hn, hC.hash_len _, hnh⟩, rfl, rfl, pull_rooted hg hd h1 h2, rfl, rfl, rfl⟩

/-- **C67**: what a made request is. -/
theorem pull_made (hC : C.Laws) (h : Preds.default.run true rs = .ok q.preds) (hc : ∀ l ∈ q.conf, IsOption l) (hnh : nh.length = 32) (hn : now < 2 ^ 64)
    {p : NetParts} (hp : pullPoint C nh now q = .ok p) : ∃ g d i text, Pins rs .group (beNat g) ∧ Pins rs .domain (beNat d) ∧
      g.length = 32 ∧ d.length = 16 ∧ Newest (Carries (ascii "qid")) q.conf (plainOption (ascii "qid") i) ∧ toText true q = .ok text ∧
      PullRequest p g d i text now := by
  obtain ⟨g, d, i, text, g1, d1, pg, pd, hi, h1, h2, ht, h3, rfl⟩ := (pull_iff h hc hn p).1 hp
  exact ⟨g, d, i, text, pg, pd, g1, d1, hi, ht, pull_request hC hnh hn g1 d1 h1 h2 h3⟩

/-! ### what the query is about -/

/-- **C67**: the packets that a pinned query selects all have the pinned value. -/
theorem pinned_packets {f : VF} {n : Nat} (hp : Pins rs f n) {x : Seen} (hx : x.num f < 2 ^ f.width) (hs : ∀ r ∈ rs, Sat r x) : x.num f = n := by
  refine (hp _ hx).1 fun r hr hk _ => ?_
  have := hs r hr
  unfold Sat at this
  rw [hk] at this
  exact this.2

/-- **C67**: in an accepted query one `=` statement pins its field. -/
theorem pins_of_equal {s : Preds} (h : Preds.default.run true rs = .ok s) {f : VF} {r : Stmt} (hr : r ∈ rs) (hk : r.kind = .field f) (ho : r.op = .equal)
    {n : Nat} (hv : ValueIs f r.val n) (huniq : ∀ m, ValueIs f r.val m → m = n) : Pins rs f n := by
  obtain ⟨m, hm⟩ := query_contradiction h f
  intro k _
  constructor
  · intro hk'
    obtain ⟨v, h1, h2⟩ := hk' r hr hk (.inl ho)
    rw [ho] at h2
    exact (show k = v from h2).trans (huniq v h1)
  · rintro rfl
    obtain ⟨v, h1, h2⟩ := hm r hr hk
    rw [ho] at h2
    have : m = k := (show m = v from h2).trans (huniq v h1)
    subst this
    exact fun r' hr' hk' _ => hm r' hr' hk'

/-! ### the text -/

/-- **C67**, partial: an exchange that reads the text of the request has a query that selects the same packets and the options in the opposite
order.  Left out are the queries that `printed_canonical_same_partial` leaves out, among them those for a domain that is not plain text. -/
theorem pull_reads_partial (h : Preds.default.run true rs = .ok q.preds) (hr : ∀ r ∈ rs, Plain r)
    (hsat : ∃ p x t c, Shows p x ∧ AllSat rs x t c) (hhash : OneHash rs → ∃ r ∈ rs, r.kind = .field .hash ∧ r.op = .equal)
    (hp : ∀ out, q.preds.iter true = .ok out → ∀ r ∈ out, PlainValues r)
    (hc : ∀ l ∈ q.conf, IsOption l) (hd : ∀ l ∈ q.conf, Delimited l) (pa : Params) (n : Nat) :
    ∃ t q', toText true q = .ok t ∧ Query.empty.parse true (coreScope pa) (n + 1) t = .ok q' ∧ q'.conf = q.conf.reverse ∧
      ∀ p x, Shows p x → q'.preds.test p = q.preds.test p := by
  obtain ⟨out, s', ho, hrun, hsame⟩ := printed_same_partial h hr hsat hhash
  obtain ⟨t, h1, h2⟩ := lines_run true true (coreScope pa) n fun r hr' => canonical_line true pa n (iter_yields h ho r hr') (hp out ho r hr')
  have hrev : ∀ l ∈ q.conf.reverse, l ∈ q.conf := fun l hl => List.mem_reverse.1 hl
  refine ⟨displayConf q.conf ++ t, ⟨s', q.conf.reverse⟩, by simp only [toText, ho, h1], ?_, rfl, fun p x hx => (hsame p x hx).2⟩
  unfold Query.parse
  rw [displayConf_lines, options_run true _ n (fun l hl => hc l (hrev l hl)) (fun l hl => hd l (hrev l hl)), h2]
  have hrun' : Query.empty.preds.run true out = .ok s' := hrun
  simp only [Query.empty, List.nil_append]
  rw [show (Preds.default.run true out) = .ok s' from hrun']
  rfl

/-! ### the place -/

/-- **C67**: two requests are at the same place exactly if they have the same group, domain and id. -/
theorem pull_same_place {g d i g' d' i' : Bytes} (hg : g.length = 32) (hd : d.length = 16) (h1 : 1 ≤ i.length) (h2 : i.length ≤ 186)
    (hg' : g'.length = 32) (hd' : d'.length = 16) (h1' : 1 ≤ i'.length) (h2' : i'.length ≤ 186) :
    rootedOf (pullSpace g d i) = rootedOf (pullSpace g' d' i') ↔ g = g' ∧ d = d' ∧ i = i' := by
  constructor
  · intro h
    have := rooted_injective _ _ ((pull_place hg hd).2 ⟨h1, h2⟩) ((pull_place hg' hd').2 ⟨h1', h2'⟩) (by simp [pullSpace]) (by simp [pullSpace]) h
    simp only [pullSpace, List.cons.injEq, and_true, true_and] at this
    exact this
  · rintro ⟨rfl, rfl, rfl⟩; rfl

theorem exchange_space {g : Bytes} (hg : g.length = 32) (cs : List Bytes) :
    SpaceIs [(some .fslash, ascii "pull"), (some .fslash, g)] cs ↔ cs = [ascii "pull", g] := by
  refine ablist_spaceIs (cs := [ascii "pull", g]) ⟨?_, rfl, ?_⟩ (by simp) cs
  · intro c hc
    simp only [List.mem_cons, List.not_mem_nil, or_false] at hc
    have : (ascii "pull").length = 4 := by decide
    rcases hc with rfl | rfl <;> omega
  · simp only [encodeSpace, List.flatMap_cons, List.flatMap_nil, List.length_append, List.length_cons, List.length_nil, hg]
    decide

theorem exchange_plain {g : Bytes} (hg : g.length = 32) : ∀ r ∈ exchangeWatch g, Plain r := by
  intro r hr
  simp only [exchangeWatch, List.mem_cons, List.not_mem_nil, or_false] at hr
  rcases hr with rfl | rfl | rfl
  · exact field_plain rfl
  · exact field_plain rfl
  · exact ⟨fun _ cs h => by rw [(exchange_space hg cs).1 h]; simp, fun _ => rfl, nofun⟩

theorem link_type (h hs : Bytes) (c : LinkContent) (cs : List Bytes) : HasType (seenOf h hs (.link c) cs) 2 := by
  show Allows .mask1 (Content.link c).type.toNat 2
  intro j hj
  have : (Content.link c).type.toNat = 3 := rfl
  rw [this]
  have hj' : j = 1 := by
    rw [show (2 : Nat) = 2 ^ 1 from rfl, Nat.testBit_two_pow] at hj
    have := of_decide_eq_true hj
    omega
  rw [hj']; rfl

theorem exchange_sat {p : NetParts} {g d i text g' : Bytes} (hg' : g'.length = 32) (hp : PullRequest p g d i text now) :
    ∃ x, Shows p x ∧ ((∀ r ∈ exchangeWatch g', Sat r x) ↔ g' = g) := by
  obtain ⟨c, hc, e1, e2, e3, _⟩ := hp
  refine ⟨seenOf p.netHeader p.hash (.link c) (pullSpace g d i), ⟨.link c, _, hc, rfl, e3⟩, ?_⟩
  have hsp := exchange_space hg'
  constructor
  · intro h
    have := h ⟨.pre, .equal, [(some .fslash, ascii "pull"), (some .fslash, g')]⟩ (by simp [exchangeWatch])
    obtain ⟨cs, k1, k2⟩ := this
    rw [(hsp cs).1 k1] at k2
    rcases k2 with k2 | ⟨xs, k2, k3⟩
    · cases k2
    · cases k2
      obtain ⟨t, ht⟩ := k3
      simp only [pullSpace, List.cons_append, List.nil_append, List.cons.injEq, true_and] at ht
      exact ht.1
  · rintro rfl r hr
    simp only [exchangeWatch, List.mem_cons, List.not_mem_nil, or_false] at hr
    rcases hr with rfl | rfl | rfl
    · refine (sat_field_full _ _ _ (by decide) _).2 ⟨link_type _ _ _ _, ?_⟩
      show beNat c.domain = _
      rw [e2]
    · refine (sat_field_full _ _ _ rfl _).2 ⟨link_type _ _ _ _, ?_⟩
      show beNat c.group = _
      rw [e1]
    · exact ⟨_, (hsp _).2 rfl, .inr ⟨_, rfl, [d, i], rfl⟩⟩

/-- **C67**: an exchange for a group sees the requests for that group and no others. -/
theorem pull_seen {g' : Bytes} (hg' : g'.length = 32) : ∃ s, Preds.default.run true (exchangeWatch g') = .ok s ∧
    ∀ {p : NetParts} {g d i text : Bytes} {now : Nat}, PullRequest p g d i text now → (s.test p = true ↔ g' = g) := by
  have h0 : PullRequest _ g' (List.replicate 16 0) [1] [] 0 :=
    pull_request (nh := List.replicate 32 0) toyCrypto_laws rfl (by decide) hg' rfl (by decide) (by decide) (by decide)
  obtain ⟨x0, hx0, hs0⟩ := exchange_sat hg' h0
  obtain ⟨s, hs⟩ := query_accepts (t := 0) (c := fun _ => 0) (exchange_plain hg') (wf_shown hx0) (hs0.2 rfl) (by
    intro r hr
    simp only [exchangeWatch, List.mem_cons, List.not_mem_nil, or_false] at hr
    rcases hr with rfl | rfl | rfl
    · intro h; cases h
    · intro h; cases h
    · trivial)
  refine ⟨s, hs, fun hp => ?_⟩
  obtain ⟨x, hx, hsx⟩ := exchange_sat hg' hp
  rw [filter_exact hs (exchange_plain hg') hx, hsx]

/-! ### ids that abort -/

/-- **C67** (finding): with an empty id, or one longer than 186 bytes, a request aborts instead of being refused. -/
theorem pull_aborts (h : Preds.default.run true rs = .ok q.preds) (hc : ∀ l ∈ q.conf, IsOption l) {g d i text : Bytes} (hg : g.length = 32)
    (hd : d.length = 16) (pg : Pins rs .group (beNat g)) (pd : Pins rs .domain (beNat d))
    (hi : Newest (Carries (ascii "qid")) q.conf (plainOption (ascii "qid") i)) (ht : toText true q = .ok text) (hl : i.length = 0 ∨ 186 < i.length) :
    pullPoint C nh now q = .error .panic := by
  have hnum : ∀ {n : Nat} {b : Bytes}, b.length = n → (BitVec.ofNat (8 * n) (beNat b)).toNat = beNat b := by
    intro n b hb
    have := be_bytes hb
    have h2 := (be_number (n := n) (BitVec.ofNat (8 * n) (beNat b))).2
    rw [this] at h2
    exact h2.symm
  have hg' := (asEq_iff h (f := .group) nofun nofun (BitVec.ofNat (8 * 32) (beNat g))).2 ((congrArg (Pins rs .group) (hnum hg)).mpr pg)
  have hd' := (asEq_iff h (f := .domain) nofun nofun (BitVec.ofNat (8 * 16) (beNat d))).2 ((congrArg (Pins rs .domain) (hnum hd)).mpr pd)
  have ho := (option_value_iff hc _ _).2 hi
  unfold pullPoint queryId rspaceBuf
  rw [hg', hd', ho]
  simp only [orErr, Option.bind_some, id, ht]
  have e1 : @be VF.group.width (BitVec.ofNat (8 * 32) (beNat g)) = g := be_bytes hg
  have e2 : @be VF.domain.width (BitVec.ofNat (8 * 16) (beNat d)) = d := be_bytes hd
  rw [e1, e2]
  cases hr : Rooted.tryFromIter [ascii "pull", g, d, i] with
  | error e => rfl
  | ok r =>
    obtain ⟨_, hs, _⟩ := (rooted_build_iff _ _).1 hr
    have := (pull_place hg hd).1 hs
    omega

/-! ### a domain that is not plain text -/

/-- A query for the domain of one byte 1. -/
def pullRules (d : Bytes) : List Stmt := [⟨.field .domain, .equal, [(none, d)]⟩, ⟨.field .group, .equal, [(none, List.replicate 32 7)]⟩]

/-- The predicates of a query, for the examples. -/
def predsOf (rs : List Stmt) : Preds :=
  match Preds.default.run true rs with
  | .ok s => s
  | .error _ => .default

theorem predsOf_run {rs : List Stmt} (h : (match Preds.default.run true rs with | .ok _ => true | .error _ => false) = true) :
    Preds.default.run true rs = .ok (predsOf rs) := by
  unfold predsOf
  cases hr : Preds.default.run true rs with
  | ok s => rfl
  | error e => rw [hr] at h; cases h

/-- One `=` statement with all bytes of its field. -/
theorem pins_full {s : Preds} (h : Preds.default.run true rs = .ok s) {f : VF} {b : Bytes} (hb : b.length = f.bytes)
    (hr : (⟨.field f, .equal, [(none, b)]⟩ : Stmt) ∈ rs) : Pins rs f (beNat b) :=
  pins_of_equal h hr rfl rfl ((valueIs_full f b hb _).2 rfl) fun m => (valueIs_full f b hb m).1

theorem newest_single (i : Bytes) : Newest (Carries (ascii "qid")) [plainOption (ascii "qid") i] (plainOption (ascii "qid") i) :=
  ⟨[], [], rfl, ⟨_, _, _, rfl⟩, fun _ h => nomatch h⟩

theorem single_option (i : Bytes) : ∀ l ∈ [plainOption (ascii "qid") i], IsOption l := by
  intro l hl
  rw [List.mem_singleton.1 hl]
  exact ⟨_, _, _, rfl⟩

/-- **C67** (finding): a request for the domain of one byte 1 is put at the place of that domain, and its text is read as a query for the domain
of the four characters `\x01`. -/
theorem pull_other_domain (hnh : nh.length = 32) (pa : Params) (n : Nat) :
    let d : Bytes := List.replicate 15 0 ++ [1]
    let d' : Bytes := List.replicate 12 0 ++ ascii "\\x01"
    ∃ q p text q', Preds.default.run true (pullRules d) = .ok q.preds ∧ pullPoint toyCrypto nh 5 q = .ok p ∧
      PullRequest p (List.replicate 32 7) d (ascii "x") text 5 ∧ Query.empty.parse true (coreScope pa) (n + 1) text = .ok q' ∧
      Preds.default.run true (⟨.field .type, .mask1, [(none, [2])]⟩ :: pullRules d') = .ok q'.preds := by
  intro d d'
  have hr : Preds.default.run true (pullRules d) = .ok (predsOf (pullRules d)) := predsOf_run (by decide +kernel)
  have hr' : Preds.default.run true (⟨.field .type, .mask1, [(none, [2])]⟩ :: pullRules d') = .ok _ := predsOf_run (by decide +kernel)
  let q : QText.Query := ⟨predsOf (pullRules d), [plainOption (ascii "qid") (ascii "x")]⟩
  have ho : q.preds.iter true = .ok (⟨.field .type, .mask1, [(none, [2])]⟩ :: pullRules d) := by decide +kernel
  have l1 : ∃ t, stmtText true ⟨.field .type, .mask1, [(none, [2])]⟩ = .ok t ∧ LineOf true (coreScope pa) n ⟨.field .type, .mask1, [(none, [2])]⟩ t :=
    canonical_line true pa n (iter_yields hr ho _ (by simp)) (by intro e he h; rcases h with h | ⟨h, _⟩ <;> cases h)
  have l3 : ∃ t, stmtText true ⟨.field .group, .equal, [(none, List.replicate 32 7)]⟩ = .ok t ∧
      LineOf true (coreScope pa) n ⟨.field .group, .equal, [(none, List.replicate 32 7)]⟩ t :=
    canonical_line true pa n (iter_yields hr ho _ (by simp [pullRules])) (by intro e he h; rcases h with h | ⟨h, _⟩ <;> cases h)
  have l2 : ∃ t, stmtText true ⟨.field .domain, .equal, [(none, d)]⟩ = .ok t ∧ LineOf true (coreScope pa) n ⟨.field .domain, .equal, [(none, d')]⟩ t := by
    refine ⟨printAbe (stmtAbe ⟨.field .domain, .equal, [(none, d)]⟩ (callAbe (ascii "a") (ascii "\\x01"))), by decide +kernel, ?_⟩
    refine value_line (k := .field .domain) (b := d') true _ n .equal nofun (reads_call (b := d') (coreScope pa) _ asc_a ?_)
    rw [(core_hasText pa).a]
    have : pad [ascii "\\x01"] true 0 true false = some d' := by decide +kernel
    rw [this]; rfl
  obtain ⟨t1, a1, b1⟩ := l1
  obtain ⟨t2, a2, b2⟩ := l2
  obtain ⟨t3, a3, b3⟩ := l3
  have ht : toText true q = .ok (displayConf q.conf ++ (t1 ++ 0x0a :: (t2 ++ 0x0a :: (t3 ++ 0x0a :: [])))) := by
    unfold toText
    rw [ho]
    simp only [pullRules, stmtLines, a1, a2, a3]
  have hlen : (displayConf q.conf ++ (t1 ++ 0x0a :: (t2 ++ 0x0a :: (t3 ++ 0x0a :: [])))).length ≤ 1000 := by
    have : (match toText true q with | .ok t => decide (t.length ≤ 1000) | .error _ => false) = true := by decide +kernel
    rw [ht] at this
    exact of_decide_eq_true this
  generalize hg : (displayConf q.conf ++ (t1 ++ 0x0a :: (t2 ++ 0x0a :: (t3 ++ 0x0a :: [])))) = text at ht hlen
  have hx : (ascii "x").length = 1 := rfl
  have hsz : 128 + (ascii "x").length + text.length ≤ 65024 := by omega
  have hd : d.length = 16 := by decide
  have hp := (pull_iff (C := toyCrypto) (nh := nh) (now := 5) (q := q) hr (single_option _) (by decide) _).2
    ⟨List.replicate 32 7, d, ascii "x", text, rfl, hd, pins_full hr rfl (by simp [pullRules]), pins_full hr hd (by simp [pullRules]), newest_single _,
      by decide, by decide, ht, hsz, rfl⟩
  refine ⟨q, _, text, ⟨predsOf (⟨.field .type, .mask1, [(none, [2])]⟩ :: pullRules d'), q.conf.reverse⟩, hr, hp,
    pull_request toyCrypto_laws hnh (by decide) rfl hd (by decide) (by decide) hsz, ?_, hr'⟩
  unfold Query.parse
  rw [← hg, displayConf_lines, show q.conf.reverse = [plainOption (ascii "qid") (ascii "x")] from rfl, options_run true _ n (single_option (ascii "x")) ?_]
  · rw [splitLines_append _ _ b1.2.1, addLines_cons true _ n _ b1, splitLines_append _ _ b2.2.1]
    rw [Preds.run] at hr'
    simp only [Query.empty] at *
    cases h1 : Preds.default.and true ⟨.field .type, .mask1, [(none, [2])]⟩ with
    | error e => rw [h1] at hr'; cases hr'
    | ok s1 =>
      rw [h1] at hr'
      simp only [pullRules] at hr' ⊢
      rw [addLines_cons true _ n _ b2, splitLines_append _ _ b3.2.1]
      rw [Preds.run] at hr'
      cases h2 : s1.and true ⟨.field .domain, .equal, [(none, d')]⟩ with
      | error e => rw [h2] at hr'; cases hr'
      | ok s2 =>
        rw [h2] at hr'
        simp only at hr' ⊢
        rw [addLines_cons true _ n _ b3]
        rw [Preds.run] at hr'
        cases h3 : s2.and true ⟨.field .group, .equal, [(none, List.replicate 32 7)]⟩ with
        | error e => rw [h3] at hr'; cases hr'
        | ok s3 =>
          rw [h3] at hr'
          cases hr'
          rfl
  · intro l hl
    rw [List.mem_singleton.1 hl]
    intro e he
    rw [List.mem_singleton.1 he]
    nofun

/-! ### a query that meets the hypotheses -/

/-- `domain:=:[a:hi]`, `group:=:` seven 32 times, `:qid:x`. -/
def pullHi : QText.Query := ⟨predsOf (pullRules (List.replicate 14 0 ++ ascii "hi")), [plainOption (ascii "qid") (ascii "x")]⟩

theorem pullHi_run : Preds.default.run true (pullRules (List.replicate 14 0 ++ ascii "hi")) = .ok pullHi.preds := predsOf_run (by decide +kernel)

/-- A point without links and data in the domain and group of the query. -/
def pullHiContent : LinkContent := ⟨List.replicate 32 7, List.replicate 14 0 ++ ascii "hi", 5, [], [], []⟩

theorem pullHi_shows : ∃ p x t c, Shows p x ∧ AllSat (pullRules (List.replicate 14 0 ++ ascii "hi")) x t c := by
  have hv : (Content.link pullHiContent).Valid := ⟨by decide, rfl, by decide, by decide, fun _ h => (nomatch h), rfl⟩
  refine ⟨⟨List.replicate 32 0, List.replicate 32 0, (Content.link pullHiContent).parts⟩, _, 0, fun _ => 0,
    ⟨.link pullHiContent, [], ⟨rfl, hv, rfl, rfl⟩, rfl, ⟨⟨fun _ h => (nomatch h), rfl, by decide⟩, by decide, .inl rfl⟩⟩, ?_⟩
  intro r hr
  simp only [pullRules, List.mem_cons, List.not_mem_nil, or_false] at hr
  rcases hr with rfl | rfl
  · exact ⟨(sat_field_full _ _ _ (by decide) _).2 ⟨link_type _ _ _ _, rfl⟩, fun h => by cases h⟩
  · exact ⟨(sat_field_full _ _ _ rfl _).2 ⟨link_type _ _ _ _, rfl⟩, fun h => by cases h⟩

/-- It is requested, and its text reads as a query that selects the same packets. -/
theorem pullHi_meets (hnh : nh.length = 32) (pa : Params) (n : Nat) :
    ∃ p text q', pullPoint toyCrypto nh 5 pullHi = .ok p ∧ PullRequest p (List.replicate 32 7) (List.replicate 14 0 ++ ascii "hi") (ascii "x") text 5 ∧
      Query.empty.parse true (coreScope pa) (n + 1) text = .ok q' ∧ ∀ p x, Shows p x → q'.preds.test p = pullHi.preds.test p := by
  have ho : pullHi.preds.iter true = .ok (⟨.field .type, .mask1, [(none, [2])]⟩ :: pullRules (List.replicate 14 0 ++ ascii "hi")) := by decide +kernel
  have hd : (List.replicate 14 (0 : UInt8) ++ ascii "hi").length = 16 := by decide
  obtain ⟨t, q', h1, h2, _, h4⟩ := pull_reads_partial pullHi_run
    (by
      intro r hr
      simp only [pullRules, List.mem_cons, List.not_mem_nil, or_false] at hr
      rcases hr with rfl | rfl <;> exact field_plain rfl)
    pullHi_shows
    (by
      rintro ⟨k, hk⟩
      have h0 : ∀ m, m < 2 ^ 256 → m = k := fun m hm => hk m hm fun r hr hf => by
        simp only [pullRules, List.mem_cons, List.not_mem_nil, or_false] at hr
        rcases hr with rfl | rfl <;> cases hf
      have := h0 0 (by decide)
      have := h0 1 (by decide)
      omega)
    (by
      intro out hout
      rw [ho] at hout
      cases hout
      intro r hr
      simp only [pullRules, List.mem_cons, List.not_mem_nil, or_false] at hr
      rcases hr with rfl | rfl | rfl <;> intro e he <;> rw [List.mem_singleton.1 he]
      · rintro (h | ⟨h, _⟩) <;> cases h
      · intro _
        exact ⟨14, 0, ascii "hi", .inl rfl, rfl, by decide +kernel⟩
      · rintro (h | ⟨h, _⟩) <;> cases h)
    (single_option _)
    (by
      intro l hl
      rw [List.mem_singleton.1 hl]
      intro e he
      rw [List.mem_singleton.1 he]
      nofun) pa n
  have hlen : t.length ≤ 1000 := by
    have : (match toText true pullHi with | .ok t => decide (t.length ≤ 1000) | .error _ => false) = true := by decide +kernel
    rw [h1] at this
    exact of_decide_eq_true this
  have hx : (ascii "x").length = 1 := rfl
  have hsz : 128 + (ascii "x").length + t.length ≤ 65024 := by omega
  exact ⟨_, t, q', (pull_iff pullHi_run (single_option _) (by decide) _).2
    ⟨List.replicate 32 7, _, ascii "x", t, rfl, hd, pins_full pullHi_run rfl (by simp [pullRules]), pins_full pullHi_run hd (by simp [pullRules]),
      newest_single _, by decide, by decide, h1, hsz, rfl⟩, pull_request toyCrypto_laws hnh (by decide) rfl hd (by decide) (by decide) hsz, h2, h4⟩

/-- An empty id aborts. -/
example : pullPoint toyCrypto nh 5 ⟨pullHi.preds, [plainOption (ascii "qid") []]⟩ = .error .panic := by
  have ht : ∃ t, toText true ⟨pullHi.preds, [plainOption (ascii "qid") []]⟩ = .ok t := by
    cases h : toText true ⟨pullHi.preds, [plainOption (ascii "qid") []]⟩ with
    | ok t => exact ⟨t, rfl⟩
    | error e =>
      have : (toText true ⟨pullHi.preds, [plainOption (ascii "qid") []]⟩).isOk = true := by decide +kernel
      rw [h] at this
      cases this
  obtain ⟨t, ht⟩ := ht
  exact pull_aborts pullHi_run (single_option _) rfl (by decide) (pins_full pullHi_run (b := List.replicate 32 7) rfl (by simp [pullRules]))
    (pins_full pullHi_run (b := List.replicate 14 0 ++ ascii "hi") (by decide) (by simp [pullRules])) (newest_single _) ht (.inl rfl)

end Verif.Props
