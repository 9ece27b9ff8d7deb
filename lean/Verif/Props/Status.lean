import Verif.Lemmas.Status
/-!
# C69: status requests and replies

`lk_status_watch` asks which processes handle something and is told their replies; `lk_status_set` replies.
-/
namespace Verif.Props
open Verif Verif.Pkt Verif.Pred Verif.Spec Verif.Conv Verif.QText Verif.Opt Verif.Query Verif.Abl Verif.Shake Verif.Env Verif.Lns Verif.Rt

variable {C : Crypto} {nh : Bytes} {now : Nat} {st : Status}

/-! ### the place -/

/-- **C69**: requests and replies have a place exactly if the type, and the instance if there is one, are not empty and fit into a space. -/
theorem status_space_iff (hg : st.group.length = 32) (r : Bytes) :
    statusSpace st = .ok r ↔ StatusFits st.objtype st.inst ∧ r = rootedOf (statusPlace st.group st.objtype st.inst) := statusSpace_iff hg r

/-- **C69**: what is about something else is at another place. -/
theorem status_same_place {g t g' t' : Bytes} {i i' : Option Bytes} (hg : g.length = 32) (hg' : g'.length = 32) (hf : StatusFits t i)
    (hf' : StatusFits t' i') : rootedOf (statusPlace g t i) = rootedOf (statusPlace g' t' i') ↔ g = g' ∧ t = t' ∧ i = i' := by
  rw [← statusPlace_eq]
  constructor
  · exact rooted_injective _ _ ((status_place hg).2 hf) ((status_place hg').2 hf') (by have := statusPlace_length g t i; omega)
      (by have := statusPlace_length g' t' i'; omega)
  · rintro h; rw [h]

/-! ### the request -/

/-- The content of a request. -/
def requestContent (st : Status) (now : Nat) : LinkContent := ⟨zeroGroup, st.domain, now, [], rootedOf (statusPlace st.group st.objtype st.inst), []⟩

theorem request_sized (hg : st.group.length = 32) (hd : st.domain.length = 16) (hf : StatusFits st.objtype st.inst) (hn : now < 2 ^ 64) :
    (requestContent st now).Sized where
  group := rfl
  domain := hd
  stamp := hn
  links := fun _ h => nomatch h
  rspace := rooted_check_accepts _ ((status_place hg).2 hf) (by have := statusPlace_length st.group st.objtype st.inst; omega)

theorem request_size (hg : st.group.length = 32) (hf : StatusFits st.objtype st.inst) : (Content.link (requestContent st now)).size ≤ 65024 := by
  show 64 + 48 * 0 + (rootedOf (statusPlace st.group st.objtype st.inst)).length + 0 ≤ 65024
  rw [rootedOf, if_neg (statusPlace_ne _ _ _), Rooted.rootedWith_length]
  have := ((status_place hg).2 hf).size
  omega

/-- **C69**: a request is made exactly if there is a place, and is the unsigned point made now in the private group and the given domain at this
place, without links and data. -/
theorem status_request_iff (hg : st.group.length = 32) (hd : st.domain.length = 16) (hn : now < 2 ^ 64) (p : NetParts) :
    statusRequest C nh now st = .ok p ↔ StatusFits st.objtype st.inst ∧
      p = ⟨nh, C.hash (Content.link (requestContent st now)).layout, (Content.link (requestContent st now)).parts⟩ := by
  unfold statusRequest
  cases hs : statusSpace st with
  | error e =>
    constructor
    · intro h; cases h
    · rintro ⟨hf, _⟩
      rw [(statusSpace_iff hg _).2 ⟨hf, rfl⟩] at hs
      cases hs
  | ok sp =>
    obtain ⟨hf, rfl⟩ := (statusSpace_iff hg _).1 hs
    simp only
    have e : tryLinkpoint C privateGroup st.domain (rootedOf (statusPlace st.group st.objtype st.inst)) [] [] now nh = _ :=
      tryPoint_eq (C := C) (request_sized hg hd hf hn) none nh
    have hz : (contentOf C (requestContent st now) none).size ≤ 65024 := request_size hg hf
    rw [e, if_pos hz]
    simp only [ofPkt, Except.ok.injEq]
    exact ⟨fun h => ⟨hf, h.symm⟩, fun h => h.2.symm⟩

theorem status_request_made (hC : C.Laws) (hnh : nh.length = 32) (hg : st.group.length = 32) (hd : st.domain.length = 16) (hn : now < 2 ^ 64)
    {p : NetParts} (h : statusRequest C nh now st = .ok p) : StatusRequest p st.domain st.group st.objtype st.inst now := by
  obtain ⟨hf, rfl⟩ := (status_request_iff hg hd hn p).1 h
  exact ⟨requestContent st now, ⟨rfl, ⟨request_size hg hf, request_sized hg hd hf hn⟩, hC.hash_len _, hnh⟩, status_rooted hg hf, rfl⟩

/-! ### what is asked for -/

theorem point_sized {p : NetParts} {c : LinkContent} {cs : List Bytes} (h : PointAt p c cs) : c.Sized := by
  obtain ⟨hp | ⟨k, s, hp⟩, _⟩ := h
  · exact hp.valid.2
  · exact hp.valid.2.1

theorem over_meets {d g t : Bytes} {i : Option Bytes} {after : Nat} (hg : g.length = 32) (hd : d.length = 16) (hf : StatusFits t i) (ha : after < 2 ^ 64)
    (n : Nat) (p : NetParts) : Meets (overRules d (statusPlace g t i) after) n p ↔ ∃ c, StatusAbout p d g t i after c := by
  have hs := (status_place hg).2 hf
  have hrecv : ∀ r ∈ overRules d (statusPlace g t i) after, RecvOk r n := by
    intro r hr
    simp only [overRules, List.mem_cons, List.not_mem_nil, or_false] at hr
    rcases hr with rfl | rfl | rfl | rfl <;> exact nofun
  have key := shows_point p (fun num sp => num .group = 0 ∧ num .domain = beNat d ∧ after < num .create ∧ ∃ xs, sp = some xs ∧ statusPlace g t i <+: xs)
    (fun n m s e h => ⟨e .group (by simp) ▸ h.1, e .domain (by simp) ▸ h.2.1, e .create (by simp) ▸ h.2.2.1, h.2.2.2⟩)
  have e1 : Meets (overRules d (statusPlace g t i) after) n p ↔ ∃ x, Shows p x ∧ HasType x 2 ∧ (x.num .group = 0 ∧ x.num .domain = beNat d ∧
      after < x.num .create ∧ ∃ xs, x.space = some xs ∧ statusPlace g t i <+: xs) := by
    constructor
    · rintro ⟨x, h1, h2, _⟩
      exact ⟨x, h1, (over_sat hd hs (statusPlace_ne _ _ _) ha x).1 h2⟩
    · rintro ⟨x, h1, h2⟩
      exact ⟨x, h1, (over_sat hd hs (statusPlace_ne _ _ _) ha x).2 h2, hrecv⟩
  rw [e1, key]
  constructor
  · rintro ⟨c, cs, hp, k1, k2, k3, xs, k4, k5⟩
    cases k4
    have hz := point_sized hp
    exact ⟨c, cs, hp, beNat_inj' (hz.group.trans rfl) (k1.trans beNat_zeroes.symm), beNat_inj' (hz.domain.trans hd.symm) k2, k3, k5⟩
  · rintro ⟨c, cs, hp, k1, k2, k3, k4⟩
    exact ⟨c, cs, hp, by show beNat c.group = 0; rw [k1]; decide, by show beNat c.domain = _; rw [k2], k3, cs, rfl, k4⟩

theorem rule_texts : ruleOf (ascii "group") = some (.field .group) ∧ ruleOf (ascii "domain") = some (.field .domain) ∧
    ruleOf (ascii "create") = some (.field .create) ∧ ruleOf (ascii "prefix") = some .pre ∧ ruleOf (ascii "data_size") = some (.field .dataSize) ∧
    ruleOf (ascii "links_len") = some (.field .linksLen) ∧ ruleOf (ascii "recv") = some .recv ∧ ruleOf (ascii "i_db") = some (.limit .index) ∧
    extOpOf (ascii "=") = some (.op .equal) ∧ extOpOf (ascii "<") = some (.op .less) ∧ extOpOf (ascii ">") = some (.op .greater) := by decide +kernel

theorem over_pushes (d : Bytes) (pl : List Bytes) (after : Nat) : Pushes [(ascii "group", ascii "=", privateGroup), (ascii "domain", ascii "=", d),
    (ascii "create", ascii ">", beBytes 8 after), (ascii "prefix", ascii "=", encodeSpace pl)] (overRules d pl after) := by
  obtain ⟨r1, r2, r3, r4, _, _, _, _, o1, _, o3⟩ := rule_texts
  exact .cons (by decide) r1 o1 rfl (.cons (by decide) r2 o1 rfl (.cons (by decide) r3 o3 rfl (.cons (by decide) r4 o1 rfl .nil)))

theorem over_run (hg : st.group.length = 32) (age : Nat) (q : QText.Query) : statusOverwatch now st age = .ok q ↔ StatusFits st.objtype st.inst ∧
    Preds.default.run true (overRules st.domain (statusPlace st.group st.objtype st.inst) (now - age)) = .ok q.preds ∧ q.conf = [] := by
  unfold statusOverwatch
  cases hs : statusSpace st with
  | error e =>
    constructor
    · intro h; cases h
    · rintro ⟨hf, _⟩
      rw [(statusSpace_iff hg _).2 ⟨hf, rfl⟩] at hs
      cases hs
  | ok sp =>
    obtain ⟨hf, rfl⟩ := (statusSpace_iff hg _).1 hs
    simp only
    rw [Tree.wellRooted_space (status_rooted hg hf), pushAll_run (over_pushes _ _ _)]
    exact ⟨fun h => ⟨hf, h⟩, fun h => h.2⟩

/-- A packet made at `n` at the place, with or without links and data. -/
def spotContent (d g t : Bytes) (i : Option Bytes) (n : Nat) (links : List Link) (data : Bytes) : LinkContent :=
  ⟨zeroGroup, d, n, links, rootedOf (statusPlace g t i), data⟩
def spotPkt (c : LinkContent) : NetParts := ⟨List.replicate 32 0, List.replicate 32 0, (Content.link c).parts⟩

theorem spot_point {d g t : Bytes} {i : Option Bytes} {n : Nat} {links : List Link} {data : Bytes} (hg : g.length = 32) (hd : d.length = 16) (hf : StatusFits t i)
    (hn : n < 2 ^ 64) (hl : LinksSized links) (hz : 48 * links.length + data.length ≤ 60000) :
    PointAt (spotPkt (spotContent d g t i n links data)) (spotContent d g t i n links data) (statusPlace g t i) := by
  refine ⟨.inl ⟨rfl, ⟨?_, rfl, hd, hn, hl, rooted_check_accepts _ ((status_place hg).2 hf) (by have := statusPlace_length g t i; omega)⟩, rfl, rfl⟩, status_rooted hg hf⟩
  show 64 + 48 * links.length + (rootedOf (statusPlace g t i)).length + data.length ≤ 65024
  rw [rootedOf, if_neg (statusPlace_ne _ _ _), Rooted.rootedWith_length]
  have := ((status_place hg).2 hf).size
  omega

theorem spot_wf {p : NetParts} {c : LinkContent} {cs : List Bytes} (h : PointAt p c cs) : ∃ x, Shows p x ∧ HasType x 2 ∧ HasType x 1 ∧
    x.num .group = beNat c.group ∧ x.num .domain = beNat c.domain ∧ x.num .create = c.stamp ∧ x.num .dataSize = c.data.length ∧
    x.num .linksLen = c.links.length ∧ x.space = some cs := by
  obtain ⟨hp | ⟨k, s, hp⟩, hw⟩ := h
  · refine ⟨_, ⟨_, cs, hp, rfl, hw⟩, link_type _ _ _ _, ?_, rfl, rfl, rfl, rfl, rfl, rfl⟩
    intro j hj
    rw [show (1 : Nat) = 2 ^ 0 from rfl, Nat.testBit_two_pow] at hj
    have := of_decide_eq_true hj
    subst this
    show Nat.testBit 3 0 = true
    decide
  · refine ⟨_, ⟨_, cs, hp, rfl, hw⟩, key_type _ _ _ _ _ _, ?_, rfl, rfl, rfl, rfl, rfl, rfl⟩
    intro j hj
    rw [show (1 : Nat) = 2 ^ 0 from rfl, Nat.testBit_two_pow] at hj
    have := of_decide_eq_true hj
    subst this
    show Nat.testBit 7 0 = true
    decide

theorem over_accepts {d g t : Bytes} {i : Option Bytes} {after : Nat} (hg : g.length = 32) (hd : d.length = 16) (hf : StatusFits t i)
    (ha : after + 1 < 2 ^ 64) : ∃ s, Preds.default.run true (overRules d (statusPlace g t i) after) = .ok s := by
  have hs := (status_place hg).2 hf
  have hp := spot_point (n := after + 1) (links := []) (data := []) hg hd hf ha (fun _ h => nomatch h) (by simp)
  obtain ⟨x, h1, h2, _, h3, h4, h5, _, _, h8⟩ := spot_wf hp
  refine query_accepts (over_plain hs (by have := statusPlace_length g t i; omega)) (wf_shown h1) (t := 0#64) (c := fun _ => 0#32)
    ((over_sat hd hs (statusPlace_ne _ _ _) (by omega) x).2 ⟨h2, by rw [h3]; exact beNat_zeroes, h4, by rw [h5]; exact Nat.lt_succ_self _, _, h8, List.prefix_refl _⟩) ?_
  intro r hr
  simp only [overRules, List.mem_cons, List.not_mem_nil, or_false] at hr
  rcases hr with rfl | rfl | rfl | rfl
  · exact nofun
  · exact nofun
  · exact nofun
  · trivial

/-- **C69**: the query for requests and replies is made exactly if there is a place; it selects the link and key points of the private group and the
domain, made after the given age, whose space is the place or below it. -/
theorem status_overwatch_iff (hg : st.group.length = 32) (hd : st.domain.length = 16) {age : Nat} (hn : now - age + 1 < 2 ^ 64) :
    (StatusFits st.objtype st.inst ↔ ∃ q, statusOverwatch now st age = .ok q) ∧
    ∀ q, statusOverwatch now st age = .ok q → q.conf = [] ∧
      ∀ p x, Shows p x → (q.preds.test p = true ↔ ∃ c, StatusAbout p st.domain st.group st.objtype st.inst (now - age) c) := by
  refine ⟨⟨fun hf => ?_, fun ⟨q, h⟩ => ((over_run hg age q).1 h).1⟩, ?_⟩
  · obtain ⟨s, hs⟩ := over_accepts hg hd hf hn
    exact ⟨⟨s, []⟩, (over_run hg age _).2 ⟨hf, hs, rfl⟩⟩
  · intro q h
    obtain ⟨hf, hrun, hc⟩ := (over_run hg age q).1 h
    refine ⟨hc, fun p x hx => ?_⟩
    have hs := (status_place hg).2 hf
    have hpl : ∀ r ∈ overRules st.domain (statusPlace st.group st.objtype st.inst) (now - age), Plain r :=
      over_plain hs (by have := statusPlace_length st.group st.objtype st.inst; omega)
    rw [← over_meets hg hd hf (by omega) 0 p]
    have hrecv : ∀ r ∈ overRules st.domain (statusPlace st.group st.objtype st.inst) (now - age), RecvOk r 0 := by
      intro r hr
      simp only [overRules, List.mem_cons, List.not_mem_nil, or_false] at hr
      rcases hr with rfl | rfl | rfl | rfl <;> exact nofun
    constructor
    · intro ht
      exact ⟨x, hx, (filter_exact hrun hpl hx).1 ht, hrecv⟩
    · rintro ⟨y, hy, hsat, _⟩
      exact (filter_exact hrun hpl hy).2 hsat

/-! ### asking -/

/-- The statements of the watch of `lk_status_watch`. -/
def askRules (d : Bytes) (pl : List Bytes) (after until_ : Nat) : List Stmt := overRules d pl after ++ replyRules until_ ++ [noDb]

theorem ask_run {q : QText.Query} {d : Bytes} {pl : List Bytes} {after : Nat} (hq : Preds.default.run true (overRules d pl after) = .ok q.preds) (until_ : Nat)
    (id : Bytes) (q' : QText.Query) : pushAll q [(ascii "data_size", ascii ">", [0, 0]), (ascii "links_len", ascii ">", [0, 0]),
      (ascii "recv", ascii "<", beBytes 8 until_), (ascii "i_db", ascii "<", [0, 0, 0, 0]), ([], ascii "qid", id)] = .ok q' ↔
    Preds.default.run true (askRules d pl after until_) = .ok q'.preds ∧ q'.conf = addOption q.conf (ascii "qid") [id] := by
  obtain ⟨_, _, _, _, r5, r6, r7, r8, _, o2, o3⟩ := rule_texts
  have hp : Pushes [(ascii "data_size", ascii ">", [0, 0]), (ascii "links_len", ascii ">", [0, 0]), (ascii "recv", ascii "<", beBytes 8 until_),
      (ascii "i_db", ascii "<", [0, 0, 0, 0])] (replyRules until_ ++ [noDb]) :=
    .cons (by decide) r5 o3 rfl (.cons (by decide) r6 o3 rfl (.cons (by decide) r7 o2 rfl (.cons (by decide) r8 o2 rfl .nil)))
  have e := pushAll_append q [(ascii "data_size", ascii ">", [0, 0]), (ascii "links_len", ascii ">", [0, 0]), (ascii "recv", ascii "<", beBytes 8 until_),
      (ascii "i_db", ascii "<", [0, 0, 0, 0])] [([], ascii "qid", id)]
  simp only [List.cons_append, List.nil_append] at e
  have er : Preds.default.run true (askRules d pl after until_) = q.preds.run true (replyRules until_ ++ [noDb]) := by
    rw [askRules, List.append_assoc, run_append, hq]
  rw [e, er]
  have key := pushAll_run hp q
  cases hh : pushAll q [(ascii "data_size", ascii ">", [0, 0]), (ascii "links_len", ascii ">", [0, 0]), (ascii "recv", ascii "<", beBytes 8 until_),
      (ascii "i_db", ascii "<", [0, 0, 0, 0])] with
  | error e =>
    constructor
    · intro h; cases h
    · rintro ⟨h1, h2⟩
      rw [(key ⟨q'.preds, q.conf⟩).2 ⟨h1, rfl⟩] at hh
      cases hh
  | ok q1 =>
    obtain ⟨k1, k2⟩ := (key q1).1 hh
    have e2 : pushAll q1 [([], ascii "qid", id)] = .ok { q1 with conf := addOption q1.conf (ascii "qid") [id] } := rfl
    simp only [e2, k1, Except.ok.injEq]
    constructor
    · rintro rfl; exact ⟨rfl, by rw [k2]⟩
    · rintro ⟨h1, h2⟩
      cases q'
      simp only at h1 h2
      rw [h1, h2, k2]

theorem until_bytes {n : Nat} (h : n < 2 ^ 64) : beNat (beBytes 8 n) = n := beNat_beBytes 8 n h

/-- No statement of the query is about positions. -/
theorem ask_counts {d : Bytes} {pl : List Bytes} {after until_ : Nat} : ∀ r ∈ askRules d pl after until_, (∀ q, r.kind = .limit q → r = noDb) ∧ r.kind ≠ .field .hash := by
  intro r hr
  simp only [askRules, overRules, replyRules, List.cons_append, List.nil_append, List.mem_cons, List.not_mem_nil, or_false] at hr
  rcases hr with rfl | rfl | rfl | rfl | rfl | rfl | rfl | rfl <;>
    (refine ⟨fun _ h => ?_, fun h => ?_⟩ <;> first | rfl | (cases h; done))

theorem counts_ok {rs : List Stmt} (h : ∀ r ∈ rs, (∀ q, r.kind = .limit q → r = noDb) ∧ r.kind ≠ .field .hash) {q : QScope} (hq : q ≠ .index) (n : Nat) :
    ∀ r ∈ rs, CountOk q r n := by
  refine fun r hr => ⟨fun hk => ?_, fun _ hk => absurd hk (h r hr).2⟩
  have := (h r hr).1 q hk
  rw [this] at hk
  cases hk
  exact absurd rfl hq

theorem ask_meets {d g t : Bytes} {i : Option Bytes} {after until_ : Nat} (hg : g.length = 32) (hd : d.length = 16) (hf : StatusFits t i) (ha : after < 2 ^ 64)
    (hu : until_ < 2 ^ 64) (n : Nat) (p : NetParts) : Meets (askRules d (statusPlace g t i) after until_) n p ↔
      ∃ c, StatusAbout p d g t i after c ∧ c.links ≠ [] ∧ c.data ≠ [] ∧ n < until_ := by
  have hs := (status_place hg).2 hf
  constructor
  · rintro ⟨x, h1, h2, h3⟩
    have ho : ∀ r ∈ overRules d (statusPlace g t i) after, Sat r x := fun r hr => h2 r (by simp [askRules, hr])
    have hr2 := (over_sat hd hs (statusPlace_ne _ _ _) ha x).1 ho
    have hrep := (reply_sat x hr2.1).1 fun r hr => h2 r (by simp only [askRules, List.mem_append]; exact .inl (.inr hr))
    obtain ⟨c, hc⟩ := (over_meets hg hd hf ha n p).1 ⟨x, h1, ho, fun r hr => h3 r (by simp [askRules, hr])⟩
    obtain ⟨b, _, k2, k3⟩ := h3 ⟨.recv, .less, [(none, beBytes 8 until_)]⟩ (by simp [askRules, replyRules]) rfl
    cases k2
    rw [until_bytes hu] at k3
    obtain ⟨c', cs', hp', e1, e2⟩ := (shows_point p (fun num _ => 0 < num .dataSize ∧ 0 < num .linksLen)
      (fun n m s e h => ⟨e .dataSize (by simp) ▸ h.1, e .linksLen (by simp) ▸ h.2⟩)).1 ⟨x, h1, hr2.1, hrep.2⟩
    obtain ⟨cs, hp, hc'⟩ := hc
    obtain ⟨rfl, rfl⟩ := point_eq hp hp'
    exact ⟨c, ⟨cs, hp, hc'⟩, List.ne_nil_of_length_pos e2, List.ne_nil_of_length_pos e1, k3⟩
  · rintro ⟨c, ⟨cs, hp, k1, k2, k3, k4⟩, l1, l2, hn⟩
    obtain ⟨x, h1, h2, h2', h3, h4, h5, h6, h7, h8⟩ := spot_wf hp
    refine ⟨x, h1, ?_, ?_⟩
    · intro r hr
      simp only [askRules, List.mem_append, List.mem_singleton] at hr
      rcases hr with (hr | hr) | rfl
      · exact (over_sat hd hs (statusPlace_ne _ _ _) ha x).2 ⟨h2, by rw [h3, k1]; exact beNat_zeroes, by rw [h4, k2], by rw [h5]; exact k3, cs, h8, k4⟩ r hr
      · exact (reply_sat x h2).2 ⟨h2', by rw [h6]; exact List.length_pos_iff.2 l2, by rw [h7]; exact List.length_pos_iff.2 l1⟩ r hr
      · trivial
    · intro r hr hk
      simp only [askRules, overRules, replyRules, List.cons_append, List.nil_append, List.mem_cons, List.not_mem_nil, or_false] at hr
      rcases hr with rfl | rfl | rfl | rfl | rfl | rfl | rfl | rfl <;> first | cases hk | skip
      exact ⟨_, beBytes_length 8 until_, rfl, by rw [until_bytes hu]; exact hn⟩

theorem ask_accepts {d g t : Bytes} {i : Option Bytes} {after until_ : Nat} (hg : g.length = 32) (hd : d.length = 16) (hf : StatusFits t i) (ha : after + 1 < 2 ^ 64)
    (hu : until_ < 2 ^ 64) (h0 : 0 < until_) : ∃ s, Preds.default.run true (askRules d (statusPlace g t i) after until_) = .ok s := by
  have hs := (status_place hg).2 hf
  have hp := spot_point (n := after + 1) (links := [⟨List.replicate 16 0, zeroGroup⟩]) (data := [0]) hg hd hf ha
    (by intro l hl; rw [List.mem_singleton.1 hl]; exact ⟨rfl, rfl⟩) (by decide)
  have hm := (ask_meets hg hd hf (by omega) hu 0 _).2 ⟨_, ⟨_, hp, rfl, rfl, Nat.lt_succ_self _, List.prefix_refl _⟩, nofun, nofun, h0⟩
  obtain ⟨x, h1, h2, h3⟩ := hm
  have hsub : ∀ r ∈ overRules d (statusPlace g t i) after ++ replyRules until_, r ∈ askRules d (statusPlace g t i) after until_ :=
    fun r hr => List.mem_append.2 (.inl hr)
  obtain ⟨s, hrun⟩ := query_accepts (rs := overRules d (statusPlace g t i) after ++ replyRules until_)
    (by
      intro r hr
      rcases List.mem_append.1 hr with hr | hr
      · exact over_plain hs (by have := statusPlace_length g t i; omega) r hr
      · exact reply_plain r hr) (wf_shown h1) (t := 0#64) (c := fun _ => 0#32) (fun r hr => h2 r (hsub r hr))
    (by
      intro r hr
      have hk := h3 r (hsub r hr)
      simp only [overRules, replyRules, List.cons_append, List.nil_append, List.mem_cons, List.not_mem_nil, or_false] at hr
      rcases hr with rfl | rfl | rfl | rfl | rfl | rfl | rfl <;> first | exact hk rfl | trivial | (intro h; cases h))
  refine run_noDb hrun ⟨0, by decide, fun r hr => ?_⟩
  exact counts_ok (fun r hr => ask_counts r hr) (q := .new) nofun 0 r (hsub r hr)

theorem taken_all {rs : List Stmt} {nth k : Nat} {L acc : List (Nat × NetParts)} (ha : ∀ k, Accepts rs nth k) (h : Taken rs nth k L acc) :
    acc.Sublist L ∧ ∀ e, e ∈ acc ↔ e ∈ L ∧ Meets rs e.1 e.2 := by
  induction h with
  | nil k => simp
  | pass e hn _ ih =>
    refine ⟨ih.1.cons _, fun f => ?_⟩
    rw [ih.2, List.mem_cons]
    constructor
    · rintro ⟨h1, h2⟩; exact ⟨.inr h1, h2⟩
    · rintro ⟨rfl | h1, h2⟩
      · exact absurd h2 hn
      · exact ⟨h1, h2⟩
  | take e hm _ _ ih =>
    refine ⟨ih.1.cons_cons _, fun f => ?_⟩
    rw [List.mem_cons, ih.2, List.mem_cons]
    constructor
    · rintro (rfl | ⟨h1, h2⟩)
      · exact ⟨.inl rfl, hm⟩
      · exact ⟨.inr h1, h2⟩
    · rintro ⟨rfl | h1, h2⟩
      · exact .inl rfl
      · exact .inr ⟨h1, h2⟩
  | skip e _ hn _ _ => exact absurd (ha _) hn

theorem fed_prefix {α : Type} {cb : List α → α → Bool} {seen out given : List α} {b : Bool} (h : Fed cb seen out given b) : given <+: out := by
  induction h with
  | done => exact List.prefix_refl _
  | stop xs _ => exact ⟨xs, rfl⟩
  | go _ _ ih => exact List.cons_prefix_cons.2 ⟨rfl, ih⟩

/-- What the callback of `lk_get_all` was given are the first results of the query. -/
theorem get_all_given {rs : List Stmt} {s : Preds} (h : Preds.default.run true rs = .ok s) {db : Db} {m : Mode}
    {cb : List (Nat × NetParts) → Nat × NetParts → Bool} {seen : List (Nat × NetParts)} {k : Int} (hg : getAllWith db m s cb = .ok (seen, k)) :
    ∃ out n b, query db m s 0#32 = .ok (out, n) ∧ Fed cb [] out seen b := by
  unfold getAllWith at hg
  cases hl : candidates db m s with
  | error e => rw [hl] at hg; cases hg
  | ok l =>
    rw [hl] at hg
    obtain ⟨out, n, hq, _⟩ := query_counts h 0#32 hl
    have hq' := hq
    unfold query at hq'
    rw [hl] at hq'
    obtain ⟨g, b, c, h1, h2⟩ := loop_fed (cb := cb) hq' []
    rw [List.nil_append] at h1
    simp only [h1] at hg
    refine ⟨out, n, b, hq, ?_⟩
    cases b with
    | false => cases hg; exact h2
    | true =>
      cases hs : satNegCast c with
      | error e => simp only [hs] at hg; cases hg
      | ok r => simp only [hs] at hg; cases hg; exact h2

theorem lastRequest_eq (seen : List (Nat × NetParts)) :
    lastRequest seen = match (seen.filter fun e => isBare e.2).getLast? with | none => 0 | some e => e.2.getCreate := by
  have key : ∀ (l : List (Nat × NetParts)) (t : Nat), l.foldl (fun t e => if isBare e.2 then e.2.getCreate else t) t =
      match (l.filter fun e => isBare e.2).getLast? with | none => t | some e => e.2.getCreate := by
    intro l
    induction l with
    | nil => intro t; rfl
    | cons e l ih =>
      intro t
      rw [List.foldl_cons, ih, List.filter_cons]
      cases hb : isBare e.2 with
      | false => simp
      | true =>
        simp only [if_true]
        cases hl : (l.filter fun e => isBare e.2) with
        | nil => rfl
        | cons a r => simp only [List.getLast?_cons_cons]; cases hh : (a :: r).getLast? with
          | none => simp at hh
          | some _ => rfl
  exact key seen 0

theorem bare_iff {p : NetParts} {c : LinkContent} {cs : List Bytes} (h : PointAt p c cs) : isBare p = true ↔ c.links = [] ∧ c.data = [] := by
  obtain ⟨_, _, _, e4, _, e6⟩ := point_view h
  unfold isBare
  rw [e4, e6]
  simp

theorem request_point {p : NetParts} {d g t : Bytes} {i : Option Bytes} {n : Nat} (h : StatusRequest p d g t i n) :
    ∃ c, PointAt p c (statusPlace g t i) ∧ c.group = zeroGroup ∧ c.domain = d ∧ c.stamp = n ∧ c.links = [] ∧ c.data = [] := by
  obtain ⟨c, hp, hw, hc⟩ := h
  refine ⟨c, ⟨.inl hp, hw⟩, ?_⟩
  rw [hc]
  exact ⟨rfl, rfl, rfl, rfl, rfl⟩

/-- **C69**, partial: what `lk_status_watch` does.  The callback is given stored points about what was asked that are not older than the timeout and have
some links or some data, and the answer is whether there was one.  A request is made now unless a stored one, not older than the timeout, was seen.
The watch ignores the database and is for the points about what was asked that have links and data and come in until a timeout after the request.
Missing is that all the stored replies are given, which is not so (`status_misses`). -/
theorem status_watch_sound_partial (hC : C.Laws) (hnh : nh.length = 32) (hg : st.group.length = 32) (hd : st.domain.length = 16) {db : Db} (hc : Consistent db)
    (hw : AllShow db) {now0 now1 timeout : Nat} (h0 : now0 < 2 ^ 64) (h1 : 0 < now1) (h1' : now1 < 2 ^ 64) {saved : Bool}
    {cb : List (Nat × NetParts) → Nat × NetParts → Bool} {a : Asked} (h : statusWatch C nh db now0 now1 saved cb st timeout = .ok a) :
    (∀ e ∈ a.given, e ∈ db.log ∧ ∃ c, StatusAbout e.2 st.domain st.group st.objtype st.inst (now0 - timeout) c ∧ (c.links ≠ [] ∨ c.data ≠ [])) ∧
    (a.ok = true ↔ a.given ≠ []) ∧
    ∃ last, ((∃ p, a.request = some p ∧ saved = true ∧ StatusRequest p st.domain st.group st.objtype st.inst now1 ∧ last = now1) ∨
        (a.request = none ∧ ∃ e ∈ db.log, ∃ c, StatusAbout e.2 st.domain st.group st.objtype st.inst (now0 - timeout) c ∧ c.links = [] ∧ c.data = [] ∧ last = c.stamp)) ∧
      checkDb a.query.preds = .ok false ∧ getOption a.query.conf (ascii "qid") = .ok (some (some st.qid)) ∧
      ∃ rs, Preds.default.run true rs = .ok a.query.preds ∧ (∀ r ∈ rs, Plain r) ∧ (∀ q k, q ≠ .index → ∀ r ∈ rs, CountOk q r k) ∧
        ∀ n p, Meets rs n p ↔ ∃ c, StatusAbout p st.domain st.group st.objtype st.inst (now0 - timeout) c ∧ c.links ≠ [] ∧ c.data ≠ [] ∧
          n < min (last + timeout) (2 ^ 64 - 1) := by
  unfold statusWatch at h
  cases ho : statusOverwatch now0 st timeout with
  | error e => rw [ho] at h; cases e <;> cases h
  | ok q =>
    rw [ho] at h
    obtain ⟨hf, hrun, hconf⟩ := (over_run hg timeout q).1 ho
    simp only [tryL] at h
    have hmode : getMode q.conf = .ok ⟨.tree, false⟩ := by rw [hconf]; rfl
    rw [hmode] at h
    simp only at h
    cases hget : getAllWith db ⟨.tree, false⟩ q.preds (statusClosure cb) with
    | error e => rw [hget] at h; cases h
    | ok r =>
      obtain ⟨seen, k⟩ := r
      rw [hget] at h
      simp only [runL] at h
      have ha : now0 - timeout < 2 ^ 64 := by omega
      have hs := (status_place hg).2 hf
      obtain ⟨out, n, b, hq, hfed⟩ := get_all_given hrun hget
      have hcounts : ∀ (q : QScope) (k : Nat), ∀ r ∈ overRules st.domain (statusPlace st.group st.objtype st.inst) (now0 - timeout), CountOk q r k := by
        intro q k r hr
        simp only [overRules, List.mem_cons, List.not_mem_nil, or_false] at hr
        rcases hr with rfl | rfl | rfl | rfl <;> exact ⟨nofun, nofun⟩
      have hsound := tree_query_sound_partial hrun (over_plain hs (by have := statusPlace_length st.group st.objtype st.inst; omega))
        (hcounts _ _) ⟨0, by decide, hcounts _ _⟩ hc hw hq
      have hin : ∀ e ∈ seen, e ∈ db.log ∧ ∃ c, StatusAbout e.2 st.domain st.group st.objtype st.inst (now0 - timeout) c := by
        intro e he
        obtain ⟨k1, k2⟩ := hsound.2.2.2 e ((fed_prefix hfed).subset he)
        exact ⟨k1, (over_meets hg hd hf ha _ _).1 k2⟩
      have hgiven : ∀ e ∈ seen.filter (fun e => !isBare e.2), e ∈ db.log ∧ ∃ c, StatusAbout e.2 st.domain st.group st.objtype st.inst (now0 - timeout) c ∧
          (c.links ≠ [] ∨ c.data ≠ []) := by
        intro e he
        obtain ⟨m1, m2⟩ := List.mem_filter.1 he
        obtain ⟨k1, c, k2⟩ := hin e m1
        refine ⟨k1, c, k2, ?_⟩
        obtain ⟨cs, hp, _⟩ := k2
        by_cases hl : c.links = []
        · refine .inr fun hdat => ?_
          rw [(bare_iff hp).2 ⟨hl, hdat⟩] at m2
          cases m2
        · exact .inl hl
      have hany : (seen.any (fun e => !isBare e.2) = true) ↔ seen.filter (fun e => !isBare e.2) ≠ [] := by
        rw [List.any_eq_true, Ne, List.filter_eq_nil_iff]
        simp
      -- the request
      have hlast : ∀ e, (seen.filter fun e => isBare e.2).getLast? = some e → e ∈ db.log ∧ ∃ c, StatusAbout e.2 st.domain st.group st.objtype st.inst (now0 - timeout) c ∧
          c.links = [] ∧ c.data = [] ∧ e.2.getCreate = c.stamp := by
        intro e he
        obtain ⟨m1, m2⟩ := List.mem_filter.1 (List.mem_of_getLast? he)
        obtain ⟨k1, c, k2⟩ := hin e m1
        obtain ⟨cs, hp, hk⟩ := k2
        obtain ⟨b1, b2⟩ := (bare_iff hp).1 m2
        exact ⟨k1, c, ⟨cs, hp, hk⟩, b1, b2, (point_view hp).2.2.1⟩
      have hmade : ∃ last req, (if lastRequest seen = 0 then (match unwrapL (statusRequest C nh now1 st) with
            | .error e => Except.error e
            | .ok p => if saved = true then Except.ok (p.getCreate, some p) else .error .err)
          else .ok (lastRequest seen, none)) = (.ok (last, req) : LRes (Nat × Option NetParts)) ∧
          ((∃ p, req = some p ∧ saved = true ∧ StatusRequest p st.domain st.group st.objtype st.inst now1 ∧ last = now1) ∨
            (req = none ∧ ∃ e ∈ db.log, ∃ c, StatusAbout e.2 st.domain st.group st.objtype st.inst (now0 - timeout) c ∧ c.links = [] ∧ c.data = [] ∧
              last = c.stamp)) := by
        by_cases hz : lastRequest seen = 0
        · rw [if_pos hz] at h ⊢
          cases hreq : statusRequest C nh now1 st with
          | error e => rw [hreq] at h; simp only [unwrapL] at h; cases h
          | ok p =>
            rw [hreq] at h
            simp only [unwrapL] at h ⊢
            cases saved with
            | false => cases h
            | true =>
              have hr := status_request_made hC hnh hg hd h1' hreq
              obtain ⟨c, hp, _, _, e3, _⟩ := request_point hr
              exact ⟨p.getCreate, some p, rfl, .inl ⟨p, rfl, rfl, hr, (point_view hp).2.2.1.trans e3⟩⟩
        · rw [if_neg hz]
          refine ⟨lastRequest seen, none, rfl, .inr ⟨rfl, ?_⟩⟩
          rw [lastRequest_eq] at hz ⊢
          cases hl : (seen.filter fun e => isBare e.2).getLast? with
          | none => rw [hl] at hz; exact absurd rfl hz
          | some e =>
            obtain ⟨k1, c, k2, k3, k4, k5⟩ := hlast e hl
            exact ⟨e, k1, c, k2, k3, k4, k5⟩
      obtain ⟨last, req, hm1, hm2⟩ := hmade
      have h' : (match (.ok (last, req) : LRes (Nat × Option NetParts)) with
        | .error e => Except.error e
        | .ok (last, request) =>
          match tryL (pushAll q [(ascii "data_size", ascii ">", [0, 0]), (ascii "links_len", ascii ">", [0, 0]),
              (ascii "recv", ascii "<", beBytes 8 (min (last + timeout) (2 ^ 64 - 1))), (ascii "i_db", ascii "<", [0, 0, 0, 0]),
              ([], ascii "qid", st.qid)]) with
          | .error e => .error e
          | .ok q => .ok ⟨seen.filter (fun e => !isBare e.2), seen.any (fun e => !isBare e.2), request, q⟩) = (.ok a : LRes Asked) := by
        rw [← hm1]; exact h
      simp only at h'
      cases hpush : pushAll q [(ascii "data_size", ascii ">", [0, 0]), (ascii "links_len", ascii ">", [0, 0]),
          (ascii "recv", ascii "<", beBytes 8 (min (last + timeout) (2 ^ 64 - 1))), (ascii "i_db", ascii "<", [0, 0, 0, 0]),
          ([], ascii "qid", st.qid)] with
      | error e => rw [hpush] at h'; cases e <;> cases h'
      | ok q' =>
        rw [hpush] at h'
        cases h'
        obtain ⟨k1, k2⟩ := (ask_run hrun _ _ _).1 hpush
        refine ⟨hgiven, hany, last, hm2, ?_, ?_, _, k1, ?_, fun q k hq => counts_ok ask_counts hq k, ?_⟩
        · exact noDb_skips k1 (by simp [askRules]) fun r hr => (ask_counts r hr).1
        · show getOption q'.conf _ = _
          rw [k2]; exact option_set _ _ _
        · intro r hr
          simp only [askRules, List.mem_append, List.mem_singleton] at hr
          rcases hr with (hr | hr) | rfl
          · exact over_plain hs (by have := statusPlace_length st.group st.objtype st.inst; omega) r hr
          · exact reply_plain r hr
          · exact noDb_plain
        · exact ask_meets hg hd hf ha (by omega)

/-- **C69**: of the packets that come in after `lk_status_watch`, its callback is given those about what was asked that have links and data, were made no
longer than the timeout before asking, and come in until a timeout after the request, up to the one at which it breaks. -/
theorem status_watch_gives (hC : C.Laws) (hnh : nh.length = 32) (hg : st.group.length = 32) (hd : st.domain.length = 16) {db : Db} (hc : Consistent db)
    (hw : AllShow db) {now0 now1 timeout : Nat} (h0 : now0 < 2 ^ 64) (h1 : 0 < now1) (h1' : now1 < 2 ^ 64) {saved : Bool}
    {cb : List (Nat × NetParts) → Nat × NetParts → Bool} {a : Asked} (h : statusWatch C nh db now0 now1 saved cb st timeout = .ok a)
    {S : Type} (cb' : S → NetParts → S × Bool) (s : S) {L : List (Nat × NetParts)} (hL : Incoming L) (hs : ∀ e ∈ L, ∃ x, Shows e.2 x) (hb : L.length < 2 ^ 32) :
    ∃ w acc m last, Matcher.Watch.new st.qid a.query.preds 0#32 s = .ok w ∧ Matcher.feed cb' [w] L = .ok ((deliver cb' s acc).1, m) ∧ acc.Sublist L ∧
      (∀ e, e ∈ acc ↔ e ∈ L ∧ ∃ c, StatusAbout e.2 st.domain st.group st.objtype st.inst (now0 - timeout) c ∧ c.links ≠ [] ∧ c.data ≠ [] ∧
        e.1 < min (last + timeout) (2 ^ 64 - 1)) ∧
      ((∃ p, a.request = some p ∧ last = now1) ∨ (a.request = none ∧ ∃ e ∈ db.log, ∃ c,
        StatusAbout e.2 st.domain st.group st.objtype st.inst (now0 - timeout) c ∧ c.links = [] ∧ c.data = [] ∧ last = c.stamp)) := by
  obtain ⟨_, _, last, hlast, _, _, rs, hrun, hpl, hcnt, hmeet⟩ := status_watch_sound_partial hC hnh hg hd hc hw h0 h1 h1' h
  have hnew : SomePosition .new rs := ⟨0, by decide, hcnt _ _ nofun⟩
  rcases watch_made hrun hnew st.qid 0#32 s with ⟨w, k1, _⟩ | ⟨_, k2⟩
  · obtain ⟨acc, m, t1, t2, _⟩ := watch_calls hrun hpl hnew k1 cb' hL hs (by show 0 + L.length < 2 ^ 32; omega)
    obtain ⟨t3, t4⟩ := taken_all (fun k => ⟨hcnt _ _ nofun, hcnt _ _ nofun⟩) t1
    refine ⟨w, acc, m, last, k1, t2, t3, fun e => ?_, ?_⟩
    · rw [t4, hmeet]
    · rcases hlast with ⟨p, a1, _, _, a2⟩ | ⟨a1, a2⟩
      · exact .inl ⟨p, a1, a2⟩
      · exact .inr ⟨a1, a2⟩
  · exact absurd (hcnt .query 0 nofun) (k2 0 (Nat.le_refl _) (by decide))

/-- **C69**: a reply of an instance is about what was asked exactly if it was made recently, domain, group and type are those asked for, and no other instance was asked for. -/
theorem status_reply_about {p : NetParts} {d g t i d' g' t' : Bytes} {i' : Option Bytes} {c : LinkContent} (h : StatusReply p d g t i c) (after : Nat) :
    (∃ c', StatusAbout p d' g' t' i' after c') ↔ d' = d ∧ g' = g ∧ t' = t ∧ (i' = none ∨ i' = some i) ∧ after < c.stamp := by
  obtain ⟨hp, h1, h2, _, _⟩ := h
  constructor
  · rintro ⟨c', cs, hp', _, k2, k3, k4⟩
    obtain ⟨rfl, rfl⟩ := point_eq hp' hp
    refine ⟨k2.symm.trans h2, ?_⟩
    cases i' <;> simp [statusPlace] at k4 <;> simp [k4, k3]
  · rintro ⟨rfl, rfl, rfl, hi, ha⟩
    refine ⟨c, _, hp, h1, h2, ha, ?_⟩
    rcases hi with rfl | rfl
    · exact ⟨[i], rfl⟩
    · exact List.prefix_refl _

theorem appendComp_total {sp c : Bytes} (h : 8 ≤ sp.length) : (∃ r, appendComp sp c = .ok r ∧ 8 ≤ r.length) ∨ appendComp sp c = .error (.err ()) := by
  unfold appendComp Rooted.tryAppendComponent
  have hne : sp.isEmpty = false := by cases sp <;> simp_all
  rw [hne]
  simp only [Bool.false_eq_true, if_false]
  split
  · rename_i r hr
    left
    refine ⟨r, rfl, ?_⟩
    split at hr
    · cases hr
    · split at hr
      · cases hr
      · split at hr
        · cases hr
        · rename_i hd
          split at hr
          · cases hr
          · split at hr
            · cases hr
            · cases hr
              simp only [List.length_append, List.length_take, List.length_replicate, List.length_drop, List.length_cons, Space.maxDepth] at hd ⊢
              omega
  · exact .inr rfl
  · rename_i hr
    exfalso
    split at hr
    · cases hr
    · split at hr
      · cases hr
      · split at hr
        · cases hr
        · split at hr
          · cases hr
          · split at hr
            · rename_i hl
              simp only [List.length_append, List.length_drop, List.length_cons] at hl
              omega
            · cases hr

theorem statusSpace_total (st : Status) : (∃ r, statusSpace st = .ok r) ∨ statusSpace st = .error (.err ()) := by
  unfold statusSpace
  rcases appendComp_total (sp := statusRoot) (c := st.group) (by decide) with ⟨r, e, h⟩ | e
  · rw [e]
    simp only
    rcases appendComp_total (c := st.objtype) h with ⟨r', e', h'⟩ | e'
    · rw [e']
      simp only
      cases st.inst with
      | none => exact .inl ⟨_, rfl⟩
      | some i =>
        rcases appendComp_total (c := i) h' with ⟨r', e', _⟩ | e'
        · exact .inl ⟨_, e'⟩
        · exact .inr e'
    · rw [e']; exact .inr rfl
  · rw [e]; exact .inr rfl

/-- **C69**: without a place nothing is asked and nothing is saved; in particular the default `LkStatus`, whose type is empty, is always refused. -/
theorem status_refused {db : Db} {now0 now1 timeout : Nat} {saved : Bool} {cb : List (Nat × NetParts) → Nat × NetParts → Bool} (hg : st.group.length = 32)
    (hf : ¬ StatusFits st.objtype st.inst) : statusWatch C nh db now0 now1 saved cb st timeout = .error .err := by
  have hs : statusSpace st = .error (.err ()) := by
    rcases statusSpace_total st with ⟨r, h⟩ | h
    · exact absurd ((statusSpace_iff hg r).1 h).1 hf
    · exact h
  unfold statusWatch statusOverwatch
  rw [hs]
  rfl

theorem status_default_refused {i : Option Bytes} : ¬ StatusFits [] i := fun h => absurd h.1 (by decide)

/-! ### replying -/

theorem isStatusReply_iff {sp i : Bytes} {p : NetParts} {x : Seen} (hx : Shows p x) (hg : st.group.length = 32)
    (hf : StatusFits st.objtype (some i)) (hs : sp = rootedOf (statusPlace st.group st.objtype (some i))) :
    isStatusReply st sp p = true ↔ ∃ c, StatusReply p st.domain st.group st.objtype i c := by
  obtain ⟨c0, cs0, hp0, _, hw0⟩ := hx
  have key : ∀ (c : LinkContent) (cs : List Bytes), PointAt p c cs → (isStatusReply st sp p = true ↔ ∃ c, StatusReply p st.domain st.group st.objtype i c) := by
    intro c cs hp
    obtain ⟨e1, e2, _, e4, e5, e6⟩ := point_view hp
    unfold isStatusReply
    rw [e1, e2, e4, e5, e6]
    simp only [Bool.and_eq_true, beq_iff_eq, Bool.not_eq_true', List.isEmpty_eq_false_iff]
    constructor
    · rintro ⟨⟨⟨⟨h1, h2⟩, h3⟩, h4⟩, h5⟩
      rw [hs] at h3
      have hpl := status_rooted hg hf
      have henc : encodeSpace cs = encodeSpace (statusPlace st.group st.objtype (some i)) := by
        rw [← Tree.wellRooted_space hp.2, h3, Tree.wellRooted_space hpl]
      have : cs = statusPlace st.group st.objtype (some i) := hp.2.space.unique (henc ▸ hpl.space)
      subst this
      exact ⟨c, hp, h2, h1, h4, h5⟩
    · rintro ⟨c', hp', h1, h2, h3, h4⟩
      obtain ⟨rfl, rfl⟩ := point_eq hp hp'
      refine ⟨⟨⟨⟨h2, h1⟩, ?_⟩, h3⟩, h4⟩
      rw [hs]
      rcases hp.2.form with e | e
      · exact e
      · rw [e, rootedOf, if_neg (statusPlace_ne _ _ _)]
  have none : p.getLinks = [] → (isStatusReply st sp p = true ↔ ∃ c, StatusReply p st.domain st.group st.objtype i c) := by
    intro hl
    constructor
    · unfold isStatusReply
      rw [hl]
      simp
    · rintro ⟨c, hp, _, _, h4, _⟩
      exact absurd ((point_view hp).2.2.2.1.symm.trans hl) h4
  cases c0 with
  | link c => exact key c cs0 ⟨.inl hp0, hw0⟩
  | key c k s => exact key c cs0 ⟨.inr ⟨k, s, hp0⟩, hw0⟩
  | data b => exact none (by unfold NetParts.getLinks; rw [hp0.parts]; rfl)
  | error b => exact none (by unfold NetParts.getLinks; rw [hp0.parts]; rfl)

theorem set_meets {g t : Bytes} (hg : g.length = 32) (hf : StatusFits t none) (n : Nat) (p : NetParts) :
    Meets (setRules (statusPlace g t none) ++ [noDb]) n p ↔ ∃ c cs, PointAt p c cs ∧ c.links = [] ∧ c.data = [] ∧ statusPlace g t none <+: cs := by
  have hs := (status_place hg).2 hf
  constructor
  · rintro ⟨x, h1, h2, _⟩
    obtain ⟨k1, _, k3⟩ := (set_sat hs (statusPlace_ne _ _ _) x).1 fun r hr => h2 r (List.mem_append.2 (.inl hr))
    obtain ⟨c, cs, hp, e1, e2, xs, e3, e4⟩ := (shows_point p (fun num sp => num .dataSize = 0 ∧ num .linksLen = 0 ∧ ∃ xs, sp = some xs ∧ statusPlace g t none <+: xs)
      (fun n m s e h => ⟨e .dataSize (by simp) ▸ h.1, e .linksLen (by simp) ▸ h.2.1, h.2.2⟩)).1 ⟨x, h1, k1, k3⟩
    cases e3
    exact ⟨c, cs, hp, List.eq_nil_of_length_eq_zero e2, List.eq_nil_of_length_eq_zero e1, e4⟩
  · rintro ⟨c, cs, hp, k1, k2, k3⟩
    obtain ⟨x, h1, h2, h2', _, _, _, h6, h7, h8⟩ := spot_wf hp
    refine ⟨x, h1, ?_, ?_⟩
    · intro r hr
      rcases List.mem_append.1 hr with hr | hr
      · exact (set_sat hs (statusPlace_ne _ _ _) x).2 ⟨h2, h2', by rw [h6, k2]; rfl, by rw [h7, k1]; rfl, cs, h8, k3⟩ r hr
      · rw [List.mem_singleton.1 hr]; trivial
    · intro r hr hk
      simp only [setRules, List.cons_append, List.nil_append, List.mem_cons, List.not_mem_nil, or_false] at hr
      rcases hr with rfl | rfl | rfl | rfl <;> cases hk

theorem set_counts {pl : List Bytes} : ∀ r ∈ setRules pl ++ [noDb], (∀ q, r.kind = .limit q → r = noDb) ∧ r.kind ≠ .field .hash := by
  intro r hr
  simp only [setRules, List.cons_append, List.nil_append, List.mem_cons, List.not_mem_nil, or_false] at hr
  rcases hr with rfl | rfl | rfl | rfl <;> (refine ⟨fun _ h => ?_, fun h => ?_⟩ <;> first | rfl | (cases h; done))

theorem set_accepts {g t : Bytes} (hg : g.length = 32) (hf : StatusFits t none) : ∃ s, Preds.default.run true (setRules (statusPlace g t none) ++ [noDb]) = .ok s := by
  have hs := (status_place hg).2 hf
  have hp := spot_point (d := List.replicate 16 0) (n := 0) (links := []) (data := []) hg rfl hf (by decide) (fun _ h => nomatch h) (by simp)
  obtain ⟨x, h1, h2, _⟩ := (set_meets hg hf 0 _).2 ⟨_, _, hp, rfl, rfl, List.prefix_refl _⟩
  obtain ⟨s, hrun⟩ := query_accepts (set_plain hs (by have := statusPlace_length g t none; omega)) (wf_shown h1) (t := 0#64) (c := fun _ => 0#32)
    (fun r hr => h2 r (List.mem_append.2 (.inl hr)))
    (by
      intro r hr
      simp only [setRules, List.mem_cons, List.not_mem_nil, or_false] at hr
      rcases hr with rfl | rfl | rfl <;> first | trivial | (intro h; cases h))
  exact run_noDb hrun ⟨0, by decide, fun r hr => counts_ok (q := .new) set_counts nofun 0 r (List.mem_append.2 (.inl hr))⟩

theorem set_run (hg : st.group.length = 32) (q : QText.Query) : statusSetQuery st = .ok q ↔ StatusFits st.objtype none ∧
    Preds.default.run true (setRules (statusPlace st.group st.objtype none) ++ [noDb]) = .ok q.preds ∧ q.conf = addOption [] (ascii "qid") [st.qid] := by
  unfold statusSetQuery
  cases hs : statusSpace { st with inst := none } with
  | error e =>
    constructor
    · intro h; cases h
    · rintro ⟨hf, _⟩
      rw [(statusSpace_iff (st := { st with inst := none }) hg _).2 ⟨hf, rfl⟩] at hs
      cases hs
  | ok sp =>
    obtain ⟨hf, rfl⟩ := (statusSpace_iff (st := { st with inst := none }) hg _).1 hs
    simp only at hf ⊢
    rw [Tree.wellRooted_space (status_rooted hg hf)]
    obtain ⟨_, _, _, r4, r5, r6, _, r8, o1, o2, _⟩ := rule_texts
    have hp : Pushes [(ascii "data_size", ascii "=", [0, 0]), (ascii "links_len", ascii "=", [0, 0]), (ascii "prefix", ascii "=", encodeSpace (statusPlace st.group st.objtype none)),
        (ascii "i_db", ascii "<", [0, 0, 0, 0])] (setRules (statusPlace st.group st.objtype none) ++ [noDb]) :=
      .cons (by decide) r5 o1 rfl (.cons (by decide) r6 o1 rfl (.cons (by decide) r4 o1 rfl (.cons (by decide) r8 o2 rfl .nil)))
    have e := pushAll_append .empty [(ascii "data_size", ascii "=", [0, 0]), (ascii "links_len", ascii "=", [0, 0]),
      (ascii "prefix", ascii "=", encodeSpace (statusPlace st.group st.objtype none)), (ascii "i_db", ascii "<", [0, 0, 0, 0])] [([], ascii "qid", st.qid)]
    simp only [List.cons_append, List.nil_append] at e
    have key := pushAll_run hp Query.empty
    have hempty : Query.empty.preds = Preds.default := rfl
    rw [hempty] at key
    rw [e]
    cases hh : pushAll .empty [(ascii "data_size", ascii "=", [0, 0]), (ascii "links_len", ascii "=", [0, 0]),
      (ascii "prefix", ascii "=", encodeSpace (statusPlace st.group st.objtype none)), (ascii "i_db", ascii "<", [0, 0, 0, 0])] with
    | error e =>
      constructor
      · intro h; cases h
      · rintro ⟨_, h1, _⟩
        rw [(key ⟨q.preds, []⟩).2 ⟨h1, rfl⟩] at hh
        cases hh
    | ok q1 =>
      obtain ⟨k1, k2⟩ := (key q1).1 hh
      have e2 : pushAll q1 [([], ascii "qid", st.qid)] = .ok { q1 with conf := addOption q1.conf (ascii "qid") [st.qid] } := rfl
      have k2 : q1.conf = [] := k2
      simp only [e2, k1, Except.ok.injEq]
      constructor
      · rintro rfl; exact ⟨hf, rfl, by rw [k2]⟩
      · rintro ⟨_, h1, h2⟩
        cases q
        simp only at h1 h2
        rw [h1, h2, k2]

/-- **C69**: `lk_status_set` succeeds exactly if there is a place for the instance (`default` if none is given), the callback gives a reply when told the domain,
the private group, the place and the link `init` to the private group, and it is saved. -/
theorem status_set_iff (hg : st.group.length = 32) (up : Update) (saved : Bool) (sp : Bytes) (p : NetParts) (q : QText.Query) :
    statusSet st up saved = .ok (sp, p, q) ↔ ∃ i, i = st.inst.getD (ascii "default") ∧ StatusFits st.objtype (some i) ∧
      sp = rootedOf (statusPlace st.group st.objtype (some i)) ∧ up st.domain privateGroup sp ⟨List.replicate 12 0 ++ ascii "init", privateGroup⟩ = .ok p ∧
      isStatusReply st.named sp p = true ∧ saved = true ∧ statusSetQuery st = .ok q := by
  have hsq : statusSetQuery st.named = statusSetQuery st := rfl
  have htag : tagOf (ascii "init") = List.replicate 12 0 ++ ascii "init" := by decide
  have hsp := statusSpace_iff (st := st.named) hg
  unfold statusSet
  rw [hsq, htag]
  constructor
  · intro h
    cases hs : statusSpace st.named with
    | error e => rw [hs] at h; cases h
    | ok sp' =>
      rw [hs] at h
      simp only [statusUpdate] at h
      obtain ⟨k1, k2⟩ := (hsp sp').1 hs
      cases hu : up st.named.domain privateGroup sp' ⟨List.replicate 12 0 ++ ascii "init", privateGroup⟩ with
      | error e => rw [hu] at h; cases h
      | ok p' =>
        rw [hu] at h
        simp only at h
        cases hr : isStatusReply st.named sp' p' with
        | false => rw [hr] at h; cases h
        | true =>
          rw [hr] at h
          cases saved with
          | false => cases h
          | true =>
            simp only [if_true] at h
            cases hq : statusSetQuery st with
            | error e => rw [hq] at h; cases h
            | ok q' =>
              rw [hq] at h
              cases h
              exact ⟨_, rfl, k1, k2, hu, hr, rfl, rfl⟩
  · rintro ⟨i, rfl, hf, rfl, hu, hr, rfl, hq⟩
    rw [(hsp _).2 ⟨hf, rfl⟩]
    have hu' : up st.named.domain privateGroup (rootedOf (statusPlace st.named.group st.named.objtype st.named.inst)) ⟨List.replicate 12 0 ++ ascii "init", privateGroup⟩ = .ok p := hu
    have hr' : isStatusReply st.named (rootedOf (statusPlace st.named.group st.named.objtype st.named.inst)) p = true := hr
    simp only [statusUpdate, hu', hr', if_true, hq]
    rfl

/-- **C69**: the query of `lk_status_set` can always be made when the instance has a place, and selects the points without links and data in the place of the
type or below; what is already stored is left out. -/
theorem status_set_query (hg : st.group.length = 32) {i : Bytes} (hf : StatusFits st.objtype (some i)) :
    (∃ q, statusSetQuery st = .ok q) ∧ ∀ q, statusSetQuery st = .ok q → checkDb q.preds = .ok false ∧ getOption q.conf (ascii "qid") = .ok (some (some st.qid)) ∧
      ∃ rs, Preds.default.run true rs = .ok q.preds ∧ (∀ r ∈ rs, Plain r) ∧ (∀ q k, q ≠ .index → ∀ r ∈ rs, CountOk q r k) ∧
        ∀ n p, Meets rs n p ↔ ∃ c cs, PointAt p c cs ∧ c.links = [] ∧ c.data = [] ∧ statusPlace st.group st.objtype none <+: cs := by
  have hf0 : StatusFits st.objtype none := by
    obtain ⟨h1, h2, h3⟩ := hf
    exact ⟨h1, by show st.objtype.length ≤ 200; omega⟩
  refine ⟨?_, ?_⟩
  · obtain ⟨s, hs⟩ := set_accepts hg hf0
    exact ⟨⟨s, _⟩, (set_run hg _).2 ⟨hf0, hs, rfl⟩⟩
  · intro q hq
    obtain ⟨_, hrun, hc⟩ := (set_run hg q).1 hq
    have hs := (status_place hg).2 hf0
    refine ⟨noDb_skips hrun (by simp) fun r hr => (set_counts r hr).1, by rw [hc]; exact option_set _ _ _, _, hrun, ?_,
      fun q k hq => counts_ok set_counts hq k, set_meets hg hf0⟩
    intro r hr
    rcases List.mem_append.1 hr with hr | hr
    · exact set_plain hs (by have := statusPlace_length st.group st.objtype none; omega) r hr
    · rw [List.mem_singleton.1 hr]; exact noDb_plain

theorem rooted_head {r : Bytes} {cs : List Bytes} (h : WellRooted r cs) (hne : cs ≠ []) : r.headD 0 = UInt8.ofNat cs.length := by
  rcases h.form with rfl | rfl
  · rw [rootedOf, if_neg hne]; rfl
  · rfl

/-- **C69**: among the points selected for `lk_status_set` those that ask for a reply of this instance are replied to, with the link `prev` to the last reply,
and the others are ignored. -/
theorem status_replies (hg : st.group.length = 32) {i : Bytes} (hf : StatusFits st.objtype (some i)) {p : NetParts} {c : LinkContent} {cs : List Bytes} (hp : PointAt p c cs)
    (hl : c.links = []) (hdat : c.data = []) (hpre : statusPlace st.group st.objtype none <+: cs) (prev : Bytes) (up : Update) (saved : Bool) :
    (StatusAsks p st.group st.objtype i ∧ onRequest st (rootedOf (statusPlace st.group st.objtype (some i))) prev up saved p =
        match statusUpdate st (rootedOf (statusPlace st.group st.objtype (some i))) up saved ⟨List.replicate 12 0 ++ ascii "prev", prev⟩ with
        | .error e => .error e
        | .ok r => .ok (some r)) ∨
      (¬ StatusAsks p st.group st.objtype i ∧ onRequest st (rootedOf (statusPlace st.group st.objtype (some i))) prev up saved p = .ok none) := by
  have htag : tagOf (ascii "prev") = List.replicate 12 0 ++ ascii "prev" := by decide
  have hne : cs ≠ [] := by rintro rfl; simp [statusPlace] at hpre
  have hpl := status_rooted hg hf
  have e1 : getRspace p = c.rspace := (point_view hp).2.2.2.2.1
  have hhead : (getRspace p).headD 0 = (rootedOf (statusPlace st.group st.objtype (some i))).headD 0 ↔ cs.length = 4 := by
    rw [e1, rooted_head hp.2 hne, rooted_head hpl (statusPlace_ne _ _ _)]
    have h8 := hp.2.depth
    constructor
    · intro h
      have := congrArg UInt8.toNat h
      rw [UInt8.toNat_ofNat', UInt8.toNat_ofNat'] at this
      simp only [statusPlace, Option.toList, List.length_append, List.length_cons, List.length_nil] at this
      omega
    · intro h; rw [h]; rfl
  have hspace : spaceOf (getRspace p) = spaceOf (rootedOf (statusPlace st.group st.objtype (some i))) ↔ cs = statusPlace st.group st.objtype (some i) := by
    rw [e1, Tree.wellRooted_space hp.2, Tree.wellRooted_space hpl]
    constructor
    · intro h; exact hp.2.space.unique (h ▸ hpl.space)
    · intro h; rw [h]
  have hasks : StatusAsks p st.group st.objtype i ↔ ¬ (cs.length = 4 ∧ cs ≠ statusPlace st.group st.objtype (some i)) := by
    have hlen : 3 ≤ cs.length := by have := hpre.length_le; simpa [statusPlace] using this
    constructor
    · rintro ⟨c', cs', hp', _, _, k⟩ ⟨h4, hn⟩
      obtain ⟨rfl, rfl⟩ := point_eq hp hp'
      rcases k with k | k | ⟨_, k⟩
      · rw [k] at h4; simp [statusPlace] at h4
      · exact hn k
      · omega
    · intro h
      refine ⟨c, cs, hp, hl, hdat, ?_⟩
      by_cases h3 : cs.length = 3
      · left
        obtain ⟨t, rfl⟩ := hpre
        simp only [statusPlace, Option.toList, List.length_append, List.length_cons, List.length_nil] at h3
        have : t = [] := List.eq_nil_of_length_eq_zero (by omega)
        rw [this, List.append_nil]
      · by_cases h4 : cs.length = 4
        · exact .inr (.inl (Classical.byContradiction fun hn => h ⟨h4, hn⟩))
        · exact .inr (.inr ⟨hpre, by omega⟩)
  unfold onRequest
  rw [htag]
  by_cases hcond : (getRspace p).headD 0 = (rootedOf (statusPlace st.group st.objtype (some i))).headD 0 ∧
      spaceOf (getRspace p) ≠ spaceOf (rootedOf (statusPlace st.group st.objtype (some i)))
  · right
    rw [if_pos hcond]
    exact ⟨fun h => (hasks.1 h) ⟨hhead.1 hcond.1, fun k => hcond.2 (hspace.2 k)⟩, rfl⟩
  · left
    rw [if_neg hcond]
    refine ⟨hasks.2 fun ⟨k1, k2⟩ => hcond ⟨hhead.2 k1, fun k => k2 (hspace.1 k)⟩, ?_⟩
    cases statusUpdate st (rootedOf (statusPlace st.group st.objtype (some i))) up saved ⟨List.replicate 12 0 ++ ascii "prev", prev⟩ <;> rfl

/-- **C69**: a request asks for a reply of an instance exactly if it is about its group and type, and about no other instance. -/
theorem status_request_asks {p : NetParts} {d g t g' t' i : Bytes} {i' : Option Bytes} {n : Nat} (h : StatusRequest p d g' t' i' n) :
    StatusAsks p g t i ↔ g' = g ∧ t' = t ∧ (i' = none ∨ i' = some i) := by
  obtain ⟨c, hp, _, _, _, h4, h5⟩ := request_point h
  constructor
  · rintro ⟨c', cs, hp', _, _, k⟩
    obtain ⟨rfl, rfl⟩ := point_eq hp hp'
    rcases k with k | k | ⟨_, k⟩
    · obtain ⟨a, b, c⟩ := statusPlace_eq.1 k
      exact ⟨a, b, .inl c⟩
    · obtain ⟨a, b, c⟩ := statusPlace_eq.1 k
      exact ⟨a, b, .inr c⟩
    · have := statusPlace_length g' t' i'
      omega
  · rintro ⟨rfl, rfl, rfl | rfl⟩
    · exact ⟨c, _, hp, h4, h5, .inl rfl⟩
    · exact ⟨c, _, hp, h4, h5, .inr (.inl rfl)⟩

/-- **C69**: if the callback puts the link it is told into its replies, every reply has a link to the one before it. -/
theorem status_chain {sp prev : Bytes} {l : List (NetParts × Update × Bool)}
    (hup : ∀ e ∈ l, ∀ link r, e.2.1 st.domain privateGroup sp link = .ok r → link ∈ r.getLinks) :
    LinkedBack (List.replicate 12 0 ++ ascii "prev") prev (answer st sp prev l).1 := by
  have htag : tagOf (ascii "prev") = List.replicate 12 0 ++ ascii "prev" := by decide
  induction l generalizing prev with
  | nil => trivial
  | cons e l ih =>
    obtain ⟨p, up, saved⟩ := e
    have ih' := fun prev => ih (prev := prev) fun e he => hup e (List.mem_cons_of_mem _ he)
    unfold answer
    cases ho : onRequest st sp prev up saved p with
    | error e => exact trivial
    | ok o =>
      cases o with
      | none => exact ih' prev
      | some r =>
        refine ⟨?_, ih' r.hash⟩
        unfold onRequest at ho
        split at ho
        · cases ho
        · unfold statusUpdate at ho
          rw [htag] at ho
          cases hu : up st.domain privateGroup sp ⟨List.replicate 12 0 ++ ascii "prev", prev⟩ with
          | error e => rw [hu] at ho; cases ho
          | ok r' =>
            rw [hu] at ho
            simp only at ho
            split at ho
            · cases ho
            · rename_i heq
              split at heq
              · split at heq
                · cases heq; cases ho
                  exact hup (p, up, saved) List.mem_cons_self _ _ hu
                · cases heq
              · cases heq

/-- **C69**: what is saved as a reply is one. -/
theorem status_answers_valid {sp prev : Bytes} {l : List (NetParts × Update × Bool)} : ∀ r ∈ (answer st sp prev l).1, isStatusReply st sp r = true := by
  induction l generalizing prev with
  | nil => exact fun r h => nomatch h
  | cons e l ih =>
    obtain ⟨p, up, saved⟩ := e
    unfold answer
    cases ho : onRequest st sp prev up saved p with
    | error e => exact fun r h => nomatch h
    | ok o =>
      cases o with
      | none => exact ih
      | some r =>
        intro x hx
        rcases List.mem_cons.1 hx with rfl | hx
        · unfold onRequest at ho
          split at ho
          · cases ho
          · unfold statusUpdate at ho
            split at ho
            · cases ho
            · rename_i heq
              split at heq
              · cases heq
              · split at heq
                · rename_i hv
                  split at heq
                  · cases heq; cases ho; exact hv
                  · cases heq
                · cases heq
        · exact ih x hx

/-- **C69**: as long as nothing fails, there is one reply for each point that asks for one. -/
theorem status_answers_count (hg : st.group.length = 32) {i : Bytes} (hf : StatusFits st.objtype (some i)) {l : List (NetParts × Update × Bool)}
    (hl : ∀ e ∈ l, ∃ c cs, PointAt e.1 c cs ∧ c.links = [] ∧ c.data = [] ∧ statusPlace st.group st.objtype none <+: cs) {prev : Bytes}
    (hok : (answer st (rootedOf (statusPlace st.group st.objtype (some i))) prev l).2 = none) [DecidablePred fun p => StatusAsks p st.group st.objtype i] :
    (answer st (rootedOf (statusPlace st.group st.objtype (some i))) prev l).1.length = (l.filter fun e => decide (StatusAsks e.1 st.group st.objtype i)).length := by
  induction l generalizing prev with
  | nil => rfl
  | cons e l ih =>
    obtain ⟨p, up, saved⟩ := e
    have ih' := fun prev => ih (fun e he => hl e (List.mem_cons_of_mem _ he)) (prev := prev)
    obtain ⟨c, cs, hp, h1, h2, h3⟩ := hl _ List.mem_cons_self
    unfold answer at hok ⊢
    rw [List.filter_cons]
    rcases status_replies hg hf hp h1 h2 h3 prev up saved with ⟨k1, k2⟩ | ⟨k1, k2⟩
    · rw [if_pos (decide_eq_true k1)]
      cases ho : onRequest st (rootedOf (statusPlace st.group st.objtype (some i))) prev up saved p with
      | error e => rw [ho] at hok; cases hok
      | ok o =>
        rw [ho] at hok
        cases o with
        | none =>
          rw [ho] at k2
          cases hu : statusUpdate st (rootedOf (statusPlace st.group st.objtype (some i))) up saved ⟨List.replicate 12 0 ++ ascii "prev", prev⟩ <;>
            rw [hu] at k2 <;> cases k2
        | some r =>
          simp only [List.length_cons]
          rw [ih' r.hash hok]
    · rw [if_neg (by simpa using k1)]
      rw [k2] at hok ⊢
      exact ih' prev hok

/-! ### what does not hold -/

/-- A point about the type `t` in the domain of sixes and the group of fives, with this hash. -/
def spotAt (h : UInt8) (t : Bytes) (i : Option Bytes) (n : Nat) (links : List Link) (data : Bytes) : NetParts :=
  { spotPkt (spotContent (List.replicate 16 6) (List.replicate 32 5) t i n links data) with hash := List.replicate 32 h }
def exStatus (t : Bytes) (i : Option Bytes) : Status := ⟨List.replicate 16 6, List.replicate 32 5, t, i, ascii "status"⟩
def exInit : Link := ⟨List.replicate 16 0, zeroGroup⟩

/-- Asking at 1000 with a timeout of 100: the receive stamps of the packets given to the callback, the answer, whether a request is made, and the last receive stamp that is waited for. -/
def asked (st : Status) (ps : List NetParts) (cb : List (Nat × NetParts) → Nat × NetParts → Bool) : Option (List Nat × Bool × Bool × Nat) :=
  match statusWatch toyCrypto (List.replicate 32 0) (saved ps) 1000 1001 true cb st 100 with
  | .ok a => some (a.given.map (·.1), a.ok, a.request.isSome, a.query.preds.recv.high.toNat)
  | .error _ => none

/-- A request and a reply are found, and those older than the timeout are not; without a request one is made. -/
theorem status_example : asked (exStatus [98] none) [spotAt 1 [98] none 950 [] [], spotAt 2 [98] (some [99]) 960 [exInit] [1]] (fun _ _ => false) =
      some ([101], true, false, 1049) ∧
    asked (exStatus [98] (some [99])) [spotAt 1 [98] (some [99]) 900 [exInit] [1], spotAt 2 [98] (some [99]) 901 [] []] (fun _ _ => false) =
      some ([], false, false, 1000) ∧
    asked (exStatus [98] (some [99])) [spotAt 2 [98] (some [99]) 900 [] []] (fun _ _ => false) = some ([], false, true, 1100) := by decide +kernel

/-- The stored reply is missed because there is a reply about another type (`prefix_misses`). -/
theorem status_misses : asked (exStatus [98] none) [spotAt 1 [98] none 950 [] [], spotAt 3 [97] (some [99]) 960 [exInit] [1], spotAt 2 [98] (some [99]) 960 [exInit] [1]]
    (fun _ _ => false) = some ([], false, false, 1049) := by decide +kernel

/-- With two recent requests the wait ends a timeout after the older one. -/
theorem status_oldest : asked (exStatus [98] none) [spotAt 1 [98] none 950 [] [], spotAt 3 [98] none 960 [] []] (fun _ _ => false) =
    some ([], false, false, 1049) := by decide +kernel

/-- A point with data and no links, which is no reply, is taken for one. -/
theorem status_half_reply : asked (exStatus [98] none) [spotAt 1 [98] none 950 [] [1]] (fun _ _ => false) = some ([100], true, true, 1100) := by decide +kernel

/-- When the callback breaks at a stored reply, a recent request is not noticed and another one is made, and the callback is still watched. -/
theorem status_break_asks : asked (exStatus [98] none) [spotAt 1 [98] none 950 [exInit] [1], spotAt 2 [98] none 940 [] []] (fun _ _ => true) =
    some ([100], true, true, 1100) := by decide +kernel

/-- `lk_status_set` replies to points of any group and domain, though a request is in the private group and its domain. -/
theorem status_any_group {g t i : Bytes} (hg : g.length = 32) (hf : StatusFits t none) : ∃ p c, IsPacket p (.link c) ∧ c.group ≠ zeroGroup ∧ StatusAsks p g t i := by
  have hp := spot_point (d := List.replicate 16 0) (n := 0) (links := []) (data := []) hg rfl hf (by decide) (fun _ h => nomatch h) (by simp)
  obtain ⟨hp | ⟨k, s, hp⟩, hw⟩ := hp
  · obtain ⟨v1, v2⟩ := hp.valid
    have hp' : IsPacket (spotPkt ⟨List.replicate 32 7, List.replicate 16 0, 0, [], rootedOf (statusPlace g t none), []⟩)
        (.link ⟨List.replicate 32 7, List.replicate 16 0, 0, [], rootedOf (statusPlace g t none), []⟩) :=
      ⟨rfl, ⟨v1, rfl, rfl, by show 0 < 2 ^ 64; decide, (fun _ h => nomatch h), v2.rspace⟩, rfl, rfl⟩
    refine ⟨_, _, hp', ?_, _, _, ⟨.inl hp', hw⟩, rfl, rfl, .inl rfl⟩
    show List.replicate 32 7 ≠ zeroGroup
    decide
  · cases congrArg (fun x => x.fields.signed?.isSome) hp.parts

end Verif.Props
