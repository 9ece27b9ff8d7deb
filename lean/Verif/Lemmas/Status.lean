import Verif.Model.Status
import Verif.Spec.Status
import Verif.Props.Pull
import Verif.Props.Matcher
import Verif.Props.Push
import Verif.Props.Api
import Verif.Model.Runtime
/-!
# Lemmas about status requests
-/
namespace Verif.Conv
open Verif Verif.Pkt Verif.Pred Verif.Spec Verif.QText Verif.Opt Verif.Query Verif.Abl Verif.Props Verif.Shake

/-! ### pushing statements -/

/-- The pushed texts are these statements. -/
inductive Pushes : List (Bytes × Bytes × Bytes) → List Stmt → Prop
  | nil : Pushes [] []
  | cons {f t v : Bytes} {r : Stmt} {l : List (Bytes × Bytes × Bytes)} {rs : List Stmt} : f ≠ [] → ruleOf f = some r.kind →
      extOpOf t = some (.op r.op) → r.val = [(none, v)] → Pushes l rs → Pushes ((f, t, v) :: l) (r :: rs)

theorem push_one {q : QText.Query} {f t v : Bytes} {k : Kind} {o : TestOp} (hf : f ≠ []) (hk : ruleOf f = some k) (ho : extOpOf t = some (.op o)) :
    q.push true f t v = match q.preds.and true ⟨k, o, [(none, v)]⟩ with | .ok p => .ok { q with preds := p } | .error e => .error e := by
  unfold Query.push
  rw [if_neg hf, hk]
  simp only [ho]
  have e : q.preds.addExt true ⟨k, .op o, ofBytes v⟩ = q.preds.and true ⟨k, o, [(none, v)]⟩ := by
    unfold Preds.addExt
    simp only [ExtStmt.stmts, Preds.run, ofBytes]
    cases q.preds.and true ⟨k, o, [(none, v)]⟩ <;> rfl
  rw [e]
  cases q.preds.and true ⟨k, o, [(none, v)]⟩ <;> rfl

theorem pushAll_run {l : List (Bytes × Bytes × Bytes)} {rs : List Stmt} (h : Pushes l rs) (q q' : QText.Query) :
    pushAll q l = .ok q' ↔ q.preds.run true rs = .ok q'.preds ∧ q'.conf = q.conf := by
  induction h generalizing q with
  | nil =>
    simp only [pushAll, Preds.run, Except.ok.injEq]
    constructor
    · rintro rfl; exact ⟨rfl, rfl⟩
    · rintro ⟨h1, h2⟩; cases q; cases q'; simp only at h1 h2; rw [h1, h2]
  | @cons f t v r l rs hf hk ho hv _ ih =>
    have e := push_one (q := q) (v := v) hf hk ho
    rw [← hv] at e
    have er : (⟨r.kind, r.op, r.val⟩ : Stmt) = r := rfl
    rw [er] at e
    simp only [pushAll, e, Preds.run]
    cases q.preds.and true r with
    | error e => simp
    | ok p => simp only; exact ih _

theorem pushAll_append (q : QText.Query) (l m : List (Bytes × Bytes × Bytes)) :
    pushAll q (l ++ m) = match pushAll q l with | .error e => .error e | .ok q => pushAll q m := by
  induction l generalizing q with
  | nil => rfl
  | cons e l ih =>
    obtain ⟨f, t, v⟩ := e
    simp only [List.cons_append, pushAll]
    cases q.push true f t v with
    | error e => rfl
    | ok q => exact ih q

/-! ### the place -/

theorem status_length : (ascii "status").length = 6 := by decide

/-- There is a place exactly for these types and instances. -/
theorem status_place {g t : Bytes} {i : Option Bytes} (hg : g.length = 32) :
    IsSpace (encodeSpace (statusPlace g t i)) (statusPlace g t i) ↔ StatusFits t i := by
  have hs := status_length
  cases i with
  | none =>
    have hlen : (encodeSpace (statusPlace g t none)).length = 42 + t.length := by
      simp only [encodeSpace, statusPlace, Option.toList, List.append_nil, List.flatMap_cons, List.flatMap_nil, List.length_append, List.length_cons, List.length_nil, hg, hs]
      omega
    constructor
    · intro h
      have h1 := (h.comps t (by simp [statusPlace])).1
      have h2 := h.size
      exact ⟨h1, by show t.length ≤ 200; omega⟩
    · rintro ⟨h1, h2⟩
      have h2 : t.length ≤ 200 := h2
      refine ⟨?_, rfl, by omega⟩
      intro c hc
      simp only [statusPlace, Option.toList, List.append_nil, List.mem_cons, List.not_mem_nil, or_false] at hc
      rcases hc with rfl | rfl | rfl <;> (try simp only [List.length_cons]) <;> omega
  | some i =>
    have hlen : (encodeSpace (statusPlace g t (some i))).length = 43 + t.length + i.length := by
      simp only [encodeSpace, statusPlace, Option.toList, List.cons_append, List.nil_append, List.flatMap_cons, List.flatMap_nil, List.length_append, List.length_cons, List.length_nil, hg, hs]
      omega
    constructor
    · intro h
      have h1 := (h.comps t (by simp [statusPlace])).1
      have h3 := (h.comps i (by simp [statusPlace])).1
      have h2 := h.size
      exact ⟨h1, h3, by omega⟩
    · rintro ⟨h1, h3, h2⟩
      refine ⟨?_, rfl, by omega⟩
      intro c hc
      simp only [statusPlace, Option.toList, List.cons_append, List.nil_append, List.mem_cons, List.not_mem_nil, or_false] at hc
      rcases hc with rfl | rfl | rfl | rfl <;> (try simp only [List.length_cons]) <;> omega

theorem statusPlace_length (g t : Bytes) (i : Option Bytes) : (statusPlace g t i).length ≤ 4 := by
  cases i <;> simp [statusPlace]

theorem isSpace_init {a b : List Bytes} (h : IsSpace (encodeSpace (a ++ b)) (a ++ b)) : IsSpace (encodeSpace a) a := by
  refine ⟨fun c hc => h.comps c (List.mem_append.2 (.inl hc)), rfl, ?_⟩
  have := h.size
  rw [Space.encodeSpace_append, List.length_append] at this
  omega

theorem appendComp_iff {cs : List Bytes} {c r : Bytes} (h : IsSpace (encodeSpace cs) cs) (h8 : cs.length ≤ 8) :
    appendComp (rootedOf cs) c = .ok r ↔ r = rootedOf (cs ++ [c]) ∧ IsSpace (encodeSpace (cs ++ [c])) (cs ++ [c]) ∧ cs.length + 1 ≤ 8 := by
  rw [← rooted_append_iff cs c r h h8]
  unfold appendComp
  cases Rooted.tryAppendComponent (rootedOf cs) c with
  | ok r => simp
  | error e => cases e <;> simp

theorem statusRoot_eq : statusRoot = rootedOf [255 :: ascii "status"] := by decide +kernel

/-- The space of a request or reply. -/
theorem statusSpace_iff {st : Status} (hg : st.group.length = 32) (r : Bytes) :
    statusSpace st = .ok r ↔ StatusFits st.objtype st.inst ∧ r = rootedOf (statusPlace st.group st.objtype st.inst) := by
  rw [← status_place hg]
  have h1 : IsSpace (encodeSpace [255 :: ascii "status"]) [255 :: ascii "status"] := by
    refine ⟨?_, rfl, by decide⟩
    intro c hc
    rw [List.mem_singleton.1 hc]; decide
  have h2 : IsSpace (encodeSpace [255 :: ascii "status", st.group]) [255 :: ascii "status", st.group] := by
    refine ⟨?_, rfl, ?_⟩
    · intro c hc
      simp only [List.mem_cons, List.not_mem_nil, or_false] at hc
      rcases hc with rfl | rfl
      · decide
      · omega
    · simp only [encodeSpace, List.flatMap_cons, List.flatMap_nil, List.length_append, List.length_cons, List.length_nil, hg, status_length]; omega
  have e1 : appendComp statusRoot st.group = .ok (rootedOf [255 :: ascii "status", st.group]) := by
    rw [statusRoot_eq]
    exact (appendComp_iff h1 (by simp)).2 ⟨rfl, h2, by simp⟩
  unfold statusSpace
  rw [e1]
  simp only
  cases hi : st.inst with
  | none =>
    simp only
    cases ha : appendComp (rootedOf [255 :: ascii "status", st.group]) st.objtype with
    | ok sp =>
      obtain ⟨k1, k2, _⟩ := (appendComp_iff h2 (by simp)).1 ha
      simp only [Except.ok.injEq]
      exact ⟨fun h => ⟨k2, h.symm.trans k1⟩, fun h => k1.trans h.2.symm⟩
    | error e =>
      constructor
      · intro h; cases h
      · rintro ⟨h, hr⟩
        rw [(appendComp_iff h2 (by simp)).2 ⟨rfl, h, by simp⟩] at ha
        cases ha
  | some i =>
    simp only
    cases ha : appendComp (rootedOf [255 :: ascii "status", st.group]) st.objtype with
    | ok sp =>
      obtain ⟨k1, k2, _⟩ := (appendComp_iff h2 (by simp)).1 ha
      simp only
      rw [k1, appendComp_iff k2 (by simp)]
      exact ⟨fun h => ⟨h.2.1, h.1⟩, fun h => ⟨h.2, h.1, by simp⟩⟩
    | error e =>
      constructor
      · intro h; cases h
      · rintro ⟨h, hr⟩
        have h3 : IsSpace (encodeSpace ([255 :: ascii "status", st.group] ++ [st.objtype])) ([255 :: ascii "status", st.group] ++ [st.objtype]) :=
          isSpace_init (b := [i]) h
        rw [(appendComp_iff h2 (by simp)).2 ⟨rfl, h3, by simp⟩] at ha
        cases ha

theorem status_rooted {g t : Bytes} {i : Option Bytes} (hg : g.length = 32) (hf : StatusFits t i) :
    WellRooted (rootedOf (statusPlace g t i)) (statusPlace g t i) :=
  ⟨(status_place hg).2 hf, by have := statusPlace_length g t i; omega, .inl rfl⟩

theorem statusPlace_eq {g t g' t' : Bytes} {i i' : Option Bytes} : statusPlace g t i = statusPlace g' t' i' ↔ g = g' ∧ t = t' ∧ i = i' := by
  cases i <;> cases i' <;> simp [statusPlace]

/-! ### what points show -/

theorem key_type (h hs : Bytes) (c : LinkContent) (k s : Bytes) (cs : List Bytes) : HasType (seenOf h hs (.key c k s) cs) 2 := by
  show Allows .mask1 (Content.key c k s).type.toNat 2
  intro j hj
  have : (Content.key c k s).type.toNat = 7 := rfl
  rw [this]
  have hj' : j = 1 := by
    rw [show (2 : Nat) = 2 ^ 1 from rfl, Nat.testBit_two_pow] at hj
    have := of_decide_eq_true hj
    omega
  rw [hj']; rfl

/-- The numbers of a point that status queries are about. -/
def pointNum (c : LinkContent) : VF → Nat
  | .group => beNat c.group
  | .domain => beNat c.domain
  | .create => c.stamp
  | .dataSize => c.data.length
  | .linksLen => c.links.length
  | _ => 0

/-- The packets that show something with links are the link and key points. -/
theorem shows_point (p : NetParts) (P : (VF → Nat) → Option (List Bytes) → Prop)
    (hP : ∀ n m s, (∀ f, f = .group ∨ f = .domain ∨ f = .create ∨ f = .dataSize ∨ f = .linksLen → n f = m f) → P n s → P m s) :
    (∃ x, Shows p x ∧ HasType x 2 ∧ P x.num x.space) ↔ ∃ c cs, PointAt p c cs ∧ P (pointNum c) (some cs) := by
  constructor
  · rintro ⟨x, ⟨c, cs, hp, rfl, hw⟩, ht, h⟩
    have bit : ∀ n, Allows .mask1 n 2 → n.testBit 1 = true := fun n h => h 1 rfl
    cases c with
    | data b => exact absurd (bit _ ht) (by show ¬ Nat.testBit 1 1 = true; decide)
    | error b => exact absurd (bit _ ht) (by show ¬ Nat.testBit 128 1 = true; decide)
    | link c =>
      refine ⟨c, cs, ⟨.inl hp, hw⟩, hP _ _ _ ?_ h⟩
      rintro f (rfl | rfl | rfl | rfl | rfl) <;> rfl
    | key c k s =>
      refine ⟨c, cs, ⟨.inr ⟨k, s, hp⟩, hw⟩, hP _ _ _ ?_ h⟩
      rintro f (rfl | rfl | rfl | rfl | rfl) <;> rfl
  · rintro ⟨c, cs, ⟨hp | ⟨k, s, hp⟩, hw⟩, h⟩
    · refine ⟨_, ⟨_, cs, hp, rfl, hw⟩, link_type _ _ _ _, hP _ _ _ ?_ h⟩
      rintro f (rfl | rfl | rfl | rfl | rfl) <;> rfl
    · refine ⟨_, ⟨_, cs, hp, rfl, hw⟩, key_type _ _ _ _ _ _, hP _ _ _ ?_ h⟩
      rintro f (rfl | rfl | rfl | rfl | rfl) <;> rfl

theorem point_view {p : NetParts} {c : LinkContent} {cs : List Bytes} (h : PointAt p c cs) : p.getGroup = c.group ∧ p.getDomain = c.domain ∧
    p.getCreate = c.stamp ∧ p.getLinks = c.links ∧ getRspace p = c.rspace ∧ p.data = c.data := by
  obtain ⟨hp | ⟨k, s, hp⟩, _⟩ := h <;>
    simp only [NetParts.getGroup, NetParts.getDomain, NetParts.getCreate, NetParts.getLinks, getRspace, NetParts.data, hp.parts] <;>
    exact ⟨rfl, rfl, rfl, rfl, rfl, rfl⟩

theorem point_eq {p : NetParts} {c c' : LinkContent} {cs cs' : List Bytes} (h : PointAt p c cs) (h' : PointAt p c' cs') : c = c' ∧ cs = cs' := by
  have hc : c = c' := by
    obtain ⟨a1, a2, a3, a4, a5, a6⟩ := point_view h
    obtain ⟨b1, b2, b3, b4, b5, b6⟩ := point_view h'
    cases c; cases c'
    simp_all
  subst hc
  refine ⟨rfl, ?_⟩
  have e : encodeSpace cs = encodeSpace cs' := (Tree.wellRooted_space h.2).symm.trans (Tree.wellRooted_space h'.2)
  exact h.2.space.unique (e ▸ h'.2.space)

/-! ### the queries -/

theorem beNat_zeroes : beNat zeroGroup = 0 := by decide

theorem beNat_inj' {a b : Bytes} (h : a.length = b.length) (e : beNat a = beNat b) : a = b := by
  rw [← beBytes_beNat a, ← beBytes_beNat b, h, e]

/-- The statements of `lk_status_overwatch`. -/
def overRules (d : Bytes) (pl : List Bytes) (after : Nat) : List Stmt :=
  [⟨.field .group, .equal, [(none, zeroGroup)]⟩, ⟨.field .domain, .equal, [(none, d)]⟩, ⟨.field .create, .greater, [(none, beBytes 8 after)]⟩,
    ⟨.pre, .equal, [(none, encodeSpace pl)]⟩]

/-- Those that `lk_status_watch` adds. -/
def replyRules (until_ : Nat) : List Stmt :=
  [⟨.field .dataSize, .greater, [(none, [0, 0])]⟩, ⟨.field .linksLen, .greater, [(none, [0, 0])]⟩, ⟨.recv, .less, [(none, beBytes 8 until_)]⟩]

/-- Nothing from the database. -/
def noDb : Stmt := ⟨.limit .index, .less, [(none, [0, 0, 0, 0])]⟩

/-- The statements of `lk_status_set`. -/
def setRules (pl : List Bytes) : List Stmt :=
  [⟨.field .dataSize, .equal, [(none, [0, 0])]⟩, ⟨.field .linksLen, .equal, [(none, [0, 0])]⟩, ⟨.pre, .equal, [(none, encodeSpace pl)]⟩]

theorem bytes_spaceIs {pl : List Bytes} (h : IsSpace (encodeSpace pl) pl) (cs : List Bytes) : SpaceIs [(none, encodeSpace pl)] cs ↔ cs = pl := by
  have h0 : SpaceIs [(none, encodeSpace pl)] pl := ⟨h, _, .inl rfl, .inl rfl⟩
  constructor
  · intro hc
    obtain ⟨b, k1, k2⟩ := (spaceIs_iff _ _).1 h0
    obtain ⟨b', k3, k4⟩ := (spaceIs_iff _ _).1 hc
    rw [k1] at k3
    cases k3
    exact k4.unique k2
  · rintro rfl; exact h0

theorem pre_sat {pl : List Bytes} (h : IsSpace (encodeSpace pl) pl) (hne : pl ≠ []) (x : Seen) :
    Sat ⟨.pre, .equal, [(none, encodeSpace pl)]⟩ x ↔ ∃ xs, x.space = some xs ∧ pl <+: xs := by
  constructor
  · rintro ⟨cs, k1, k2⟩
    rw [(bytes_spaceIs h cs).1 k1] at k2
    exact k2.resolve_left hne
  · intro k
    exact ⟨pl, (bytes_spaceIs h pl).2 rfl, .inr k⟩

theorem pre_plain {pl : List Bytes} (h : IsSpace (encodeSpace pl) pl) (h8 : pl.length ≤ 8) : Plain ⟨.pre, .equal, [(none, encodeSpace pl)]⟩ :=
  ⟨fun _ cs k => by rw [(bytes_spaceIs h cs).1 k]; exact h8, fun _ => rfl, nofun⟩

theorem statusPlace_ne (g t : Bytes) (i : Option Bytes) : statusPlace g t i ≠ [] := by simp [statusPlace]

section
variable {d : Bytes} {pl : List Bytes} {after until_ : Nat}

theorem over_sat (hd : d.length = 16) (h : IsSpace (encodeSpace pl) pl) (hne : pl ≠ []) (ha : after < 2 ^ 64) (x : Seen) :
    (∀ r ∈ overRules d pl after, Sat r x) ↔ HasType x 2 ∧ x.num .group = 0 ∧ x.num .domain = beNat d ∧ after < x.num .create ∧
      ∃ xs, x.space = some xs ∧ pl <+: xs := by
  simp only [overRules, List.forall_mem_cons, List.not_mem_nil, false_implies, implies_true, and_true]
  rw [sat_field_full _ _ _ rfl, sat_field_full _ _ _ hd, sat_field_full _ _ _ (beBytes_length 8 after), pre_sat h hne, beNat_zeroes,
    beNat_beBytes 8 after ha]
  constructor
  · rintro ⟨⟨a, b⟩, ⟨_, c⟩, ⟨_, e⟩, f⟩; exact ⟨a, b, c, e, f⟩
  · rintro ⟨a, b, c, e, f⟩; exact ⟨⟨a, b⟩, ⟨a, c⟩, ⟨a, e⟩, f⟩

theorem reply_sat (x : Seen) (h2 : HasType x 2) :
    (∀ r ∈ replyRules until_, Sat r x) ↔ HasType x 1 ∧ 0 < x.num .dataSize ∧ 0 < x.num .linksLen := by
  simp only [replyRules, List.forall_mem_cons, List.not_mem_nil, false_implies, implies_true, and_true]
  rw [sat_field_full _ _ _ rfl, sat_field_full _ _ _ rfl]
  constructor
  · rintro ⟨⟨a, b⟩, ⟨_, c⟩, _⟩; exact ⟨a, b, c⟩
  · rintro ⟨a, b, c⟩; exact ⟨⟨a, b⟩, ⟨h2, c⟩, trivial⟩

theorem set_sat (h : IsSpace (encodeSpace pl) pl) (hne : pl ≠ []) (x : Seen) :
    (∀ r ∈ setRules pl, Sat r x) ↔ HasType x 2 ∧ HasType x 1 ∧ x.num .dataSize = 0 ∧ x.num .linksLen = 0 ∧ ∃ xs, x.space = some xs ∧ pl <+: xs := by
  simp only [setRules, List.forall_mem_cons, List.not_mem_nil, false_implies, implies_true, and_true]
  rw [sat_field_full _ _ _ rfl, sat_field_full _ _ _ rfl, pre_sat h hne]
  constructor
  · rintro ⟨⟨a, b⟩, ⟨e, c⟩, f⟩; exact ⟨e, a, b, c, f⟩
  · rintro ⟨e, a, b, c, f⟩; exact ⟨⟨a, b⟩, ⟨e, c⟩, f⟩

theorem over_plain (h : IsSpace (encodeSpace pl) pl) (h8 : pl.length ≤ 8) : ∀ r ∈ overRules d pl after, Plain r := by
  intro r hr
  simp only [overRules, List.mem_cons, List.not_mem_nil, or_false] at hr
  rcases hr with rfl | rfl | rfl | rfl
  · exact field_plain rfl
  · exact field_plain rfl
  · exact field_plain rfl
  · exact pre_plain h h8

theorem reply_plain : ∀ r ∈ replyRules until_, Plain r := by
  intro r hr
  simp only [replyRules, List.mem_cons, List.not_mem_nil, or_false] at hr
  rcases hr with rfl | rfl | rfl
  · exact field_plain rfl
  · exact field_plain rfl
  · exact ⟨nofun, nofun, fun _ => ⟨nofun, nofun⟩⟩

theorem set_plain (h : IsSpace (encodeSpace pl) pl) (h8 : pl.length ≤ 8) : ∀ r ∈ setRules pl, Plain r := by
  intro r hr
  simp only [setRules, List.mem_cons, List.not_mem_nil, or_false] at hr
  rcases hr with rfl | rfl | rfl
  · exact field_plain rfl
  · exact field_plain rfl
  · exact pre_plain h h8

theorem noDb_plain : Plain noDb := ⟨nofun, nofun, nofun⟩

end

/-- Asking for nothing from the database is accepted. -/
theorem run_noDb {rs : List Stmt} {s : Preds} (h : Preds.default.run true rs = .ok s) (hnew : SomePosition .new rs) :
    ∃ s', Preds.default.run true (rs ++ [noDb]) = .ok s' := by
  rw [run_append, h]
  have hq : ∃ x, (s.state .query).Mem x := by
    obtain ⟨n, hn, hc⟩ := query_position h
    exact ⟨BitVec.ofNat 32 n, (run_count h .query _).2 (by rw [BitVec.toNat_ofNat, Nat.mod_eq_of_lt hn]; exact hc)⟩
  have hn : ∃ x, (s.state .new).Mem x := by
    obtain ⟨n, hn, hc⟩ := hnew
    exact ⟨BitVec.ofNat 32 n, (run_count h .new _).2 (by rw [BitVec.toNat_ofNat, Nat.mod_eq_of_lt hn]; exact hc)⟩
  have hv : (s.putState .index ((s.state .index).add .less 0#32)).isValid true = .ok () := (isValid_iff _).2 ⟨hq, .inl hn⟩
  refine ⟨s.putState .index ((s.state .index).add .less 0#32), ?_⟩
  have : s.and true noDb = .ok (s.putState .index ((s.state .index).add .less 0#32)) := by
    show (match (s.putState .index ((s.state .index).add .less 0#32)).isValid true with
      | .error e => Except.error e | .ok _ => .ok (s.putState .index ((s.state .index).add .less 0#32))) = _
    rw [hv]
  simp only [Preds.run, this]

/-- Such a watch does not read the database. -/
theorem noDb_skips {rs : List Stmt} {s : Preds} (h : Preds.default.run true rs = .ok s) (hm : noDb ∈ rs)
    (hb : ∀ r ∈ rs, ∀ q, r.kind = .limit q → r = noDb) : Rt.checkDb s = .ok false := by
  have h1 : (s.state .index).mask = .default 32 := run_mask h .index (fun r hr hk => by rw [hb r hr _ hk]; exact ⟨nofun, nofun⟩)
  have h2 : (s.state .branch).mask = .default 32 := run_mask h .branch (fun r hr hk => by rw [hb r hr _ hk]; exact ⟨nofun, nofun⟩)
  have e1 : (s.state .branch).hasAny true = .ok true := by
    refine (hasAny_true_iff (by decide) (by decide) _).2 ⟨0#32, (run_count h .branch _).2 fun r hr => ⟨fun hk => ?_, nofun⟩⟩
    have := hb r hr _ hk
    rw [this] at hk
    cases hk
  have e2 : (s.state .index).hasAny true = .ok false := by
    rcases hasAny_iff (by decide) (by decide) true (s.state .index) (by rw [h1]; exact mask_hasAny_of_test (default_mem 32 0#32).2) with ⟨_, v, hv⟩ | ⟨e, _⟩
    · have := (run_count h .index v).1 hv noDb hm
      obtain ⟨b, _, k2, k3⟩ := this.1 rfl
      cases k2
      exact absurd k3 (Nat.not_lt_zero _)
    · exact e
  unfold Rt.checkDb
  rw [e1]
  exact e2

end Verif.Conv
