import Verif.Lemmas.Spot
import Verif.Props.Votes
import Verif.Spec.Local
/-!
# Lemmas for local names
-/
namespace Verif.Props
open Verif Verif.Pkt Verif.Tree Verif.Pred Verif.Env Verif.Spec Verif.Query Verif.Lns Verif.Shake

/-- The group and domain alone. -/
def homeAbs (g d : Bytes) : Abs := (Abs.default.addSet .group .equal (num _ g)).addSet .domain .equal (num _ d)

theorem home_live (g d : Bytes) : (homeAbs g d).Live := by
  refine ⟨fun f => ?_, ⟨0, (default_mem 64 0).1⟩, ?_⟩
  · by_cases h2 : f = .group
    · subst h2; exact ⟨_, (eq_mem (w := 256) (by decide) _ _).2 rfl⟩
    by_cases h3 : f = .domain
    · subst h3; exact ⟨_, (eq_mem (w := 128) (by decide) _ _).2 rfl⟩
    unfold homeAbs
    rw [Abs.addSet_other _ _ _ _ _ h3, Abs.addSet_other _ _ _ _ _ h2]
    exact ⟨0, default_mem _ _⟩
  · rw [isValid_iff]
    exact ⟨⟨0, default_mem _ _⟩, .inl ⟨0, default_mem _ _⟩⟩
theorem home_good (g d : Bytes) : (homeAbs g d).Good :=
  ⟨⟨.nil, rfl, (by decide : (encodeSpace []).length ≤ 242)⟩, (by decide : ([] : List Bytes).length ≤ 8), Nat.zero_le _⟩

/-- The predicates of one place. -/
theorem spotPreds_eq {cs : List Bytes} (hsp : IsSpace (encodeSpace cs) cs) (h8 : cs.length ≤ 8) {now : Nat} (h0 : 0 < now) (hn : now < 2 ^ 64)
    (admin : Option Bytes) : spotPreds (encodeSpace cs) now admin = .ok (spotAbs privateGroup lnsDomain cs admin now).preds := by
  have hlive := spot_live (g := privateGroup) (d := lnsDomain) (pc := cs) (k := none) h8 h0 hn
  have hbase : ∀ f, f ≠ .depth → f ≠ .create → ((spotAbs privateGroup lnsDomain cs none now).set f) = (homeAbs privateGroup lnsDomain).set f := by
    intro f h1 h2
    unfold spotAbs
    simp only
    rw [Abs.addSet_other _ _ _ _ _ h2, Abs.addSet_other _ _ _ _ _ h1, addGt_other _ h1]
    rfl
  have hjoin : (homeAbs privateGroup lnsDomain).eff (.pre (cs.take 8)) = some (Abs.addGt { homeAbs privateGroup lnsDomain with pc := cs }) := by
    rw [List.take_of_length_le h8]
    simp only [Abs.eff]
    have : joinPre (homeAbs privateGroup lnsDomain).pc cs = some cs := by
      unfold joinPre
      split
      · rename_i h
        have : (homeAbs privateGroup lnsDomain).pc = [] := rfl
        rw [this, List.prefix_nil] at h
        rw [h]; rfl
      · rw [if_pos]
        exact List.nil_prefix
    rw [this]; rfl
  have hA1 : (Abs.addGt { homeAbs privateGroup lnsDomain with pc := cs }).Live := by
    refine ⟨fun f => ?_, ⟨0, ?_⟩, ?_⟩
    · by_cases h4 : f = .depth
      · subst h4
        have := (spot_depth (g := privateGroup) (d := lnsDomain) (k := none) (now := now) h8 _).2 rfl
        unfold spotAbs at this
        simp only at this
        rw [Abs.addSet_other _ _ _ _ _ (by decide), Abs.addSet_same] at this
        exact ⟨_, ((add_mem (w := 8) (by decide) _ _ _ _).1 this).1⟩
      · rw [addGt_other _ h4]
        exact (home_live privateGroup lnsDomain).sets f
    · unfold Abs.addGt
      split <;> exact (default_mem 64 0).1
    · rw [isValid_iff]
      have : ∀ q, (Abs.addGt { homeAbs privateGroup lnsDomain with pc := cs }).preds.state q = TestSet.default 32 := by
        intro q
        unfold Abs.addGt
        split <;> rfl
      rw [this, this, this, this]
      exact ⟨⟨0, default_mem _ _⟩, .inl ⟨0, default_mem _ _⟩⟩
  have e1 := (addPrefix_iff _ (home_good privateGroup lnsDomain) (home_live privateGroup lnsDomain) hsp _).2 ⟨_, hjoin, hA1, rfl⟩
  have hpc : (Abs.addGt { homeAbs privateGroup lnsDomain with pc := cs }).pc = cs := by
    unfold Abs.addGt
    split <;> rfl
  have hd := preDepth_toNat (Abs.addGt { homeAbs privateGroup lnsDomain with pc := cs }) (by rw [hpc]; exact h8)
  rw [hpc] at hd
  have e2 := (Abs.addTo_iff (Abs.addGt { homeAbs privateGroup lnsDomain with pc := cs }) .depth .equal (BitVec.ofNat _ cs.length) _).2 ⟨rfl, by
    have := (spot_depth (g := privateGroup) (d := lnsDomain) (k := none) (now := now) h8 _).2 rfl
    unfold spotAbs at this
    simp only at this
    rw [Abs.addSet_other _ _ _ _ _ (by decide)] at this
    exact ⟨_, this⟩⟩
  have e3 := (Abs.addTo_iff ((Abs.addGt { homeAbs privateGroup lnsDomain with pc := cs }).addSet .depth .equal (BitVec.ofNat _ cs.length))
    .create .less (BitVec.ofNat _ now) _).2 ⟨rfl, hlive.sets .create⟩
  have hhome : ((Preds.default.put .group ((Preds.default.set .group).add .equal (num _ privateGroup))).put .domain
      (((Preds.default.put .group ((Preds.default.set .group).add .equal (num _ privateGroup))).set .domain).add .equal (num _ lnsDomain))) =
      (homeAbs privateGroup lnsDomain).preds := by
    have : Preds.default.rspace = rootedOf [] := by rw [← Abs.default_preds]; rfl
    show Preds.mk _ _ _ _ = Preds.mk _ _ _ _
    congr 1
  unfold spotPreds
  simp only
  rw [hhome, e1]
  simp only [unwrapL]
  rw [hd, e2]
  simp only
  rw [e3]
  simp only [tryL]
  cases admin with
  | none => rfl
  | some k =>
    show Except.ok _ = Except.ok _
    congr 1

theorem before_irrefl (x : Bytes) : ¬ BytesBefore x x := fun h => by
  have := (bytesBefore_iff _ _).1 h
  rw [bytesLt_irrefl] at this; cases this
theorem before_asymm {x y : Bytes} (h : BytesBefore x y) (h' : BytesBefore y x) : False := by
  have := bytesLt_trans ((bytesBefore_iff _ _).1 h) ((bytesBefore_iff _ _).1 h')
  rw [bytesLt_irrefl] at this; cases this
theorem older_asymm {p q : NetParts} (h : Older p q) (h' : Older q p) : False := by
  unfold Older at h h'
  rcases h with h | ⟨h, hh⟩
  · rcases h' with h' | ⟨h', -⟩ <;> omega
  · rcases h' with h' | ⟨-, hh'⟩
    · omega
    · exact before_asymm hh hh'
theorem leads_asymm {p q : NetParts} (h : Leads p q) (h' : Leads q p) : False := by
  obtain ⟨a, b, ha, hb, h⟩ := h
  obtain ⟨c, d, hc, hd, h'⟩ := h'
  cases tuple_unique ha hd
  cases tuple_unique hb hc
  rcases h with h | ⟨h, ho⟩
  · rcases h' with h' | ⟨h', -⟩
    · exact before_asymm h h'
    · rw [h'] at h; exact before_irrefl _ h
  · rcases h' with h' | ⟨-, ho'⟩
    · rw [h] at h'; exact before_irrefl _ h'
    · exact older_asymm ho ho'

/-- At most one point leads. -/
theorem lead_unique {db : Db} {g d : Bytes} {cs : List Bytes} {k : Option Bytes} {now : Nat} {r r' : Option (Nat × NetParts)}
    (h : LeadAt db g d cs k now r) (h' : LeadAt db g d cs k now r') : r = r' := by
  cases r with
  | none =>
    cases r' with
    | none => rfl
    | some e => exact absurd h'.2.1 (h e h'.1)
  | some e =>
    cases r' with
    | none => exact absurd h.2.1 (h' e h.1)
    | some e' =>
      rcases h.2.2 e' h'.1 h'.2.1 with x | x
      · rw [x]
      · rcases h'.2.2 e h.1 h.2.1 with y | y
        · rw [y]
        · exact (leads_asymm x y).elim

theorem before_leads {g d : Bytes} {cs : List Bytes} {k : Option Bytes} {now : Nat} {p q : NetParts} (hp : MadeAt g d cs k now p)
    (hq : MadeAt g d cs k now q) (h : TreeBefore false p q) : Leads p q := by
  obtain ⟨t, ht, t1, t2, t3, -⟩ := hp
  obtain ⟨u, hu, u1, u2, u3, -⟩ := hq
  refine ⟨t, u, ht, hu, ?_⟩
  by_cases hk : t.pubkey = u.pubkey
  · exact .inr ⟨hk, before_older ⟨t, ht, t1, t2, t3, hk⟩ ⟨u, hu, u1, u2, u3, rfl⟩ h⟩
  · left
    obtain ⟨a, b, ha, hb, h⟩ := h
    cases tuple_unique ha ht
    cases tuple_unique hb hu
    rcases h with h | ⟨h, -⟩
    · unfold TreeTuple.KeyLt LexLt at h
      rw [t1, t2, t3, u1, u2, u3] at h
      simpa [LexLt, before_irrefl] using h
    · exact absurd h.2.2.2 hk

/-- What the query for one place gives. -/
theorem spot_lead {cs : List Bytes} (hsp : IsSpace (encodeSpace cs) cs) (h8 : cs.length ≤ 8) {admin : Option Bytes} (ha : ∀ x, admin = some x → x.length = 32)
    {now : Nat} (h1 : 1 < now) (hn : now < 2 ^ 64) {db : Db} (hc : Consistent db) (hw : AllShow db) (hff : NoOnesKey db) :
    ∃ r, LeadAt db privateGroup lnsDomain cs admin now r ∧ queryFirst db false (spotAbs privateGroup lnsDomain cs admin now).preds = .ok r ∧
      queryFirst db false ((spotAbs privateGroup lnsDomain cs admin now).preds.putState .branch ((TestSet.default 32).add .equal 0#32)) = .ok r := by
  obtain ⟨r, h2, h3⟩ := spot_first (g := privateGroup) (d := lnsDomain) (by decide) (by decide) ha hsp h8 h1 hn hc (allProper_allShow.2 hw) (.inr hff)
  refine ⟨r, ?_, h2, ?_⟩
  · cases r with
    | none => exact h3
    | some e =>
      obtain ⟨x1, x2, x3⟩ := h3
      exact ⟨x1, x2, fun f hf hm => (x3 f hf hm).imp id fun hb => before_leads x2 hm hb⟩
  · unfold queryFirst at h2 ⊢
    rw [treeFirst_state (default_hasFirst (spot_state _)) (zero_hasFirst _)]
    exact h2

/-- The point of a local name. -/
theorem private_lead {comps : List Bytes} {n : Name} (hn : Name.ofComps comps = .ok n) {admin : Option Bytes} (ha : ∀ x, admin = some x → x.length = 32)
    {now : Nat} (h1 : 1 < now) (h2 : now < 2 ^ 64) {db : Db} (hc : Consistent db) (hw : AllShow db) (hff : NoOnesKey db) :
    ∃ r, LeadAt db privateGroup lnsDomain (ascii "claims" :: comps.reverse) admin now r ∧ privateClaim db now n admin = .ok r := by
  obtain ⟨hc', hc8⟩ := claims_valid ((name_of_iff _ _).1 hn).1
  obtain ⟨r, x1, -, x2⟩ := spot_lead hc' hc8 ha h1 h2 hc hw hff
  refine ⟨r, x1, ?_⟩
  unfold privateClaim
  rw [claim_space_eq hn]
  simp only [unwrapL]
  have : spaceOf (rootedOf (ascii "claims" :: comps.reverse)) = encodeSpace (ascii "claims" :: comps.reverse) := by
    unfold spaceOf rootedOf
    rw [if_neg (by simp), Rooted.rootedWith_drop8]
  rw [this, spotPreds_eq hc' hc8 (by omega) h2]
  simp only
  rw [x2]; rfl

/-- `/by-tag/TAG/PTR`. -/
def tagSpace (tag ptr : Bytes) : List Bytes := [ascii "by-tag", tag, ptr]
theorem tag_space {tag ptr : Bytes} (ht : 1 ≤ tag.length ∧ tag.length ≤ 200) (hp : ptr.length = 32) :
    IsSpace (encodeSpace (tagSpace tag ptr)) (tagSpace tag ptr) ∧ byTagSpace tag ptr = .ok (encodeSpace (tagSpace tag ptr)) := by
  have h6 : (ascii "by-tag").length = 6 := by decide
  have h0 : IsSpace (encodeSpace [ascii "by-tag"]) [ascii "by-tag"] := ⟨by simp [ValidComps, ascii], rfl, by decide⟩
  have v1 : ValidComps [ascii "by-tag", tag] := by
    intro c hc
    simp only [List.mem_cons, List.not_mem_nil, or_false] at hc
    rcases hc with rfl | rfl <;> (constructor <;> omega)
  have v2 : ValidComps (tagSpace tag ptr) := by
    intro c hc
    simp only [tagSpace, List.mem_cons, List.not_mem_nil, or_false] at hc
    rcases hc with rfl | rfl | rfl <;> (constructor <;> omega)
  have s1 : IsSpace (encodeSpace [ascii "by-tag", tag]) [ascii "by-tag", tag] :=
    ⟨v1, rfl, by simp only [encodeSpace, List.flatMap_cons, List.flatMap_nil, List.length_append, List.length_cons, List.length_nil, h6]; omega⟩
  have s2 : IsSpace (encodeSpace (tagSpace tag ptr)) (tagSpace tag ptr) :=
    ⟨v2, rfl, by simp only [tagSpace, encodeSpace, List.flatMap_cons, List.flatMap_nil, List.length_append, List.length_cons, List.length_nil, h6]; omega⟩
  refine ⟨s2, ?_⟩
  unfold byTagSpace
  rw [show spaceOf byTag = encodeSpace [ascii "by-tag"] from by decide, (space_push h0 _ _).2 s1]
  simp only [unwrapL]
  rw [(space_push s1 ptr _).2 s2]

theorem tag_lead {tag ptr : Bytes} (ht : 1 ≤ tag.length ∧ tag.length ≤ 200) (hp : ptr.length = 32) {admin : Option Bytes}
    (ha : ∀ x, admin = some x → x.length = 32)
    {now : Nat} (h1 : 1 < now) (h2 : now < 2 ^ 64) {db : Db} (hc : Consistent db) (hw : AllShow db) (hff : NoOnesKey db) :
    ∃ r, LeadAt db privateGroup lnsDomain (tagSpace tag ptr) admin now r ∧ tagEntry db now tag ptr admin = .ok r := by
  obtain ⟨hc', hsp⟩ := tag_space ht hp
  obtain ⟨r, x1, x2, -⟩ := spot_lead hc' (by simp [tagSpace]) ha h1 h2 hc hw hff
  refine ⟨r, x1, ?_⟩
  unfold tagEntry
  rw [hsp]
  simp only
  rw [spotPreds_eq hc' (by simp [tagSpace]) (by omega) h2]
  simp only
  rw [x2]; rfl

/-- Packets with one content have the same parts. -/
theorem parts_injective {a b : Content} (e : a.parts = b.parts) : a = b := by
  have e := congrArg Parts.fields e
  simp only [Content.parts] at e
  cases a with
  | data => cases b <;> simp_all [Content.fields]
  | error => cases b <;> simp_all [Content.fields]
  | link a =>
    cases b with
    | link b =>
      cases a; cases b
      simp only [Content.fields, Fields.link.injEq, LinkHead.mk.injEq, Tail.mk.injEq] at e
      simp [e]
    | _ => simp [Content.fields] at e
  | key a =>
    cases b with
    | key b =>
      cases a; cases b
      simp only [Content.fields, Fields.key.injEq, LinkHead.mk.injEq, Tail.mk.injEq, Signed.mk.injEq] at e
      simp [e]
    | _ => simp [Content.fields] at e

theorem rooted_size {cs : List Bytes} (h : IsSpace (encodeSpace cs) cs) : (rootedOf cs).length ≤ 250 := by
  have := h.size
  unfold rootedOf
  split
  · simp
  · rw [Rooted.rootedWith_length]; omega

end Verif.Props
