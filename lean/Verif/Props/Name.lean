import Verif.Model.Name
import Verif.Spec.Name
import Verif.Props.Space
import Verif.Props.AbList
import Verif.Props.Handshake
/-!
# C51: names map to spaces and back
-/
namespace Verif.Props
open Verif Verif.Pkt Verif.Spec Verif.Ast Verif.Abl Verif.Lns Verif.Shake

theorem encode_size (cs : List Bytes) : (encodeSpace cs).length = (cs.map fun c => c.length + 1).sum := by
  induction cs with
  | nil => rfl
  | cons c cs ih =>
    rw [Space.encodeSpace_cons, List.length_cons, List.length_append, ih, List.map_cons, List.sum_cons]; omega

theorem good_space {comps : List Bytes} (h : GoodName comps) : IsSpace (encodeSpace comps.reverse) comps.reverse ∧ (encodeSpace comps.reverse).length ≤ 234 := by
  have hs : (encodeSpace comps.reverse).length ≤ 234 := by
    rw [encode_size, List.map_reverse, List.sum_reverse]; exact h.size
  exact ⟨⟨fun c hc => h.each c (List.mem_reverse.1 hc), rfl, by omega⟩, hs⟩

theorem head_reverse {α : Type} (l : List α) : l.reverse.head? = l.getLast? := by rw [List.head?_reverse]

/-- **C51**: which lists of components are names, and the name they give: the space has the components in reverse. -/
theorem name_of_iff (comps : List Bytes) (n : Name) : Name.ofComps comps = .ok n ↔
    GoodName comps ∧ n.space = encodeSpace comps.reverse ∧ (n.isLocal = true ↔ IsLocal comps) := by
  unfold Name.ofComps
  cases hl : comps.getLast? with
  | none =>
    constructor
    · nofun
    · rintro ⟨h, _⟩; exact absurd (List.getLast?_eq_none_iff.1 hl) h.some
  | some c =>
    simp only
    have hne : comps ≠ [] := by rintro rfl; cases hl
    by_cases hk : comps.length > Lns.maxLen
    · rw [if_pos hk]
      constructor
      · nofun
      · rintro ⟨h, _⟩
        have := h.few
        unfold Lns.maxLen Space.maxDepth at hk
        omega
    · rw [if_neg hk]
      unfold Lns.maxLen Space.maxDepth at hk
      have hloc : (fromTail c = true ↔ IsLocal comps) := by
        unfold fromTail IsLocal
        rw [hl, beq_iff_eq, Option.some.injEq]
      cases ht : Space.tryFromIter comps.reverse with
      | error e =>
        have hno : ¬ (GoodName comps) := by
          intro h
          have := (space_build_iff comps.reverse _).2 ⟨(good_space h).1, by rw [List.length_reverse]; have := h.few; omega⟩
          rw [ht] at this
          cases this
        constructor
        · intro h; cases e <;> cases h
        · rintro ⟨h, _⟩; exact absurd h hno
      | ok sp =>
        obtain ⟨hsp, _⟩ := (space_build_iff comps.reverse sp).1 ht
        have hsz : sp.length = (comps.map fun c => c.length + 1).sum := by
          rw [hsp.enc, encode_size, List.map_reverse, List.sum_reverse]
        simp only
        by_cases hm : sp.length > maxNameSize
        · rw [if_pos hm]
          constructor
          · nofun
          · rintro ⟨h, _⟩
            have := h.size
            unfold maxNameSize Space.maxSize at hm
            omega
        · rw [if_neg hm]
          unfold maxNameSize Space.maxSize at hm
          constructor
          · intro h
            injection h with h
            subst h
            exact ⟨⟨hne, by omega, fun c hc => hsp.comps c (List.mem_reverse.2 hc), by omega⟩, hsp.enc, hloc⟩
          · rintro ⟨_, h2, h3⟩
            obtain ⟨s, b⟩ := n
            simp only at h2 h3
            rw [Except.ok.injEq, Name.mk.injEq]
            refine ⟨hsp.enc.trans h2.symm, ?_⟩
            rw [Bool.eq_iff_iff]
            exact hloc.trans h3.symm

/-- Making a name never aborts. -/
theorem name_of_no_panic (comps : List Bytes) : Name.ofComps comps ≠ .error .panic := by
  unfold Name.ofComps
  split
  · nofun
  · split
    · nofun
    · split
      · nofun
      · rename_i h; exact absurd h (space_build_no_panic _)
      · split <;> nofun

/-- **C51**: which spaces are those of names.  From a space one obtains the name with the components in reverse. -/
theorem name_of_space_iff {sp : Bytes} {cs : List Bytes} (hs : IsSpace sp cs) (h8 : cs.length ≤ 8) (n : Name) :
    Name.fromSpace sp = .ok n ↔ Name.ofComps cs.reverse = .ok n := by
  rw [name_of_iff]
  unfold Name.fromSpace
  rw [space_to_array hs, if_pos h8]
  simp only [unwrapSp, List.reverse_reverse]
  by_cases hk : cs.length > Lns.maxLen
  · rw [if_pos hk]
    constructor
    · nofun
    · rintro ⟨h, _⟩
      have := h.few
      rw [List.length_reverse] at this
      unfold Lns.maxLen Space.maxDepth at hk
      omega
  · rw [if_neg hk]
    unfold Lns.maxLen Space.maxDepth at hk
    cases cs with
    | nil =>
      constructor
      · nofun
      · rintro ⟨h, _⟩; exact absurd rfl h.some
    | cons c cs =>
      simp only
      have hloc : (fromTail c = true ↔ IsLocal (c :: cs).reverse) := by
        unfold fromTail IsLocal
        rw [List.getLast?_reverse, List.head?_cons, beq_iff_eq, Option.some.injEq]
      have hsz : sp.length = (((c :: cs).reverse).map fun c => c.length + 1).sum := by
        rw [hs.enc, encode_size, List.map_reverse, List.sum_reverse]
      by_cases hm : sp.length > maxNameSize
      · rw [if_pos hm]
        constructor
        · nofun
        · rintro ⟨h, _⟩
          have := h.size
          unfold maxNameSize Space.maxSize at hm
          omega
      · rw [if_neg hm]
        unfold maxNameSize Space.maxSize at hm
        constructor
        · intro h
          injection h with h
          subst h
          exact ⟨⟨by simp, by rw [List.length_reverse]; omega, fun x hx => hs.comps x (List.mem_reverse.1 hx), by omega⟩, hs.enc, hloc⟩
        · rintro ⟨_, h2, h3⟩
          obtain ⟨s, b⟩ := n
          simp only at h2 h3
          rw [Except.ok.injEq, Name.mk.injEq]
          refine ⟨hs.enc.trans h2.symm, ?_⟩
          rw [Bool.eq_iff_iff]
          exact hloc.trans h3.symm

/-- **C51**: from the space of a name one obtains the same name. -/
theorem name_space_roundtrip {comps : List Bytes} {n : Name} (h : Name.ofComps comps = .ok n) : Name.fromSpace n.space = .ok n := by
  obtain ⟨hg, hs, _⟩ := (name_of_iff comps n).1 h
  rw [hs, name_of_space_iff (good_space hg).1 (by rw [List.length_reverse]; have := hg.few; omega), List.reverse_reverse]
  exact h

/-- A name determines its components. -/
theorem name_injective {a b : List Bytes} {n : Name} (ha : Name.ofComps a = .ok n) (hb : Name.ofComps b = .ok n) : a = b := by
  obtain ⟨ga, sa, _⟩ := (name_of_iff a n).1 ha
  obtain ⟨gb, sb, _⟩ := (name_of_iff b n).1 hb
  have h2 := (good_space gb).1
  rw [← sb, sa] at h2
  exact List.reverse_inj.1 (space_unique _ _ _ (good_space ga).1 h2)

theorem claims_valid {comps : List Bytes} (h : GoodName comps) :
    IsSpace (encodeSpace (ascii "claims" :: comps.reverse)) (ascii "claims" :: comps.reverse) ∧ (ascii "claims" :: comps.reverse).length ≤ 8 := by
  obtain ⟨h1, h2⟩ := good_space h
  have h3 := h.few
  refine ⟨⟨ValidComps.cons_iff.2 ⟨by decide, h1.comps⟩, rfl, ?_⟩, by rw [List.length_cons, List.length_reverse]; omega⟩
  rw [Space.encodeSpace_cons, List.length_cons, List.length_append]
  have : (ascii "claims").length = 6 := by decide
  omega

theorem claimPrefix_eq : claimPrefix = rootedOf [ascii "claims"] := by decide

/-- **C51**: claims of a name are at `claims` followed by the components in reverse; computing this never aborts. -/
theorem claim_space_eq {comps : List Bytes} {n : Name} (h : Name.ofComps comps = .ok n) :
    n.claimSpace = .ok (rootedOf (ascii "claims" :: comps.reverse)) := by
  obtain ⟨hg, hs, _⟩ := (name_of_iff comps n).1 h
  obtain ⟨hc, hc8⟩ := claims_valid hg
  have h1 : IsSpace (encodeSpace [ascii "claims"]) [ascii "claims"] := ⟨ValidComps.cons_iff.2 ⟨by decide, .nil⟩, rfl, by decide⟩
  unfold Name.claimSpace
  rw [claimPrefix_eq, (rooted_access _ h1 (by decide)).2.2.1]
  simp only [unwrapSp]
  rw [rooted_of_space true _ _ h1 (by decide)]
  simp only
  rw [hs, space_iter _ _ (good_space hg).1]
  simp only
  have h2 := (Rooted.extendFromIter_enc [ascii "claims"] comps.reverse h1 (by decide) (rootedOf (ascii "claims" :: comps.reverse))).2
    ⟨by rfl, by simpa using hc, by simpa using hc8⟩
  rw [h2]
  simp only
  rw [(rooted_access _ hc hc8).2.2.1]
  exact congrArg unwrapSp (rooted_of_space true _ _ hc hc8)

/-- Different names are claimed at different places. -/
theorem claim_space_injective {a b : List Bytes} {n m : Name} (ha : Name.ofComps a = .ok n) (hb : Name.ofComps b = .ok m)
    (h : n.claimSpace = m.claimSpace) : n = m := by
  rw [claim_space_eq ha, claim_space_eq hb] at h
  injection h with h
  obtain ⟨ca, ca8⟩ := claims_valid ((name_of_iff a n).1 ha).1
  obtain ⟨cb, cb8⟩ := claims_valid ((name_of_iff b m).1 hb).1
  have := rooted_injective _ _ ca cb ca8 cb8 h
  injection this with _ this
  have := List.reverse_inj.1 this
  subst this
  rw [ha] at hb
  injection hb

theorem claim_group_iff {comps : List Bytes} {n : Name} (h : Name.ofComps comps = .ok n) (g : Bytes) : g = n.claimGroup ↔ GroupOf comps g := by
  obtain ⟨_, _, hl⟩ := (name_of_iff comps n).1 h
  unfold Name.claimGroup GroupOf
  cases hb : n.isLocal with
  | true =>
    have hi : IsLocal comps := hl.1 hb
    rw [if_pos rfl]
    exact ⟨fun h => ⟨fun _ => h, fun h => absurd hi h⟩, fun h => h.1 hi⟩
  | false =>
    have hi : ¬ IsLocal comps := fun h => by have := hl.2 h; rw [hb] at this; cases this
    rw [if_neg (by simp)]
    exact ⟨fun h => ⟨fun h => absurd h hi, fun _ => h⟩, fun h => h.2 hi⟩

/-! ### text -/

theorem clist_abe (c : Bytes) (cs : List Bytes) (h : ∀ x ∈ c :: cs, x ≠ []) :
    Abl.toAbe (clist (c :: cs)) = .bytes c :: cs.flatMap fun c => [.ctr .colon, .bytes c] := by
  have hc : c.isEmpty = false := by
    have := h c List.mem_cons_self
    cases c with
    | nil => exact absurd rfl this
    | cons _ _ => rfl
  have hcs : ∀ x ∈ cs, x ≠ [] := fun x hx => h x (List.mem_cons_of_mem _ hx)
  unfold clist delimited Abl.toAbe items
  simp only [List.map_cons, List.flatMap_cons, Option.map_none, Option.toList_none, List.nil_append, hc, Bool.false_eq_true, if_false,
    List.map_append, List.map_nil, List.singleton_append, ABItem.toAbe]
  congr 1
  clear hc h
  induction cs with
  | nil => rfl
  | cons d cs ih =>
    have hd : d.isEmpty = false := by
      have := hcs d List.mem_cons_self
      cases d with
      | nil => exact absurd rfl this
      | cons _ _ => rfl
    rw [List.map_cons, List.flatMap_cons, List.flatMap_cons, List.map_append, ih (fun x hx => hcs x (List.mem_cons_of_mem _ hx))]
    congr 1
    simp [hd, ABItem.toAbe]

/-- **C51**: the text of a name is its components separated by colons, read back as the same name. -/
theorem name_text_roundtrip {comps : List Bytes} {n : Name} (h : Name.ofComps comps = .ok n) :
    ∃ s, n.text = .ok s ∧ parseAblist s = some (clist comps) ∧ Name.ofList (clist comps) = .ok n := by
  obtain ⟨hg, hs, _⟩ := (name_of_iff comps n).1 h
  have hne : ∀ x ∈ comps, x ≠ [] := fun x hx he => by have := (hg.each x hx).1; rw [he] at this; cases this
  cases comps with
  | nil => exact absurd rfl hg.some
  | cons c cs =>
    refine ⟨display (clist (c :: cs)), ?_, ?_, ?_⟩
    · unfold Name.text Name.toAbe
      have hz : n.space.isEmpty = false := by
        cases hn : n.space with
        | cons _ _ => rfl
        | nil =>
          rw [hn] at hs
          have : (encodeSpace (c :: cs).reverse).length = 0 := by rw [← hs]; rfl
          rw [encode_size, List.map_reverse, List.sum_reverse, List.map_cons, List.sum_cons] at this
          omega
      rw [hz, if_neg (by simp), hs, space_to_array (good_space hg).1, if_pos (by rw [List.length_reverse]; have := hg.few; omega)]
      simp only [unwrapSp, List.reverse_reverse]
      rw [display_eq, clist_abe c cs hne]
    · rw [ablist_roundtrip_iff]
      constructor
      · intro e he
        simp only [clist, delimited, List.map_cons, List.tail_cons, List.mem_map] at he
        obtain ⟨b, _, rfl⟩ := he
        nofun
      · intro hsil
        simp only [SilentHead, clist, delimited, List.map_cons, List.head?_cons, Option.some.injEq, Prod.mk.injEq, true_and] at hsil
        exact hne c List.mem_cons_self hsil
    · unfold Name.ofList
      rw [if_neg]
      · rw [show clist (c :: cs) = delimited (c :: cs) .colon from rfl, ablist_components]; exact h
      · simp only [clist, delimited, List.map_cons, List.any_cons, List.any_map, Bool.or_eq_true, List.any_eq_true]
        rintro (h | ⟨x, _, h⟩)
        · exact absurd h (by decide)
        · exact absurd (show (some Ctr.colon == some Ctr.fslash) = true from h) (by decide)

/-- Which evaluated lists are names: those without a slash whose components are a name.  A leading colon is an empty component, so
it is refused. -/
theorem name_of_list_iff (l : ABList) (n : Name) : Name.ofList l = .ok n ↔
    (∀ e ∈ l, e.1 ≠ some .fslash) ∧ Name.ofComps (iterBytes l) = .ok n := by
  unfold Name.ofList
  split
  · rename_i h
    obtain ⟨e, he, h2⟩ := List.any_eq_true.1 h
    constructor
    · nofun
    · rintro ⟨h3, _⟩; exact absurd (eq_of_beq h2) (h3 e he)
  · rename_i h
    constructor
    · intro h2
      refine ⟨fun e he h3 => h (List.any_eq_true.2 ⟨e, he, by rw [h3]; rfl⟩), h2⟩
    · exact fun h => h.2

theorem countColons_eq (k : Nat) (cs : List Bytes) : countColons k (cs.flatMap fun c => [.ctr .colon, .bytes c]) = some (k + cs.length) := by
  induction cs generalizing k with
  | nil => rfl
  | cons c cs ih =>
    rw [List.flatMap_cons]
    show countColons (k + 1) (cs.flatMap _) = _
    rw [ih, List.length_cons]
    congr 1
    omega

/-- The syntax of every name passes the check made before evaluating. -/
theorem name_check {comps : List Bytes} {n : Name} (h : Name.ofComps comps = .ok n) (l : List ABE) (hl : n.toAbe = .ok l) : Name.check l = true := by
  obtain ⟨hg, hs, _⟩ := (name_of_iff comps n).1 h
  cases comps with
  | nil => exact absurd rfl hg.some
  | cons c cs =>
    unfold Name.toAbe at hl
    have hz : n.space.isEmpty = false := by
      cases hn : n.space with
      | cons _ _ => rfl
      | nil =>
        rw [hn] at hs
        have : (encodeSpace (c :: cs).reverse).length = 0 := by rw [← hs]; rfl
        rw [encode_size, List.map_reverse, List.sum_reverse, List.map_cons, List.sum_cons] at this
        omega
    rw [hz, if_neg (by simp), hs, space_to_array (good_space hg).1, if_pos (by rw [List.length_reverse]; have := hg.few; omega)] at hl
    simp only [unwrapSp, List.reverse_reverse, Except.ok.injEq] at hl
    subst hl
    have hk := hg.few
    rw [List.length_cons] at hk
    unfold Name.check
    rw [countColons, countColons_eq]
    simp [Lns.maxLen, Space.maxDepth]
    omega

/-! ### tags -/

/-- **C51**: a tag made from a stamp and eight bytes gives them back; every tag is made so, in one way. -/
theorem stamp_tag_iff (s : Nat) (hs : s < 2 ^ 64) (r : Bytes) (hr : r.length = 8) (t : Bytes) :
    stampTag s r = t ↔ t.length = 16 ∧ asStampTag t = (s, r) := by
  unfold stampTag asStampTag
  constructor
  · rintro rfl
    refine ⟨by rw [List.length_append, beBytes_length, hr], ?_⟩
    rw [List.take_left' (beBytes_length _ _), List.drop_left' (beBytes_length _ _), beNat_beBytes 8 s (by simpa using hs)]
  · rintro ⟨hl, h⟩
    injection h with h1 h2
    have ht : (t.take 8).length = 8 := by rw [List.length_take]; omega
    have : beBytes 8 s = t.take 8 := by
      apply beNat_inj
      · rw [beBytes_length, ht]
      · rw [beNat_beBytes 8 s (by simpa using hs), h1]
    rw [this, ← h2, List.take_append_drop]

/-- **C51**: the other kind of tag also carries the stamp; it ends with the given bytes and kind. -/
theorem lns_tag_iff (s : Nat) (hs : s < 2 ^ 64) (r : Bytes) (k : UInt8) (t : Bytes) : lnsTag s r k = some t ↔
    r.length < 8 ∧ t.length = 16 ∧ (asStampTag t).1 = s ∧ (asStampTag t).2 = List.replicate (7 - r.length) 0 ++ r ++ [k] := by
  unfold lnsTag
  by_cases hr : r.length < 8
  · rw [if_pos hr, Option.some.injEq]
    have hl : (List.replicate (7 - r.length) 0 ++ r ++ [k]).length = 8 := by simp; omega
    have h := stamp_tag_iff s hs _ hl t
    unfold stampTag at h
    rw [← List.append_assoc, ← List.append_assoc] at h
    rw [h]
    constructor
    · rintro ⟨h1, h2⟩; exact ⟨hr, h1, by rw [h2], by rw [h2]⟩
    · rintro ⟨_, h1, h2, h3⟩; exact ⟨h1, Prod.ext h2 h3⟩
  · rw [if_neg hr]
    constructor
    · nofun
    · rintro ⟨h, _⟩; exact absurd h hr

/-! ### claims -/

theorem link_space {lc : LinkContent} (h : lc.Sized) : ∃ cs, IsSpace (lc.rspace.drop 8) cs ∧ cs.length ≤ 8 := by
  rcases (rooted_check_iff lc.rspace).1 h.rspace with h | ⟨d, cs, hs, h8, h, _⟩
  · exact ⟨[], by rw [h]; exact ⟨.nil, rfl, by decide⟩, by decide⟩
  · exact ⟨cs, by rw [h, Rooted.rootedWith_drop8]; exact hs, h8⟩

theorem claim_of_parts {p : NetParts} {c : Content} (hp : p.parts = c.parts) (hv : c.Valid) (cl : Claim) :
    Claim.ofPkt p = .ok cl ↔ ∃ comps lc, IsClaim c comps lc ∧ cl.pkt = p ∧ Name.ofComps comps = .ok cl.name := by
  have hk : ∀ f, p.parts.fields = f → f = c.fields := fun f h => by rw [← h, hp]; rfl
  cases c with
  | link lc =>
    have hf : p.parts.fields = (Content.link lc).fields := by rw [hp]; rfl
    have e1 : isLinkpoint p = true := by unfold isLinkpoint; rw [hf]; rfl
    have e2 : p.space? = some (lc.rspace.drop 8) := by unfold NetParts.space?; rw [hf]; rfl
    have e3 : p.getDomain = lc.domain := by unfold NetParts.getDomain; rw [hf]; rfl
    have e4 : p.getGroup = lc.group := by unfold NetParts.getGroup; rw [hf]; rfl
    have e5 : p.getLinks = lc.links := by unfold NetParts.getLinks; rw [hf]; rfl
    obtain ⟨cs, hs, h8⟩ := link_space hv.2
    have hcl : IsSpace (spaceOf claimPrefix) [ascii "claims"] := ⟨ValidComps.cons_iff.2 ⟨by decide, .nil⟩, by decide, by decide⟩
    unfold Claim.ofPkt
    rw [e1, e2, e3, e4, e5, if_neg (by simp)]
    simp only [Option.getD_some]
    by_cases hst : Space.startsWith (lc.rspace.drop 8) (spaceOf claimPrefix) = true
    · rw [if_neg (by simp [hst])]
      rw [space_starts_with hs hcl] at hst
      obtain ⟨tl, rfl⟩ := hst
      have htl : IsSpace (encodeSpace tl) tl := by
        refine ⟨(ValidComps.cons_iff.1 hs.comps).2, rfl, ?_⟩
        have h1 := hs.size
        rw [hs.enc, List.singleton_append, Space.encodeSpace_cons, List.length_cons, List.length_append] at h1
        omega
      have htl8 : tl.length ≤ 8 := by rw [List.singleton_append, List.length_cons] at h8; omega
      have hspace : ∀ comps, lc.rspace.drop 8 = encodeSpace (ascii "claims" :: comps) → IsSpace (encodeSpace (ascii "claims" :: comps)) (ascii "claims" :: comps) →
          comps = tl := by
        intro comps h1 h2
        rw [← h1] at h2
        have := space_unique _ _ _ h2 hs
        injection this
      by_cases hd : lc.domain ≠ lnsDomain
      · rw [if_pos hd]
        constructor
        · nofun
        · rintro ⟨comps, lc', h, _⟩
          have := h.point; cases this
          exact absurd h.domain hd
      · rw [if_neg hd, space_split_first hs]
        simp only [List.singleton_append, List.head?_cons, Option.map_some, List.tail_cons]
        have hn := name_of_space_iff htl htl8
        have back : ∀ comps lc', IsClaim (.link lc) comps lc' → comps = tl.reverse := by
          intro comps lc' h
          have := h.point; cases this
          have := hspace _ h.space (claims_valid h.name).1
          rw [← this, List.reverse_reverse]
        cases hN : Name.fromSpace (encodeSpace tl) with
        | error e =>
          have hno : ∀ n, Name.ofComps tl.reverse ≠ .ok n := fun n h => by rw [(hn n).2 h] at hN; cases hN
          constructor
          · intro h; cases e <;> cases h
          · rintro ⟨comps, lc', h, _, h2⟩
            rw [back _ _ h] at h2
            exact absurd h2 (hno _)
        | ok n =>
          simp only
          have hof := (hn n).1 hN
          by_cases hg : lc.group ≠ n.claimGroup
          · rw [if_pos hg]
            constructor
            · nofun
            · rintro ⟨comps, lc', h, _, h2⟩
              have := h.point; cases this
              rw [back _ _ h] at h
              exact absurd ((claim_group_iff hof _).2 h.group) hg
          · rw [if_neg hg]
            have hg : lc.group = n.claimGroup := by simpa using hg
            by_cases hl : lc.links = []
            · rw [if_pos (by rw [hl]; rfl)]
              constructor
              · nofun
              · rintro ⟨comps, lc', h, _, h2⟩
                have := h.point; cases this
                exact absurd hl h.links
            · rw [if_neg (by simpa using hl)]
              constructor
              · intro h
                injection h with h
                subst h
                refine ⟨tl.reverse, lc, ⟨rfl, ((name_of_iff _ _).1 hof).1, Classical.not_not.1 hd, (claim_group_iff hof _).1 hg, ?_, hl⟩, rfl, hof⟩
                rw [List.reverse_reverse]
                exact hs.enc
              · rintro ⟨comps, lc', h, h1, h2⟩
                rw [back _ _ h, hof] at h2
                injection h2 with h2
                obtain ⟨a, b⟩ := cl
                simp only at h1 h2
                rw [h1, h2]
    · rw [if_pos (by simpa using hst)]
      constructor
      · nofun
      · rintro ⟨comps, lc', h, _⟩
        have := h.point; cases this
        have h2 := (claims_valid h.name).1
        rw [← h.space] at h2
        have := space_unique _ _ _ h2 hs
        exact absurd ((space_starts_with hs hcl).2 (by rw [← this]; exact ⟨_, rfl⟩)) hst
  | _ =>
    have hf := hp
    constructor
    · intro h
      unfold Claim.ofPkt at h
      rw [if_pos (by unfold isLinkpoint; rw [hf]; simp [Content.parts, Content.fields])] at h
      cases h
    · rintro ⟨comps, lc', h, _⟩
      have := h.point; cases this

/-- **C51**: which packets are claims, and of which name. -/
theorem claim_of_iff {C : Crypto} {p : NetParts} {c : Content} (hp : WellMade C p c) (cl : Claim) :
    Claim.ofPkt p = .ok cl ↔ ∃ comps lc, IsClaim c comps lc ∧ cl.pkt = p ∧ Name.ofComps comps = .ok cl.name :=
  claim_of_parts hp.parts hp.valid cl

theorem claim_of_parts_no_panic {p : NetParts} {c : Content} (hp : p.parts = c.parts) (hv : c.Valid) : Claim.ofPkt p ≠ .error .panic := by
  unfold Claim.ofPkt
  split
  · nofun
  · rename_i h1
    have h1 : isLinkpoint p = true := by simpa using h1
    cases c with
    | link lc =>
      have hf : p.parts.fields = (Content.link lc).fields := by rw [hp]; rfl
      have e2 : p.space? = some (lc.rspace.drop 8) := by unfold NetParts.space?; rw [hf]; rfl
      obtain ⟨cs, hs, h8⟩ := link_space hv.2
      have hcl : IsSpace (spaceOf claimPrefix) [ascii "claims"] := ⟨ValidComps.cons_iff.2 ⟨by decide, .nil⟩, by decide, by decide⟩
      rw [e2]
      simp only [Option.getD_some]
      split
      · nofun
      · rename_i hst
        have hst : Space.startsWith (lc.rspace.drop 8) (spaceOf claimPrefix) = true := by simpa using hst
        rw [space_starts_with hs hcl] at hst
        obtain ⟨tl, rfl⟩ := hst
        have htl : IsSpace (encodeSpace tl) tl := by
          refine ⟨(ValidComps.cons_iff.1 hs.comps).2, rfl, ?_⟩
          have h1 := hs.size
          rw [hs.enc, List.singleton_append, Space.encodeSpace_cons, List.length_cons, List.length_append] at h1
          omega
        have htl8 : tl.length ≤ 8 := by rw [List.singleton_append, List.length_cons] at h8; omega
        rw [space_split_first hs]
        simp only [List.singleton_append, List.head?_cons, Option.map_some, List.tail_cons]
        have hN : Name.fromSpace (encodeSpace tl) ≠ .error .panic := by
          unfold Name.fromSpace
          rw [space_to_array htl, if_pos htl8]
          simp only [unwrapSp]
          split
          · nofun
          · split
            · nofun
            · split <;> nofun
        split
        · nofun
        · split
          · rename_i h; exact absurd h hN
          · nofun
          · split
            · nofun
            · split <;> nofun
    | _ =>
      unfold isLinkpoint at h1
      rw [hp] at h1
      cases h1

theorem stamp_of_tag {until_ : Nat} (h : until_ < 2 ^ 64) (r : Bytes) : asStampTag (beBytes 8 until_ ++ r) = (until_, r) := by
  unfold asStampTag
  rw [List.take_left' (beBytes_length _ _), List.drop_left' (beBytes_length _ _), beNat_beBytes 8 until_ (by simpa using h)]

/-- Reading a packet as a claim never aborts. -/
theorem claim_of_no_panic {C : Crypto} {p : NetParts} {c : Content} (hp : WellMade C p c) : Claim.ofPkt p ≠ .error .panic :=
  claim_of_parts_no_panic hp.parts hp.valid

/-- The content of a claim made for a name. -/
def claimContent (g : Bytes) (comps : List Bytes) (until_ : Nat) (l : Link) (ls : List Link) (data : Bytes) : LinkContent :=
  ⟨g, List.replicate 13 0 ++ ascii "lns", 0, ⟨beBytes 8 until_ ++ l.tag.drop 8, l.ptr⟩ :: ls, rootedOf (ascii "claims" :: comps.reverse), data⟩

/-- **C51**: a claim made for a name is a claim of that name with the given end; its links are the given ones except that the end is
written into the first tag, and it reads back as the same claim. -/
theorem claim_new {C : Crypto} (nh : Bytes) {comps : List Bytes} {n : Name} (hn : Name.ofComps comps = .ok n) {until_ : Nat} (h0 : 0 < until_)
    (hu : until_ < 2 ^ 64) {l : Link} {ls : List Link} (hl : LinksSized (l :: ls)) (hf : beNat (l.tag.take 8) = 0 ∨ beNat (l.tag.take 8) = until_)
    (data : Bytes) (hsz : 64 + 48 * (ls.length + 1) + (rootedOf (ascii "claims" :: comps.reverse)).length + data.length ≤ 65024) :
    ∃ cl g, Claim.new C nh n until_ (l :: ls) data = .ok cl ∧ GroupOf comps g ∧
      WellMade C cl.pkt (.link (claimContent g comps until_ l ls data)) ∧ IsClaim (.link (claimContent g comps until_ l ls data)) comps (claimContent g comps until_ l ls data) ∧
      cl.name = n ∧ cl.until = .ok until_ ∧ Claim.ofPkt cl.pkt = .ok cl := by
  have hgood := ((name_of_iff _ _).1 hn).1
  obtain ⟨hc, hc8⟩ := claims_valid hgood
  have hg := (claim_group_iff hn n.claimGroup).1 rfl
  have hglen : n.claimGroup.length = 32 := by
    unfold Name.claimGroup
    split <;> decide
  have hs : (claimContent n.claimGroup comps until_ l ls data).Sized := by
    refine ⟨hglen, show (List.replicate 13 0 ++ ascii "lns").length = 16 by decide, show 0 < 2 ^ 64 by decide, ?_, rooted_check_accepts _ hc hc8⟩
    intro x hx
    rcases List.mem_cons.1 hx with rfl | hx
    · have := hl l List.mem_cons_self
      exact ⟨by rw [List.length_append, beBytes_length, List.length_drop]; omega, this.2⟩
    · exact hl x (List.mem_cons_of_mem _ hx)
  have hpt := tryPoint_eq (C := C) hs none nh
  rw [if_pos (by
    show LinkContent.len _ ≤ 65024
    unfold LinkContent.len claimContent
    simp only [List.length_cons]
    omega)] at hpt
  have hw : WellMade C ⟨nh, C.hash (Content.link (claimContent n.claimGroup comps until_ l ls data)).layout,
      (Content.link (claimContent n.claimGroup comps until_ l ls data)).parts⟩ (.link (claimContent n.claimGroup comps until_ l ls data)) := by
    refine ⟨⟨?_, hs⟩, trivial, rfl, rfl⟩
    show LinkContent.len _ ≤ 65024
    unfold LinkContent.len claimContent
    simp only [List.length_cons]
    omega
  generalize hpk : NetParts.mk nh (C.hash (Content.link (claimContent n.claimGroup comps until_ l ls data)).layout)
      (Content.link (claimContent n.claimGroup comps until_ l ls data)).parts = pk at hw
  have hcl : IsClaim (.link (claimContent n.claimGroup comps until_ l ls data)) comps (claimContent n.claimGroup comps until_ l ls data) := by
    refine ⟨rfl, hgood, rfl, hg, ?_, by simp [claimContent]⟩
    show (rootedOf (ascii "claims" :: comps.reverse)).drop 8 = _
    unfold rootedOf
    rw [if_neg (by simp), Rooted.rootedWith_drop8]
  have hof := (claim_of_iff hw ⟨pk, n⟩).2 ⟨comps, _, hcl, rfl, hn⟩
  refine ⟨⟨pk, n⟩, n.claimGroup, ?_, hg, hw, hcl, rfl, ?_, hof⟩
  · unfold Claim.new
    have hf : (asStampTag l.tag).1 = 0 ∨ (asStampTag l.tag).1 = until_ := hf
    simp only
    rw [if_neg (Classical.not_not.2 hf), claim_space_eq hn]
    simp only
    have : tryLinkpoint C n.claimGroup lnsDomain (rootedOf (ascii "claims" :: comps.reverse)) (⟨beBytes 8 until_ ++ l.tag.drop 8, l.ptr⟩ :: ls) data 0 nh = .ok pk := by
      rw [← hpk]; exact hpt
    rw [this]
    simp only
    rw [if_neg, hof]
    have : pk.getCreate = 0 := by rw [← hpk]; rfl
    omega
  · unfold Claim.until
    have : pk.getLinks = ⟨beBytes 8 until_ ++ l.tag.drop 8, l.ptr⟩ :: ls := by rw [← hpk]; rfl
    simp only [this]
    rw [stamp_of_tag hu]

theorem firstTail_iff (ls : List Link) {t : Bytes} (ht : t.length ≤ 16) (k : Bytes) : (firstTail ls t).map (·.ptr) = some k ↔
    ∃ a l b, ls = a ++ l :: b ∧ l.ptr = k ∧ t <:+ l.tag ∧ ∀ x ∈ a, ¬ t <:+ x.tag := by
  unfold firstTail
  rw [if_neg (by omega), Option.map_eq_some_iff]
  constructor
  · rintro ⟨l, h, rfl⟩
    rw [List.find?_eq_some_iff_append] at h
    obtain ⟨h1, a, b, h2, h3⟩ := h
    refine ⟨a, l, b, h2, rfl, of_decide_eq_true h1, fun x hx h => ?_⟩
    have := h3 x hx
    rw [decide_eq_true h] at this
    cases this
  · rintro ⟨a, l, b, h2, rfl, h1, h3⟩
    refine ⟨l, ?_, rfl⟩
    rw [List.find?_eq_some_iff_append]
    exact ⟨decide_eq_true h1, a, b, h2, fun x hx => by rw [decide_eq_false (h3 x hx)]; rfl⟩
/-- The key and the group of a claim: those of the first link with such a tag. -/
theorem claim_pubkey_iff (cl : Claim) (k : Bytes) : cl.pubkey = some k ↔ ∃ a l b, cl.pkt.getLinks = a ++ l :: b ∧ l.ptr = k ∧
    ascii "pubkey@" <:+ l.tag ∧ ∀ x ∈ a, ¬ ascii "pubkey@" <:+ x.tag := firstTail_iff _ (by decide) k
theorem claim_group_tag_iff (cl : Claim) (k : Bytes) : cl.group = some k ↔ ∃ a l b, cl.pkt.getLinks = a ++ l :: b ∧ l.ptr = k ∧
    ascii "group#" <:+ l.tag ∧ ∀ x ∈ a, ¬ ascii "group#" <:+ x.tag := firstTail_iff _ (by decide) k

/-- The root has a text, but it is not a name. -/
theorem root_no_name : Name.root.text = .ok (ascii "[[LNS-ROOT]]") ∧ ∀ comps, Name.ofComps comps ≠ .ok Name.root := by
  refine ⟨by decide +kernel, fun comps h => ?_⟩
  obtain ⟨hg, hs, _⟩ := (name_of_iff _ _).1 h
  have h1 := encode_size comps.reverse
  rw [← hs] at h1
  cases comps with
  | nil => exact hg.some rfl
  | cons c cs =>
    rw [List.map_reverse, List.sum_reverse, List.map_cons, List.sum_cons] at h1
    simp only [Name.root, List.length_nil] at h1
    omega

/-! ### cases -/

/-- `foo:bar:local`. -/
def exName : List Bytes := [ascii "foo", ascii "bar", ascii "local"]
example : GoodName exName ∧ IsLocal exName := by
  refine ⟨⟨by decide, by decide, by decide, by decide⟩, by unfold IsLocal; decide⟩
example : (match Name.ofComps exName with
    | .ok n => n.text.toOption == some (ascii "foo:bar:local") && n.space == ascii "\x05local\x03bar\x03foo" && n.claimGroup == List.replicate 32 0
    | .error _ => false) = true := by decide +kernel
example : (match Name.ofComps [ascii "foo", ascii "com"] with
    | .ok n => n.claimGroup == publicGroup
    | .error _ => false) = true := by decide +kernel
/-- A claim of `foo:bar:local` with a key, until stamp 1000. -/
example : ∃ cl, Claim.new toyCrypto (List.replicate 32 0) ⟨encodeSpace exName.reverse, true⟩ 1000 [⟨List.replicate 9 0 ++ ascii "pubkey@", List.replicate 32 7⟩] [] = .ok cl ∧
    cl.until = .ok 1000 ∧ cl.name.isLocal = true := by
  obtain ⟨cl, g, h1, -, -, -, h2, h3, -⟩ := claim_new (C := toyCrypto) (List.replicate 32 0) (comps := exName) (n := ⟨encodeSpace exName.reverse, true⟩)
    (by rw [name_of_iff]; exact ⟨⟨by decide, by decide, by decide, by decide⟩, rfl, by unfold IsLocal; decide⟩) (until_ := 1000) (by decide) (by decide)
    (one_sized (t := List.replicate 9 0 ++ ascii "pubkey@") (h := List.replicate 32 7) (by decide) (by decide)) (by decide) [] (by decide)
  exact ⟨cl, h1, h3, by rw [h2]⟩

end Verif.Props
