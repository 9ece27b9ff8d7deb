import Verif.Lemmas.NameEval
import Verif.Props.Setup
/-!
# C76: names in expressions
-/
namespace Verif.Props
open Verif Verif.Ast Verif.Abl Verif.Abe Verif.Abtxt Verif.Num Verif.Fit Verif.Pkt Verif.Eval Verif.Env Verif.Repr Verif.Lns Verif.Spec Verif.Tpl

section
variable (k : PktParams) (p : Params) (w : NameEnv) (read : Bytes → Except (Fault Files.FsErr) Bytes) (en : Bool) (o : Outside)

/-! ## the group and the key of a name -/

/-- A result of a function as the result of a call. -/
def arEr : AR Bytes → ER Bytes
  | .value b => .ok b
  | .abort => .abort
  | _ => .err

theorem arEr_ok (r : AR Bytes) (v : Bytes) : arEr r = .ok v ↔ r = .value v := by cases r <;> simp [arEr]
theorem arEr_abort (r : AR Bytes) : arEr r = .abort ↔ r = .abort := by cases r <;> simp [arEr]

theorem name_call {mark tag : Bytes} (hk : Kind mark tag) {c : Bytes} {cs : List Bytes} (hw : ¬ Word mark c) (hl : cs.length ≤ 14)
    (dbg : Bool) (n : Nat) (d : Dyn) : evalText dbg k (lkScope k p w read en o) (n + 1) d (callText mark (c :: cs)) =
      if cs.length ≤ 6 then arEr (linkPtr (netClaim w o) tag (c :: cs)) else .err := by
  have hself := net_self mark (List.mem_append_left _ (kind_in hk))
  rw [callText_args _ _ dbg k _ n d hself.1 (callText_text hself _) (by simp only [List.length_cons]; omega), call_ar, denote_net (kind_in hk), core_mark hk,
    lns_word hk hw _ _ (by omega), net_mark hk]
  show (match (if 1 ≤ (c :: cs).length ∧ (c :: cs).length ≤ 7 then linkPtr (netClaim w o) tag (c :: cs) else .err : AR Bytes) with
    | .value b => ER.ok b | .abort => .abort | _ => .err) = _
  by_cases h : cs.length ≤ 6
  · rw [if_pos (by simp only [List.length_cons]; omega), if_pos h]
    cases linkPtr (netClaim w o) tag (c :: cs) <;> rfl
  · rw [if_neg (by simp only [List.length_cons]; omega), if_neg h]

theorem private_call {mark tag : Bytes} (hk : Kind mark tag) {c : Bytes} {cs : List Bytes} (hl : cs.length ≤ 14)
    (dbg : Bool) (n : Nat) (d : Dyn) : evalText dbg k (lkScope k p w read en o) (n + 1) d (callText (ascii "private" ++ mark) (c :: cs)) =
      if cs.length ≤ 6 then arEr (linkPtr (privClaim! w o) tag (c :: cs)) else .err := by
  have hin : ascii "private" ++ mark ∈ privIds := by cases hk <;> decide +kernel
  have hself := net_self _ (List.mem_append_right _ hin)
  rw [callText_args _ _ dbg k _ n d hself.1 (callText_text hself _) (by simp only [List.length_cons]; omega), call_ar, denote_priv hin, priv_mark hk]
  show (match (if 1 ≤ (c :: cs).length ∧ (c :: cs).length ≤ 7 then linkPtr (privClaim! w o) tag (c :: cs) else .err : AR Bytes) with
    | .value b => ER.ok b | .abort => .abort | _ => .err) = _
  by_cases h : cs.length ≤ 6
  · rw [if_pos (by simp only [List.length_cons]; omega), if_pos h]
    cases linkPtr (privClaim! w o) tag (c :: cs) <;> rfl
  · rw [if_neg (by simp only [List.length_cons]; omega), if_neg h]

theorem good_few {c : Bytes} {cs : List Bytes} {nm : Name} (h : Name.ofComps (c :: cs) = .ok nm) : cs.length ≤ 6 := by
  have := ((name_of_iff _ _).1 h).1.few
  simp only [List.length_cons] at this; omega

/-- `[#:a:b]` and `[@:a:b]`, when the first component is not a fixed word: the group or key of the claim found for the name. -/
theorem name_value_iff {mark tag : Bytes} (hk : Kind mark tag) {c : Bytes} {cs : List Bytes} (hw : ¬ Word mark c) (hl : cs.length ≤ 14)
    (dbg : Bool) (n : Nat) (d : Dyn) (v : Bytes) : evalText dbg k (lkScope k p w read en o) (n + 1) d (callText mark (c :: cs)) = .ok v ↔
      ∃ nm cl, Name.ofComps (c :: cs) = .ok nm ∧ (lookupClaim w.C w.nh o.db w.iter o.now nm = .ok (some cl) ∨
        (lookupClaim w.C w.nh o.db w.iter o.now nm = .ok none ∧ lookupClaim w.C w.nh o.db w.again o.now nm = .ok (some cl))) ∧
        FirstPtr cl.pkt.getLinks tag v := by
  rw [name_call k p w read en o hk hw hl]
  constructor
  · intro h
    split at h
    · obtain ⟨nm, cl, h1, h2, h3⟩ := (link_ptr_ok _ hk _ v).1 ((arEr_ok _ _).1 h)
      exact ⟨nm, cl, h1, (net_claim_ok nm cl).1 h2, h3⟩
    · cases h
  · rintro ⟨nm, cl, h1, h2, h3⟩
    rw [if_pos (good_few h1), arEr_ok, link_ptr_ok _ hk]
    exact ⟨nm, cl, h1, (net_claim_ok nm cl).2 h2, h3⟩

/-- `[private#:a:b]` and `[private@:a:b]`, for any first component. -/
theorem private_value_iff {mark tag : Bytes} (hk : Kind mark tag) {c : Bytes} {cs : List Bytes} (hl : cs.length ≤ 14)
    (dbg : Bool) (n : Nat) (d : Dyn) (v : Bytes) : evalText dbg k (lkScope k p w read en o) (n + 1) d (callText (ascii "private" ++ mark) (c :: cs)) = .ok v ↔
      ∃ nm cl, Name.ofComps (c :: cs) = .ok nm ∧ lookupClaim w.C w.nh o.db w.iter o.now nm = .ok (some cl) ∧ FirstPtr cl.pkt.getLinks tag v := by
  rw [private_call k p w read en o hk hl]
  constructor
  · intro h
    split at h
    · obtain ⟨nm, cl, h1, h2, h3⟩ := (link_ptr_ok _ hk _ v).1 ((arEr_ok _ _).1 h)
      exact ⟨nm, cl, h1, (priv_claim_ok nm cl).1 h2, h3⟩
    · cases h
  · rintro ⟨nm, cl, h1, h2, h3⟩
    rw [if_pos (good_few h1), arEr_ok, link_ptr_ok _ hk]
    exact ⟨nm, cl, h1, (priv_claim_ok nm cl).2 h2, h3⟩

theorem first_ptr_unique {ls : List Link} {t v v' : Bytes} (ht : t.length ≤ 16) (h : FirstPtr ls t v) (h' : FirstPtr ls t v') : v = v' := by
  have go : ∀ v, FirstPtr ls t v → (firstTail ls t).map (·.ptr) = some v := by
    rintro v ⟨a, l, b, h1, h2, h3, h4⟩
    exact (firstTail_iff ls ht v).2 ⟨a, l, b, h1, h4, h2, h3⟩
  have := (go v h).symm.trans (go v' h')
  exact Option.some.inj this

theorem claim_links {e : NetParts} {c : Content} {comps : List Bytes} {lc : LinkContent} (hp : e.parts = c.parts) (hk : IsClaim c comps lc) : e.getLinks = lc.links := by
  unfold NetParts.getLinks
  rw [hp, hk.point]; rfl

variable {w o} in
/-- What a lookup of a local name says about its value. -/
theorem local_lookup_value {nm : Name} {comps : List Bytes} (hn : Name.ofComps comps = .ok nm) (hloc : IsLocal comps) (iter : List Tally → List Tally)
    (h1 : 1 < o.now) (h2 : o.now < 2 ^ 64) (hc : Spec.Consistent o.db) (hs : AllShow o.db) (hff : NoOnesKey o.db) (tag v : Bytes) :
    (∃ cl, lookupClaim w.C w.nh o.db iter o.now nm = .ok (some cl) ∧ FirstPtr cl.pkt.getLinks tag v) ↔ LocalValue o.db o.now comps tag v := by
  constructor
  · rintro ⟨cl, hcl, hf⟩
    obtain ⟨e, c, lc, b0, b1, b2, b3, rfl⟩ := (local_found_iff_partial w.C w.nh iter hn hloc h1 h2 hc hs hff cl).1 hcl
    exact ⟨e, c, lc, b0, b1, b2, b3, by rw [← claim_links b1 b3]; exact hf⟩
  · rintro ⟨e, c, lc, b0, b1, b2, b3, hf⟩
    exact ⟨⟨e.2, nm⟩, (local_found_iff_partial w.C w.nh iter hn hloc h1 h2 hc hs hff _).2 ⟨e, c, lc, b0, b1, b2, b3, rfl⟩, by
      show FirstPtr e.2.getLinks tag v
      rw [claim_links b1 b3]; exact hf⟩

variable {w o} in
theorem local_never_stops {nm : Name} {comps : List Bytes} (hn : Name.ofComps comps = .ok nm) (hloc : IsLocal comps) (iter : List Tally → List Tally)
    (h1 : 1 < o.now) (h2 : o.now < 2 ^ 64) (hc : Spec.Consistent o.db) (hs : AllShow o.db) (hff : NoOnesKey o.db) (q : Query.QStop) :
    lookupClaim w.C w.nh o.db iter o.now nm ≠ .error (.stop q) := by
  intro h
  exact absurd ((local_error_iff_partial w.C w.nh iter hn hloc h1 h2 hc hs hff _).1 h).1 nofun

/-- **C76**: a local name in an expression stands for the group or key of the claim that leads at its place, and is an error if there is none; it
never aborts.  (With the prefix `private` the first component may also be a fixed word.)  Missing: points with the key of all ones, and names that
are not local, see `name_value_iff`. -/
theorem local_name_partial {mark tag : Bytes} (hk : Kind mark tag) {c : Bytes} {cs : List Bytes} (hg : GoodName (c :: cs)) (hloc : IsLocal (c :: cs))
    (h1 : 1 < o.now) (h2 : o.now < 2 ^ 64) (hc : Spec.Consistent o.db) (hs : AllShow o.db) (hff : NoOnesKey o.db) (dbg : Bool) (n : Nat) (d : Dyn)
    {id : Bytes} (hid : id = mark ∧ ¬ Word mark c ∨ id = ascii "private" ++ mark) :
    (∀ v, LocalValue o.db o.now (c :: cs) tag v → evalText dbg k (lkScope k p w read en o) (n + 1) d (callText id (c :: cs)) = .ok v) ∧
    ((∀ v, ¬ LocalValue o.db o.now (c :: cs) tag v) → evalText dbg k (lkScope k p w read en o) (n + 1) d (callText id (c :: cs)) = .err) := by
  have hl : cs.length ≤ 6 := by have := hg.few; simp only [List.length_cons] at this; omega
  have hn : ∃ nm, Name.ofComps (c :: cs) = .ok nm :=
    ⟨⟨encodeSpace (c :: cs).reverse, true⟩, (name_of_iff _ _).2 ⟨hg, rfl, by simp [hloc]⟩⟩
  obtain ⟨nm, hn⟩ := hn
  have lv := fun iter => local_lookup_value (w := w) hn hloc iter h1 h2 hc hs hff tag
  have ns := fun iter => local_never_stops (w := w) hn hloc iter h1 h2 hc hs hff
  have hok : ∀ v, evalText dbg k (lkScope k p w read en o) (n + 1) d (callText id (c :: cs)) = .ok v ↔ LocalValue o.db o.now (c :: cs) tag v := by
    intro v
    rcases hid with ⟨rfl, hw⟩ | rfl
    · rw [name_value_iff k p w read en o hk hw (by omega)]
      constructor
      · rintro ⟨nm', cl, e, h | ⟨-, h⟩, hf⟩
        · rw [hn] at e; cases e; exact (lv _ v).1 ⟨cl, h, hf⟩
        · rw [hn] at e; cases e; exact (lv _ v).1 ⟨cl, h, hf⟩
      · intro h
        obtain ⟨cl, x, y⟩ := (lv w.iter v).2 h
        exact ⟨nm, cl, hn, .inl x, y⟩
    · rw [private_value_iff k p w read en o hk (by omega)]
      constructor
      · rintro ⟨nm', cl, e, h, hf⟩
        rw [hn] at e; cases e; exact (lv _ v).1 ⟨cl, h, hf⟩
      · intro h
        obtain ⟨cl, x, y⟩ := (lv w.iter v).2 h
        exact ⟨nm, cl, hn, x, y⟩
  have hna : evalText dbg k (lkScope k p w read en o) (n + 1) d (callText id (c :: cs)) ≠ .abort := by
    intro h
    rcases hid with ⟨rfl, hw⟩ | rfl
    · rw [name_call k p w read en o hk hw (by omega), if_pos hl, arEr_abort, link_ptr_abort] at h
      obtain ⟨nm', e, h⟩ := h
      rw [hn] at e; cases e
      unfold netClaim privClaim at h
      cases hx : lookupClaim w.C w.nh o.db w.iter o.now nm with
      | error x =>
        cases x with
        | err => rw [hx] at h; cases h
        | stop q => exact ns _ q hx
      | ok r =>
        rw [hx] at h
        cases r with
        | some cl => cases h
        | none =>
          simp only [ofLookup, ER.bind] at h
          cases hy : lookupClaim w.C w.nh o.db w.again o.now nm with
          | error x =>
            cases x with
            | err => rw [hy] at h; cases h
            | stop q => exact ns _ q hy
          | ok r => rw [hy] at h; cases r <;> cases h
    · rw [private_call k p w read en o hk (by omega), if_pos hl, arEr_abort, link_ptr_abort] at h
      obtain ⟨nm', e, h⟩ := h
      rw [hn] at e; cases e
      unfold privClaim! privClaim at h
      cases hx : lookupClaim w.C w.nh o.db w.iter o.now nm with
      | error x =>
        cases x with
        | err => rw [hx] at h; cases h
        | stop q => exact ns _ q hx
      | ok r => rw [hx] at h; cases r <;> cases h
  refine ⟨fun v hv => (hok v).2 hv, fun hv => ?_⟩
  cases hr : evalText dbg k (lkScope k p w read en o) (n + 1) d (callText id (c :: cs)) with
  | ok v => exact absurd ((hok v).1 hr) (hv v)
  | err => rfl
  | abort => exact absurd hr hna

/-- A list of components that is not a name is an error, whatever is stored. -/
theorem bad_name {mark tag : Bytes} (hk : Kind mark tag) {c : Bytes} {cs : List Bytes} (hw : ¬ Word mark c) (hl : cs.length ≤ 14) (hg : ¬ GoodName (c :: cs))
    (dbg : Bool) (n : Nat) (d : Dyn) : evalText dbg k (lkScope k p w read en o) (n + 1) d (callText mark (c :: cs)) = .err := by
  have hno : ∀ nm, Name.ofComps (c :: cs) ≠ .ok nm := fun nm h => hg ((name_of_iff _ _).1 h).1
  rw [name_call k p w read en o hk hw hl]
  split
  · cases hr : linkPtr (netClaim w o) tag (c :: cs) with
    | value v => obtain ⟨nm, -, h, -⟩ := (link_ptr_ok _ hk _ v).1 hr; exact absurd h (hno nm)
    | abort => obtain ⟨nm, h, -⟩ := (link_ptr_abort _ _ _).1 hr; exact absurd h (hno nm)
    | err => rfl
    | noValue => rfl
  · rfl

/-- **Finding**: only the first component decides whether a name is one of the fixed words, so `[#:test:local]`, `[#:0:a:b]` or `[@:none:local]` never
stand for the claim of that name. -/
theorem name_shadowed {mark c v : Bytes} (h : Fixed p.publicGrp p.testGrp mark c v) (cs : List Bytes) (hl : cs.length ≤ 14) (dbg : Bool) (n : Nat) (d : Dyn) :
    evalText dbg k (lkScope k p w read en o) (n + 1) d (callText mark (c :: cs)) = .ok v := by
  have hk : ∃ tag, Kind mark tag := by cases h <;> exact ⟨_, by constructor⟩
  obtain ⟨tag, hk⟩ := hk
  have hself := net_self mark (List.mem_append_left _ (kind_in hk))
  rw [callText_args _ _ dbg k _ n d hself.1 (callText_text hself _) (by simp only [List.length_cons]; omega), call_ar, denote_net (kind_in hk), core_mark hk,
    lns_fixed h _ _ (by omega)]
  rfl

/-- **Finding**: `private#` and `private@` are said to only look at the private claims, but they find all that `#` and `@` do with one order of the votes. -/
theorem private_not_only {mark tag : Bytes} (hk : Kind mark tag) {c : Bytes} {cs : List Bytes} (hw : ¬ Word mark c) (hl : cs.length ≤ 14) (ho : w.again = w.iter)
    (dbg : Bool) (n : Nat) (d : Dyn) : evalText dbg k (lkScope k p w read en o) (n + 1) d (callText (ascii "private" ++ mark) (c :: cs)) =
      evalText dbg k (lkScope k p w read en o) (n + 1) d (callText mark (c :: cs)) := by
  rw [name_call k p w read en o hk hw hl, private_call k p w read en o hk hl]
  have : netClaim w o = privClaim! w o := by
    funext nm
    unfold netClaim privClaim! privClaim
    rw [ho]
    cases lookupClaim w.C w.nh o.db w.iter o.now nm with
    | error x => cases x <;> rfl
    | ok r => cases r <;> rfl
  rw [this]

/-! ## the name of a group or key -/

theorem which_call {mark tag a h : Bytes} (hk : Kind mark tag) (hl : h.length = 32) (ha : a = h ∨ a = base64 h) {id : Bytes}
    (hid : id = ascii "?" ++ mark ∨ id = ascii "?private" ++ mark) (dbg : Bool) (n : Nat) (d : Dyn) :
    evalText dbg k (lkScope k p w read en o) (n + 1) d (callText id [a]) =
      (tagName w o tag h).bind fun
        | some t => .ok t
        | none => .err := by
  have hin : id ∈ netIds ++ privIds := by rcases hid with rfl | rfl <;> cases hk <;> decide +kernel
  have hself := net_self _ hin
  have hs : nameStr w o tag [a] = ((tagName w o tag h).bind fun
        | some t => .ok t
        | none => .err).toAR := by
    unfold nameStr
    rw [List.headD_cons, b64_either hl ha]
    rfl
  have hf : (denote k (lkScope k p w read en o) (evalD dbg k (lkScope k p w read en o) n) d).func
      ⟨evalD dbg k (lkScope k p w read en o) n d, (denote k (lkScope k p w read en o) (evalD dbg k (lkScope k p w read en o) n) d).enc, dbg⟩ id [a] true =
      nameStr w o tag [a] := by
    rcases hid with rfl | rfl
    · rw [denote_net (by cases hk <;> decide +kernel), core_none p (by cases hk <;> decide +kernel), net_which hk]; rfl
    · rw [denote_priv (by cases hk <;> decide +kernel), priv_which hk]
  rw [callText_args _ _ dbg k _ n d hself.1 (callText_text hself _) (by simp), call_ar, hf, hs]
  cases ER.bind _ _ <;> rfl

variable {w o} in
theorem tag_name_of {tag h : Bytes} {cl : Claim} {comps : List Bytes} (hr : reverseLookup w.C w.nh o.db w.iter o.now tag h = .ok (some cl))
    (hn : Name.ofComps comps = .ok cl.name) : tagName w o tag h = .ok (some (nameText comps)) := by
  unfold tagName
  rw [hr]
  show ER.map some (ofName cl.name.text) = _
  rw [name_text hn]; rfl

/-- **C76**: `[?#:H]` and `[?@:H]` give the name the index has for the group or key (in bytes or base64), if the name still stands for it; else they
are an error.  Missing: names in the index that are not local, and points with the key of all ones. -/
theorem which_name_partial {mark tag a h : Bytes} (hk : Kind mark tag) (hl : h.length = 32) (ha : a = h ∨ a = base64 h) {id : Bytes}
    (hid : id = ascii "?" ++ mark ∨ id = ascii "?private" ++ mark)
    (h1 : 1 < o.now) (h2 : o.now < 2 ^ 64) (hc : Spec.Consistent o.db) (hs : AllShow o.db) (hff : NoOnesKey o.db) (dbg : Bool) (n : Nat) (d : Dyn) :
    ((∀ comps, ¬ ListedAs o.db o.now tag h comps) → evalText dbg k (lkScope k p w read en o) (n + 1) d (callText id [a]) = .err) ∧
    ∀ comps, ListedAs o.db o.now tag h comps → IsLocal comps →
      (LocalValue o.db o.now comps tag h → evalText dbg k (lkScope k p w read en o) (n + 1) d (callText id [a]) = .ok (nameText comps)) ∧
      (¬ LocalValue o.db o.now comps tag h → evalText dbg k (lkScope k p w read en o) (n + 1) d (callText id [a]) = .err) := by
  obtain ⟨r1, r2⟩ := reverse_local (w := w) hk hl h1 h2 hc hs hff w.iter
  rw [which_call k p w read en o hk hl ha hid]
  refine ⟨fun hno => ?_, fun comps hli hloc => ⟨fun hv => ?_, fun hv => ?_⟩⟩
  · unfold tagName; rw [r1 hno]; rfl
  · obtain ⟨cl, hr, hn⟩ := (r2 comps hli hloc).1 hv
    rw [tag_name_of hr hn]; rfl
  · rcases (r2 comps hli hloc).2 hv with hr | hr <;> unfold tagName <;> rw [hr] <;> rfl

/-- **C76**: and that name, written in brackets behind the mark, is an expression for the group or key again. -/
theorem which_name_back_partial {mark tag a h : Bytes} (hk : Kind mark tag) (hl : h.length = 32) (ha : a = h ∨ a = base64 h)
    (h1 : 1 < o.now) (h2 : o.now < 2 ^ 64) (hc : Spec.Consistent o.db) (hs : AllShow o.db) (hff : NoOnesKey o.db) (dbg : Bool) (n : Nat) (d : Dyn)
    (hloc : ∀ comps, ListedAs o.db o.now tag h comps → IsLocal comps) {t : Bytes}
    (ht : evalText dbg k (lkScope k p w read en o) (n + 1) d (callText (ascii "?" ++ mark) [a]) = .ok t) :
    ∃ comps, t = nameText comps ∧ GoodName comps ∧
      evalText dbg k (lkScope k p w read en o) (n + 1) d (callText (ascii "private" ++ mark) comps) = .ok h ∧
      (¬ Word mark (comps.headD []) → evalText dbg k (lkScope k p w read en o) (n + 1) d (ascii "[" ++ mark ++ ascii ":" ++ t ++ ascii "]") = .ok h) := by
  obtain ⟨r1, r2⟩ := which_name_partial k p w read en o hk hl ha (id := ascii "?" ++ mark) (.inl rfl) h1 h2 hc hs hff dbg n d
  by_cases hli : ∃ comps, ListedAs o.db o.now tag h comps
  · obtain ⟨comps, hli⟩ := hli
    by_cases hv : LocalValue o.db o.now comps tag h
    · rw [(r2 comps hli (hloc _ hli)).1 hv] at ht
      cases ht
      obtain ⟨e, c0, lc, -, -, -, hg, -⟩ := id hv
      have hg := hg.name
      refine ⟨comps, rfl, hg, ?_⟩
      cases comps with
      | nil => exact absurd rfl hg.some
      | cons c cs =>
        refine ⟨(local_name_partial k p w read en o hk hg (hloc _ hli) h1 h2 hc hs hff dbg n d (.inr rfl)).1 h hv, fun hw => ?_⟩
        have := (local_name_partial k p w read en o hk hg (hloc _ hli) h1 h2 hc hs hff dbg n d (.inl ⟨rfl, hw⟩)).1 h hv
        rw [← bracket_name mark (by simp)] at this
        simpa [bracket, ascii] using this
    · rw [(r2 comps hli (hloc _ hli)).2 hv] at ht; cases ht
  · rw [r1 fun comps hli' => hli ⟨comps, hli'⟩] at ht; cases ht

/-! ## printing a group or key by its name -/

theorem recheck_call {dbg : Bool} {k : PktParams} {base : Ev → Dyn → Scope} {n : Nat} {d : Dyn} {id : Bytes} {args : List Bytes} (hid : id ≠ [] ∧ ∀ c ∈ id, Self c)
    (hl : args.length ≤ 15) {v : Bytes} (h : evalText dbg k base (n + 1) d (callText id args) = .ok v) (enc : Bytes → List ABE → Bytes → AR Bytes) (b : Bytes) :
    recheck ⟨evalD dbg k base (n + 1) d, enc, dbg⟩ (callText id args) b = decide (v = b) := by
  rw [callText_args _ _ dbg k _ n d hid.1 (callText_text hid _) hl] at h
  unfold recheck
  rw [show parseStrict (callText id args) = .ok _ from parse_of_text (callText_text hid args) false]
  have : evalD dbg k base (n + 1) d [.lst (toAbe (callList id args))] = .ok [(none, v)] := by
    show (evalItems (denote k base (evalD dbg k base n) d) _ [_]).map fromItems = _
    rw [evalItems, match_callList _ _ id hid.1 args hl, h]
    simp [ER.map, ER.bind, evalItems, fromItems, push, pushBytes]
  simp only [this, asExactBytes]
  by_cases e : v = b <;> simp [e]

theorem esc_self (c : UInt8) : Self c → escapeDefault c = [c] := by
  revert c
  apply Abtxt.all_u8
  unfold Self
  decide +kernel
theorem abtxt_self {b : Bytes} (h : ∀ c ∈ b, Self c) : asAbtxt b = b := by
  rw [asAbtxt_eq]
  induction b with
  | nil => rfl
  | cons c b ih =>
    rw [List.flatMap_cons, esc_self c (h c List.mem_cons_self), ih fun x hx => h x (List.mem_cons_of_mem _ hx)]; rfl

theorem mark_opts {mark tag : Bytes} (hk : Kind mark tag) : parseStrict (mark ++ ascii "/b") = .ok [.bytes mark, .ctr .fslash, .bytes (ascii "b")] := by
  have ht : ∀ t : List ABE, Norm t → parseStrict (printAbe t) = .ok t := fun t h => parse_of_text (text_of_norm t h) false
  have : mark ++ ascii "/b" = printAbe [.bytes mark, .ctr .fslash, .bytes (ascii "b")] := by cases hk <;> decide +kernel
  rw [this]
  refine ht _ ?_
  have hm : mark ≠ [] := by cases hk <;> decide +kernel
  simp [Norm, NormOne, NoBytesHead, ascii, hm]

variable {k p w read en o} in
/-- The last resort: base64. -/
theorem print_b64 (dbg : Bool) (n : Nat) (d : Dyn) (h : Bytes) :
    encLoop ⟨evalD dbg k (lkScope k p w read en o) (n + 1) d, (denote k (lkScope k p w read en o) (evalD dbg k (lkScope k p w read en o) (n + 1)) d).enc, dbg⟩ h true
      [[.bytes (ascii "b")]] = .ok (callText (ascii "b") [base64 h]) ∧
    evalText dbg k (lkScope k p w read en o) (n + 1) d (callText (ascii "b") [base64 h]) = .ok h := by
  have hself : ascii "b" ≠ [] ∧ ∀ c ∈ ascii "b", Self c := by decide +kernel
  have hfn : ∀ ev top, (lkScope k p w read en o ev d).func top (ascii "b") [base64 h] true = .value h := by
    intro ev top
    show AR.orElse ((coreScope p).func top (ascii "b") [base64 h] true) _ = _
    rw [(core_hasText p).b, Props.b64_roundtrip]; rfl
  have hev : evalText dbg k (lkScope k p w read en o) (n + 1) d (callText (ascii "b") [base64 h]) = .ok h := by
    rw [callText_args _ _ dbg k _ n d hself.1 (callText_text hself _) (by simp), call_ar, denote_func k _ _ d (by decide +kernel), hfn]
  refine ⟨?_, hev⟩
  refine encLoop_value _ _ _ _ ?_ (by rw [recheck_call hself (by simp) hev]; simp)
  show (denote k (lkScope k p w read en o) _ d).enc (ascii "b") [] h = _
  rw [denote_encs (by decide +kernel), core_enc_b]
  have : bracket (ascii "b") (base64 h) = callText (ascii "b") [base64 h] := by
    have : asAbtxt (base64 h) = base64 h := abtxt_self (urlSafe_self h)
    simp [bracket, callText, ascii, this]
  rw [this]; rfl

theorem core_enc_lns {mark tag : Bytes} (hk : Kind mark tag) (v : Bytes) : (coreScope p).enc mark [] v = tableEnc (lnsFns p) mark [] v := by
  cases hk
  · show AR.orElse (tableEnc (lnsFns p) (ascii "#") [] v) (fun _ => .noValue) = _
    rw [nv_orElse]
  · show AR.orElse (tableEnc (lnsFns p) (ascii "@") [] v) (fun _ => .noValue) = _
    rw [nv_orElse]

theorem core_enc_fixed {mark nm v : Bytes} (hf : Fixed p.publicGrp p.testGrp mark nm v) (hl : v.length = 32) :
    ∃ nm', Fixed p.publicGrp p.testGrp mark nm' v ∧ (coreScope p).enc mark [] v = .value (callText mark [nm']) := by
  have hfit : fit 32 v = some v := by simp [fit, fitFront, hl]
  have hz : zeros32 = List.replicate 32 0 := rfl
  have hg : tableEnc (lnsFns p) (ascii "#") [] v = if v = zeros32 then .value (bracket (ascii "#") (ascii "0"))
      else if v = p.publicGrp then .value (bracket (ascii "#") (ascii "pub"))
      else if v = p.testGrp then .value (bracket (ascii "#") (ascii "test")) else .noValue := by
    show (match fit 32 v with
      | none => _
      | some g => _) = _
    rw [hfit]
  have hkk : tableEnc (lnsFns p) (ascii "@") [] v = if v = zeros32 then .value (bracket (ascii "@") (ascii "none")) else .noValue := rfl
  have b : ∀ m c : Bytes, (∀ x ∈ c, Self x) → bracket m c = callText m [c] := by
    intro m c hc
    simp [bracket, callText, ascii, abtxt_self hc]
  have ing : v = zeros32 ∨ v = p.publicGrp ∨ v = p.testGrp → ∃ nm', Fixed p.publicGrp p.testGrp (ascii "#") nm' v ∧ (coreScope p).enc (ascii "#") [] v = .value (callText (ascii "#") [nm']) := by
    intro h
    rw [core_enc_lns p .group, hg]
    by_cases h0 : v = zeros32
    · exact ⟨ascii "0", by rw [h0]; exact .null, by rw [if_pos h0, b _ _ (by decide +kernel)]⟩
    · by_cases h1 : v = p.publicGrp
      · exact ⟨ascii "pub", by rw [h1]; exact .pub, by rw [if_neg h0, if_pos h1, b _ _ (by decide +kernel)]⟩
      · have h2 : v = p.testGrp := by rcases h with h | h | h; exact absurd h h0; exact absurd h h1; exact h
        exact ⟨ascii "test", by rw [h2]; exact .test, by rw [if_neg h0, if_neg h1, if_pos h2, b _ _ (by decide +kernel)]⟩
  generalize hv : v = v' at hf
  cases hf with
  | null => subst hv; exact ing (.inl rfl)
  | pub => subst hv; exact ing (.inr (.inl rfl))
  | test => subst hv; exact ing (.inr (.inr rfl))
  | none =>
    subst hv
    exact ⟨ascii "none", .none, by rw [core_enc_lns p .key, hkk, if_pos (show List.replicate 32 0 = zeros32 from rfl), b _ _ (by decide +kernel)]⟩

theorem core_enc_free {mark tag v : Bytes} (hk : Kind mark tag) (hf : ∀ nm, ¬ Fixed p.publicGrp p.testGrp mark nm v) :
    (coreScope p).enc mark [] v = .noValue := by
  rw [core_enc_lns p hk]
  cases hk with
  | group =>
    show (match fit 32 v with
      | none => AR.noValue
      | some g => if g = zeros32 then .value (bracket (ascii "#") (ascii "0"))
        else if g = p.publicGrp then .value (bracket (ascii "#") (ascii "pub"))
        else if g = p.testGrp then .value (bracket (ascii "#") (ascii "test")) else .noValue) = _
    cases hx : fit 32 v with
    | none => rfl
    | some g =>
      have : g = v := by
        unfold fit fitFront at hx
        split at hx
        · cases hx
        · rename_i hn
          have hn : v.length = 32 := by omega
          rw [if_neg (by omega), hn] at hx
          cases hx
          simp
      subst this
      simp only
      rw [if_neg fun e => hf (ascii "0") (by rw [e]; exact .null), if_neg fun e => hf (ascii "pub") (by rw [e]; exact .pub), if_neg fun e => hf (ascii "test") (by rw [e]; exact .test)]
  | key =>
    show (if v = zeros32 then _ else AR.noValue) = _
    rw [if_neg fun e => hf (ascii "none") (by rw [e]; exact .none)]

variable {k p w read en o} in
/-- The encoder of a mark. -/
theorem print_steps {mark tag h : Bytes} (hk : Kind mark tag) (dbg : Bool) (n : Nat) (d : Dyn) :
    encText dbg k (lkScope k p w read en o) (n + 1) d h (mark ++ ascii "/b") =
      match AR.orElse ((coreScope p).enc mark [] h) (fun _ => tagAbe w o tag mark h) with
      | .value t => if dbg && !recheck ⟨evalD dbg k (lkScope k p w read en o) (n + 1) d,
            (denote k (lkScope k p w read en o) (evalD dbg k (lkScope k p w read en o) (n + 1)) d).enc, dbg⟩ t h then .abort else .ok t
      | .abort => .abort
      | _ => .ok (callText (ascii "b") [base64 h]) := by
  unfold encText encode
  rw [mark_opts hk]
  simp only
  unfold encodeAbe
  have hsplit : splitBy isFslash [ABE.bytes mark, .ctr .fslash, .bytes (ascii "b")] = [[.bytes mark], [.bytes (ascii "b")]] := rfl
  rw [if_neg (by simp), hsplit, encLoop.eq_def]
  simp only [optOf]
  have he : (denote k (lkScope k p w read en o) (evalD dbg k (lkScope k p w read en o) (n + 1)) d).enc mark [] h =
      AR.orElse ((coreScope p).enc mark [] h) (fun _ => tagAbe w o tag mark h) := by
    rw [denote_encs (by cases hk <;> decide +kernel), enc_mark hk]
  rw [he, (print_b64 dbg n d h).1]
  cases AR.orElse ((coreScope p).enc mark [] h) (fun _ => tagAbe w o tag mark h) with
  | noValue => rfl
  | err => simp
  | abort => rfl
  | value t =>
    simp only
    generalize (dbg && !recheck _ t h) = c
    cases c <;> rfl

variable {w o} in
theorem tag_abe_of {mark tag h : Bytes} (hl : h.length = 32) {comps : List Bytes} (hne : comps ≠ []) (ht : tagName w o tag h = .ok (some (nameText comps))) {b : Bytes} (hb : b = h ∨ b = base64 h) :
    tagAbe w o tag mark b = .value (callText mark comps) := by
  unfold tagAbe
  rw [b64_either hl hb]
  simp only [ht]
  rw [bracket_name mark hne]

/-- **C76**: a group or key is printed with its fixed word, else with the name the index has for it, if the name stands for it, else in base64; and the
text evaluates to it again.  Missing: names in the index that are not local, points with the key of all ones, and names that start with a fixed word,
see `print_word_aborts`. -/
theorem print_name_partial {mark tag h : Bytes} (hk : Kind mark tag) (hl : h.length = 32)
    (h1 : 1 < o.now) (h2 : o.now < 2 ^ 64) (hc : Spec.Consistent o.db) (hs : AllShow o.db) (hff : NoOnesKey o.db)
    (hloc : ∀ comps, ListedAs o.db o.now tag h comps → IsLocal comps ∧ ¬ Word mark (comps.headD [])) (dbg : Bool) (n : Nat) (d : Dyn) :
    ∃ id args, encText dbg k (lkScope k p w read en o) (n + 1) d h (mark ++ ascii "/b") = .ok (callText id args) ∧
      evalText dbg k (lkScope k p w read en o) (n + 1) d (callText id args) = .ok h ∧
      ((∃ nm, Fixed p.publicGrp p.testGrp mark nm h) → id = mark ∧ ∃ nm, args = [nm] ∧ Fixed p.publicGrp p.testGrp mark nm h) ∧
      ((∀ nm, ¬ Fixed p.publicGrp p.testGrp mark nm h) → (∀ comps, ListedAs o.db o.now tag h comps → LocalValue o.db o.now comps tag h → id = mark ∧ args = comps) ∧
        ((∀ comps, ListedAs o.db o.now tag h comps → ¬ LocalValue o.db o.now comps tag h) → id = ascii "b" ∧ args = [base64 h])) := by
  have hin := kind_in hk
  have hself := net_self mark (List.mem_append_left _ hin)
  obtain ⟨r1, r2⟩ := reverse_local (w := w) hk hl h1 h2 hc hs hff w.iter
  rw [print_steps hk]
  by_cases hfx : ∃ nm, Fixed p.publicGrp p.testGrp mark nm h
  · obtain ⟨nm0, hfx⟩ := hfx
    obtain ⟨nm, hf, he⟩ := core_enc_fixed p hfx hl
    have hev := name_shadowed k p w read en o hf [] (by simp) dbg n d
    refine ⟨mark, [nm], ?_, hev, fun _ => ⟨rfl, nm, rfl, hf⟩, fun hno => absurd hf (hno nm)⟩
    rw [he]
    simp only [AR.orElse]
    rw [recheck_call hself (by simp) hev]
    simp
  · have hno : ∀ nm, ¬ Fixed p.publicGrp p.testGrp mark nm h := fun nm hf => hfx ⟨nm, hf⟩
    rw [core_enc_free p hk hno]
    simp only [AR.orElse]
    by_cases hli : ∃ comps, ListedAs o.db o.now tag h comps ∧ LocalValue o.db o.now comps tag h
    · obtain ⟨comps, hli, hv⟩ := hli
      obtain ⟨hlo, hw⟩ := hloc _ hli
      obtain ⟨e, c0, lc, -, -, -, hg, -⟩ := id hv
      have hg := hg.name
      obtain ⟨cl, hr, hn⟩ := (r2 comps hli hlo).1 hv
      have huniq : ∀ comps', ListedAs o.db o.now tag h comps' → comps' = comps := by
        intro comps' hl'
        rcases listed_lookup (tag := tag) (by cases hk <;> decide +kernel) hl h1 h2 hc hs hff with ⟨-, e2⟩ | ⟨-, x, -, -, -, e4⟩
        · exact absurd hl' (e2 comps')
        · rw [e4 _ hl', e4 _ hli]
      rw [tag_abe_of hl hg.some (tag_name_of hr hn) (.inl rfl)]
      have hev : evalText dbg k (lkScope k p w read en o) (n + 1) d (callText mark comps) = .ok h := by
        cases comps with
        | nil => exact absurd rfl hg.some
        | cons c cs => exact (local_name_partial k p w read en o hk hg hlo h1 h2 hc hs hff dbg n d (.inl ⟨rfl, hw⟩)).1 h hv
      refine ⟨mark, comps, ?_, hev, fun ⟨nm, hf⟩ => absurd hf (hno nm), fun _ => ⟨fun comps' hl' _ => ⟨rfl, (huniq comps' hl').symm⟩, fun hx => absurd hv (hx comps hli)⟩⟩
      simp only
      rw [recheck_call hself (by have := hg.few; omega) hev]
      simp
    · have hb : tagAbe w o tag mark h = .noValue ∨ tagAbe w o tag mark h = .err := by
        unfold tagAbe
        rw [b64_either hl (.inl rfl)]
        simp only
        by_cases hx : ∃ comps, ListedAs o.db o.now tag h comps
        · obtain ⟨comps, hx⟩ := hx
          rcases (r2 comps hx (hloc _ hx).1).2 (fun hv => hli ⟨comps, hx, hv⟩) with hr | hr <;> unfold tagName <;> rw [hr]
          · exact .inl rfl
          · exact .inr rfl
        · unfold tagName
          rw [r1 fun comps hl' => hx ⟨comps, hl'⟩]
          exact .inl rfl
      refine ⟨ascii "b", [base64 h], ?_, (print_b64 dbg n d h).2, fun ⟨nm, hf⟩ => absurd hf (hno nm),
        fun _ => ⟨fun comps hl' hv => absurd ⟨comps, hl', hv⟩ hli, fun _ => ⟨rfl, rfl⟩⟩⟩
      rcases hb with hb | hb <;> rw [hb]

/-- **Finding**: a group or key whose name in the index starts with a fixed word, like `none:local`, can not be printed: the check of the printed text
fails, and the program aborts. -/
theorem print_word_aborts {mark tag h : Bytes} (hk : Kind mark tag) (hl : h.length = 32)
    (h1 : 1 < o.now) (h2 : o.now < 2 ^ 64) (hc : Spec.Consistent o.db) (hs : AllShow o.db) (hff : NoOnesKey o.db)
    (hno : ∀ nm, ¬ Fixed p.publicGrp p.testGrp mark nm h) {c v : Bytes} {cs : List Bytes} (hli : ListedAs o.db o.now tag h (c :: cs)) (hlo : IsLocal (c :: cs))
    (hv : LocalValue o.db o.now (c :: cs) tag h) (hf : Fixed p.publicGrp p.testGrp mark c v) (n : Nat) (d : Dyn) :
    encText true k (lkScope k p w read en o) (n + 1) d h (mark ++ ascii "/b") = .abort := by
  have hself := net_self mark (List.mem_append_left _ (kind_in hk))
  obtain ⟨r1, r2⟩ := reverse_local (w := w) hk hl h1 h2 hc hs hff w.iter
  obtain ⟨e, c0, lc, -, -, -, hg, -⟩ := id hv
  have hg := hg.name
  have hlen : cs.length ≤ 6 := by have := hg.few; simp only [List.length_cons] at this; omega
  obtain ⟨cl, hr, hn⟩ := (r2 _ hli hlo).1 hv
  rw [print_steps hk, core_enc_free p hk hno]
  simp only [AR.orElse]
  rw [tag_abe_of hl hg.some (tag_name_of hr hn) (.inl rfl)]
  simp only
  rw [recheck_call hself (by simp only [List.length_cons]; omega) (name_shadowed k p w read en o hf cs (by omega) true n d)]
  have hne : v ≠ h := fun e => hno c (e ▸ hf)
  simp [hne]

/-- **Finding**: the encoders also take base64, but what they print for it evaluates to the bytes: asking for the name of base64 text aborts. -/
theorem print_base64_aborts {mark tag h : Bytes} (hk : Kind mark tag) (hl : h.length = 32)
    (h1 : 1 < o.now) (h2 : o.now < 2 ^ 64) (hc : Spec.Consistent o.db) (hs : AllShow o.db) (hff : NoOnesKey o.db)
    {c : Bytes} {cs : List Bytes} (hw : ¬ Word mark c) (hli : ListedAs o.db o.now tag h (c :: cs)) (hlo : IsLocal (c :: cs))
    (hv : LocalValue o.db o.now (c :: cs) tag h) (hno : ∀ nm, ¬ Fixed p.publicGrp p.testGrp mark nm (base64 h)) (n : Nat) (d : Dyn) :
    encText true k (lkScope k p w read en o) (n + 1) d (base64 h) (mark ++ ascii "/b") = .abort := by
  have hself := net_self mark (List.mem_append_left _ (kind_in hk))
  obtain ⟨r1, r2⟩ := reverse_local (w := w) hk hl h1 h2 hc hs hff w.iter
  obtain ⟨e, c0, lc, -, -, -, hg, -⟩ := id hv
  have hg := hg.name
  obtain ⟨cl, hr, hn⟩ := (r2 _ hli hlo).1 hv
  rw [print_steps hk, core_enc_free p hk hno]
  simp only [AR.orElse]
  rw [tag_abe_of hl hg.some (tag_name_of hr hn) (.inr rfl)]
  simp only
  rw [recheck_call hself (by have := hg.few; omega) ((local_name_partial k p w read en o hk hg hlo h1 h2 hc hs hff true n d (.inl ⟨rfl, hw⟩)).1 h hv)]
  have hne : h ≠ base64 h := by
    intro e
    have h3 := b64_length h
    rw [← e, hl] at h3
    omega
  simp [hne]

/-! ## the claim of a name -/

theorem takeWhile_all {α : Type} {f : α → Bool} {a b : List α} (h : ∀ x ∈ a, f x = true) : (a ++ b).takeWhile f = a ++ b.takeWhile f := by
  induction a with
  | nil => rfl
  | cons x a ih => simp [h x (by simp), ih fun y hy => h y (by simp [hy])]
theorem dropWhile_all {α : Type} {f : α → Bool} {a b : List α} (h : ∀ x ∈ a, f x = true) : (a ++ b).dropWhile f = b.dropWhile f := by
  induction a with
  | nil => rfl
  | cons x a ih => simp [h x (by simp), ih fun y hy => h y (by simp [hy])]

theorem good_nonempty {comps : List Bytes} (hg : GoodName comps) : ∀ x ∈ comps, x ≠ [] := fun x hx he => by have := (hg.each x hx).1; rw [he] at this; cases this

/-- The arguments of a macro that are a name. -/
theorem name_args {comps : List Bytes} (hg : GoodName comps) : argsOf (comps.map lit) = .ctr .colon :: Abl.toAbe (clist comps) ∧
    ∀ e ∈ argsOf (comps.map lit), isFslash e = false := by
  have hne := good_nonempty hg
  have hl : comps.map lit = comps.map fun c => [.bytes c] := by
    refine List.map_congr_left fun c hc => ?_
    unfold lit; rw [if_neg (hne c hc)]
  cases comps with
  | nil => exact absurd rfl hg.some
  | cons c cs =>
    rw [clist_abe c cs hne, hl]
    constructor
    · simp [argsOf, List.flatMap_map]
    · intro e he
      simp only [argsOf, List.flatMap_map, List.mem_flatMap] at he
      obtain ⟨x, -, hx⟩ := he
      simp at hx
      rcases hx with rfl | rfl <;> rfl

theorem name_parts {comps : List Bytes} (hg : GoodName comps) (r : List ABE) :
    macParts (argsOf (comps.map lit) ++ .ctr .fslash :: r) = some (Abl.toAbe (clist comps), r) ∧ macParts (argsOf (comps.map lit)) = some (Abl.toAbe (clist comps), []) := by
  obtain ⟨h1, h2⟩ := name_args hg
  have h2' : ∀ e ∈ argsOf (comps.map lit), (!isFslash e) = true := fun e he => by rw [h2 e he]; rfl
  unfold macParts
  constructor
  · simp only
    rw [takeWhile_all h2', dropWhile_all h2', List.takeWhile_cons_of_neg (by simp [isFslash]), List.dropWhile_cons_of_neg (by simp [isFslash]), List.append_nil, h1]
    rfl
  · have := takeWhile_all (b := []) h2'
    have h4 := dropWhile_all (b := []) h2'
    rw [List.append_nil] at this h4
    simp only
    rw [this, h4, List.takeWhile_nil, List.append_nil, h1]
    rfl

theorem evalD_name (dbg : Bool) (base : Ev → Dyn → Scope) (n : Nat) (d : Dyn) {comps : List Bytes} (hg : GoodName comps) :
    evalD dbg k base (n + 1) d (Abl.toAbe (clist comps)) = .ok (clist comps) := by
  have hne := good_nonempty hg
  show (evalItems (denote k base (evalD dbg k base n) d) (topD dbg k base n d) _).map fromItems = _
  rw [toAbe, evalItems_items]
  show ER.ok (fromItems (items (clist comps))) = _
  rw [fromItems_items]
  · cases comps with
    | nil => exact absurd rfl hg.some
    | cons c cs =>
      have := hne c (by simp)
      cases c with
      | nil => exact absurd rfl this
      | cons _ _ => rfl
  · cases comps with
    | nil => exact absurd rfl hg.some
    | cons c cs => exact callList_delimited c cs

variable {k p w read en o} in
/-- How a macro is called. -/
theorem macro_run {mac : Bytes} (hm : mac = ascii "lns" ∨ mac = ascii "private-lns") {t : Bytes} {abe : List ABE}
    (ht : AbeText t [.lst (.ctr .fslash :: .bytes mac :: abe)]) (hd : ∀ e, abe.head? = some e → ∃ c, e = .ctr c) (dbg : Bool) (n : Nat) (d : Dyn) :
    evalText dbg k (lkScope k p w read en o) (n + 1) d t =
      arEr (if mac = ascii "lns" then lnsMac w o (evalD dbg k (lkScope k p w read en o) n) d abe else privMac w o (evalD dbg k (lkScope k p w read en o) n) d abe) := by
  have hp : parseStrict t = .ok _ := parse_of_text ht false
  unfold evalText
  rw [hp]
  show ER.map _ ((evalItems (denote k (lkScope k p w read en o) (evalD dbg k (lkScope k p w read en o) n) d) (topD dbg k (lkScope k p w read en o) n d) [_]).map fromItems) = _
  rw [evalItems, matchExpr]
  simp only [shape]
  show ER.map _ (ER.map _ ((ER.map _ (macroCall.run _ _ mac abe)).bind _)) = _
  unfold macroCall.run
  rw [lk_mac hm]
  cases (if mac = ascii "lns" then lnsMac w o (evalD dbg k (lkScope k p w read en o) n) d abe else privMac w o (evalD dbg k (lkScope k p w read en o) n) d abe) <;>
    simp [ER.map, ER.bind, evalItems, fromItems, push, pushBytes, concat, asStr, arEr]

theorem toAR_er (r : ER Bytes) : arEr r.toAR = r := by cases r <;> rfl

/-- The claims a macro finds. -/
def macFind (mac : Bytes) : Name → ER Claim := if mac = ascii "lns" then netClaim w o else privClaim! w o

/-- The claim of a name goes behind what is at hand. -/
def behindClaim (d : Dyn) (c : Claim) : Dyn := { d with post := d.post ++ [.pkt (claimCtx o c)] }

theorem lns_words : ∀ m ∈ [ascii "lns", ascii "private-lns"], m ≠ [] ∧ ∀ c ∈ m, Self c := by decide +kernel

variable {k p w read en o} in
/-- `[/lns:a:b/x]` and `[/private-lns:a:b/x]`: the value of `x` with the claim found for the name behind what is at hand. -/
theorem claim_macro {mac : Bytes} (hm : mac = ascii "lns" ∨ mac = ascii "private-lns") {comps : List Bytes} {nm : Name} (hn : Name.ofComps comps = .ok nm)
    {x : Bytes} (hx : ∃ es, AbeText x es) (hne : x ≠ []) (dbg : Bool) (n : Nat) (d : Dyn) :
    evalText dbg k (lkScope k p w read en o) (n + 2) d (macroText mac comps x) =
      (macFind w o mac nm).bind fun c => evalText dbg k (lkScope k p w read en o) (n + 1) (behindClaim o d c) x := by
  obtain ⟨es, hx⟩ := hx
  have hg := ((name_of_iff _ _).1 hn).1
  have hself := lns_words mac (by rcases hm with rfl | rfl <;> simp)
  obtain ⟨tt, tn⟩ := tailText_text comps
  have ht : AbeText (macroText mac comps x) [.lst (.ctr .fslash :: .bytes mac :: (argsOf (comps.map lit) ++ .ctr .fslash :: es))] := by
    have := AbeText.lst (.fslash (word_text hself (abeText_append tt (.fslash hx) trivial) (by rw [(name_args hg).1]; trivial))) .nil
    simpa [macroText, ascii] using this
  have hee : es.isEmpty = false := by
    cases es with
    | cons _ _ => rfl
    | nil => cases hx; exact absurd rfl hne
  rw [macro_run hm ht (by rw [(name_args hg).1]; rintro e ⟨⟩; exact ⟨_, rfl⟩)]
  have hw : ∀ find : Name → ER Claim, arEr (withClaim (evalD dbg k (lkScope k p w read en o) (n + 1)) d o find (Abl.toAbe (clist comps)) es) =
      (find nm).bind fun c => evalText dbg k (lkScope k p w read en o) (n + 1) (behindClaim o d c) x := by
    intro find
    obtain ⟨-, -, -, hof⟩ := name_text_roundtrip hn
    unfold withClaim
    rw [evalD_name k dbg _ n d hg]
    simp only [ER.bind, hof, ofName, toAR_er]
    cases find nm with
    | ok c => exact (evalText_parse (parse_of_text hx false)).symm
    | err => rfl
    | abort => rfl
  unfold macFind lnsMac privMac
  rw [(name_parts hg es).1]
  simp only [hee]
  rcases hm with rfl | rfl
  · rw [if_pos rfl, if_pos rfl]; exact hw _
  · rw [if_neg (by decide), if_neg (by decide)]; exact hw _

variable {k p w read en o} in
/-- Without an expression the first is empty and the second prints the page of the claim. -/
theorem claim_macro_bare {mac : Bytes} (hm : mac = ascii "lns" ∨ mac = ascii "private-lns") {comps : List Bytes} {nm : Name} (hn : Name.ofComps comps = .ok nm)
    (dbg : Bool) (n : Nat) (d : Dyn) :
    evalText dbg k (lkScope k p w read en o) (n + 2) d (ascii "[/" ++ mac ++ tailText comps ++ ascii "]") =
      (macFind w o mac nm).bind fun c =>
        if mac = ascii "lns" then .ok [] else evalText dbg k (lkScope k p w read en o) (n + 1) (behindClaim o d c) defaultPkt := by
  have hg := ((name_of_iff _ _).1 hn).1
  have hself := lns_words mac (by rcases hm with rfl | rfl <;> simp)
  obtain ⟨tt, tn⟩ := tailText_text comps
  have ht : AbeText (ascii "[/" ++ mac ++ tailText comps ++ ascii "]") [.lst (.ctr .fslash :: .bytes mac :: argsOf (comps.map lit))] := by
    have := AbeText.lst (.fslash (word_text hself tt tn)) .nil
    simpa [ascii] using this
  rw [macro_run hm ht (by rw [(name_args hg).1]; rintro e ⟨⟩; exact ⟨_, rfl⟩)]
  obtain ⟨-, -, -, hof⟩ := name_text_roundtrip hn
  have hw : ∀ (find : Name → ER Claim) (es : List ABE), arEr (withClaim (evalD dbg k (lkScope k p w read en o) (n + 1)) d o find (Abl.toAbe (clist comps)) es) =
      (find nm).bind fun c => (evalD dbg k (lkScope k p w read en o) (n + 1) (behindClaim o d c) es).map concat := by
    intro find es
    unfold withClaim
    rw [evalD_name k dbg _ n d hg]
    simp only [ER.bind, hof, ofName, toAR_er]
    cases find nm <;> rfl
  unfold macFind lnsMac privMac
  rw [(name_parts hg []).2]
  simp only [List.isEmpty_nil, if_true]
  rcases hm with rfl | rfl
  · rw [if_pos rfl, if_pos rfl, hw]
    rfl
  · rw [if_neg (by decide), if_neg (by decide), parse_def]
    simp only
    rw [hw]
    refine congrArg _ (funext fun c => ?_)
    rw [if_neg (by decide), evalText_parse parse_def]

variable {w o} in
/-- A local name whose place has a claim: both macros find it, and know when it arrived. -/
theorem local_mac_find (mac : Bytes) {comps : List Bytes} {nm : Name} (hn : Name.ofComps comps = .ok nm) (hloc : IsLocal comps)
    (h1 : 1 < o.now) (h2 : o.now < 2 ^ 64) (hc : Spec.Consistent o.db) (hs : AllShow o.db) (hff : NoOnesKey o.db)
    {i : Nat} {pkt : NetParts} {c : Content} {lc : LinkContent}
    (hl : LeadAt o.db (List.replicate 32 0) (List.replicate 13 0 ++ ascii "lns") (ascii "claims" :: comps.reverse) none o.now (some (i, pkt)))
    (hp : pkt.parts = c.parts) (hv : c.Valid) (hk : IsClaim c comps lc) :
    macFind w o mac nm = .ok ⟨pkt, nm⟩ ∧ claimCtx o ⟨pkt, nm⟩ = ⟨pkt, some i, o.now⟩ := by
  have hf : lookupClaim w.C w.nh o.db w.iter o.now nm = .ok (some ⟨pkt, nm⟩) :=
    (local_found_iff_partial w.C w.nh w.iter hn hloc h1 h2 hc hs hff _).2 ⟨(i, pkt), c, lc, hl, hp, hv, hk, rfl⟩
  constructor
  · unfold macFind
    split
    · exact (net_claim_ok nm _).2 (.inl hf)
    · exact (priv_claim_ok nm _).2 hf
  · unfold claimCtx
    rw [stored_read hc hl.1]
    rfl

variable {w o} in
/-- Without one it is an error. -/
theorem local_mac_none (mac : Bytes) {comps : List Bytes} {nm : Name} (hn : Name.ofComps comps = .ok nm) (hloc : IsLocal comps)
    (h1 : 1 < o.now) (h2 : o.now < 2 ^ 64) (hc : Spec.Consistent o.db) (hs : AllShow o.db) (hff : NoOnesKey o.db)
    (hno : ∀ e c lc, LeadAt o.db (List.replicate 32 0) (List.replicate 13 0 ++ ascii "lns") (ascii "claims" :: comps.reverse) none o.now (some e) →
      e.2.parts = c.parts → c.Valid → ¬ IsClaim c comps lc) :
    macFind w o mac nm = .err := by
  have ns := fun iter => local_never_stops (w := w) hn hloc iter h1 h2 hc hs hff
  have nf : ∀ iter cl, lookupClaim w.C w.nh o.db iter o.now nm ≠ .ok (some cl) := by
    intro iter cl h
    obtain ⟨e, c, lc, b0, b1, b2, b3, -⟩ := (local_found_iff_partial w.C w.nh iter hn hloc h1 h2 hc hs hff cl).1 h
    exact hno e c lc b0 b1 b2 b3
  have hr : ∀ iter, lookupClaim w.C w.nh o.db iter o.now nm = .ok none ∨ lookupClaim w.C w.nh o.db iter o.now nm = .error .err := by
    intro iter
    cases h : lookupClaim w.C w.nh o.db iter o.now nm with
    | ok r =>
      cases r with
      | none => exact .inl rfl
      | some cl => exact absurd h (nf iter cl)
    | error e =>
      cases e with
      | err => exact .inr rfl
      | stop q => exact absurd h (ns iter q)
  unfold macFind
  split
  · unfold netClaim privClaim
    rcases hr w.iter with h | h <;> rw [h]
    · rcases hr w.again with h | h <;> simp only [ofLookup, ER.bind, h]
    · rfl
  · unfold privClaim! privClaim
    rcases hr w.iter with h | h <;> rw [h] <;> rfl

/-- **C76**: `[/lns:a:local/template]` prints the template for the claim that leads at the place of the name, when no other packet is at hand.
Missing: names that are not local, see `claim_macro`, and points with the key of all ones. -/
theorem macro_claim_partial {mac : Bytes} (hm : mac = ascii "lns" ∨ mac = ascii "private-lns") {comps : List Bytes} (hg : GoodName comps) (hloc : IsLocal comps)
    (h1 : 1 < o.now) (h2 : o.now < 2 ^ 64) (hc : Spec.Consistent o.db) (hs : AllShow o.db) (hff : NoOnesKey o.db) {i : Nat} (s : Shown) {lc : LinkContent}
    (hl : LeadAt o.db (List.replicate 32 0) (List.replicate 13 0 ++ ascii "lns") (ascii "claims" :: comps.reverse) none o.now (some (i, s.pkt)))
    (hk : IsClaim s.c comps lc) (t : Template) (ht : t.Ok) (hne : t.text ≠ []) (dbg : Bool) (n : Nat) :
    ∃ out, evalText dbg k (lkScope k p w read en o) (n + 3) ⟨[], []⟩ (macroText mac comps t.text) = .ok out ∧ s.Prints t out := by
  have hn : Name.ofComps comps = .ok ⟨encodeSpace comps.reverse, true⟩ := (name_of_iff _ _).2 ⟨hg, rfl, by simp [hloc]⟩
  obtain ⟨f1, f2⟩ := local_mac_find (w := w) mac hn hloc h1 h2 hc hs hff hl rfl s.valid hk
  rw [claim_macro (x := t.text) hm hn ⟨_, tpl_text t.parts t.fin ht⟩ hne dbg (n + 1), f1]
  simp only [ER.bind, behindClaim, f2]
  exact template_render_behind s dbg k _ (base_quiet k (names_apart w read o)) n (some i) o.now t ht

/-- **C76**: and without a claim at the place it is an error, whatever the expression. -/
theorem macro_no_claim_partial {mac : Bytes} (hm : mac = ascii "lns" ∨ mac = ascii "private-lns") {comps : List Bytes} (hg : GoodName comps) (hloc : IsLocal comps)
    (h1 : 1 < o.now) (h2 : o.now < 2 ^ 64) (hc : Spec.Consistent o.db) (hs : AllShow o.db) (hff : NoOnesKey o.db)
    (hno : ∀ e c lc, LeadAt o.db (List.replicate 32 0) (List.replicate 13 0 ++ ascii "lns") (ascii "claims" :: comps.reverse) none o.now (some e) →
      e.2.parts = c.parts → c.Valid → ¬ IsClaim c comps lc) {x : Bytes} (hx : ∃ es, AbeText x es) (hne : x ≠ []) (dbg : Bool) (n : Nat) (d : Dyn) :
    evalText dbg k (lkScope k p w read en o) (n + 2) d (macroText mac comps x) = .err := by
  have hn : Name.ofComps comps = .ok ⟨encodeSpace comps.reverse, true⟩ := (name_of_iff _ _).2 ⟨hg, rfl, by simp [hloc]⟩
  rw [claim_macro hm hn hx hne, local_mac_none (w := w) mac hn hloc h1 h2 hc hs hff hno]
  rfl

/-- **Finding**: with a packet at hand the template is about that packet and not about the claim of the name. -/
theorem macro_claim_shadowed {mac : Bytes} (hm : mac = ascii "lns" ∨ mac = ascii "private-lns") {comps : List Bytes} (hg : GoodName comps) (hloc : IsLocal comps)
    (h1 : 1 < o.now) (h2 : o.now < 2 ^ 64) (hc : Spec.Consistent o.db) (hs : AllShow o.db) (hff : NoOnesKey o.db) {i : Nat} (s s' : Shown) {lc : LinkContent}
    (hl : LeadAt o.db (List.replicate 32 0) (List.replicate 13 0 ++ ascii "lns") (ascii "claims" :: comps.reverse) none o.now (some (i, s.pkt)))
    (hk : IsClaim s.c comps lc) (t : Template) (ht : t.Ok) (hne : t.text ≠ []) (dbg : Bool) (n : Nat) (recv : Option Nat) (now : Nat) :
    ∃ out, lkEvalPkt dbg k (lkScope k p w read en o) (n + 3) ⟨s'.pkt, recv, now⟩ (macroText mac comps t.text) = .ok out ∧ s'.Prints t out := by
  have hn : Name.ofComps comps = .ok ⟨encodeSpace comps.reverse, true⟩ := (name_of_iff _ _).2 ⟨hg, rfl, by simp [hloc]⟩
  obtain ⟨f1, f2⟩ := local_mac_find (w := w) mac hn hloc h1 h2 hc hs hff hl rfl s.valid hk
  have := claim_macro (k := k) (p := p) (w := w) (o := o) (read := read) (en := en) (x := t.text) hm hn ⟨_, tpl_text t.parts t.fin ht⟩ hne dbg (n + 1) ⟨[.pkt ⟨s'.pkt, recv, now⟩], []⟩
  rw [f1] at this
  simp only [ER.bind, behindClaim, f2] at this
  obtain ⟨abe, l, out, e1, e2, e3, e4⟩ := tpl_renders s' dbg k (lkScope k p w read en o) ⟨s'.pkt, recv, now⟩ rfl n
    ⟨[.pkt ⟨s'.pkt, recv, now⟩], [.pkt ⟨s.pkt, some i, o.now⟩]⟩ (seen_front k _ _ [] _) (fun l j => seen_front_row k _ _ [] _ l j) t ht
  refine ⟨out, this.trans ?_, e4⟩
  show evalText dbg k _ (n + 2) ⟨[.pkt ⟨s'.pkt, recv, now⟩], [.pkt ⟨s.pkt, some i, o.now⟩]⟩ t.text = _
  rw [evalText_parse e1, e2]
  simp [ER.map, e3]

/-! ## after setting up a key -/

variable {w o} in
/-- A name found for a group or key is how it is printed. -/
theorem print_found {mark tag h : Bytes} (hk : Kind mark tag) (hl : h.length = 32) {cl : Claim} {comps : List Bytes}
    (hr : reverseLookup w.C w.nh o.db w.iter o.now tag h = .ok (some cl)) (hn : Name.ofComps comps = .ok cl.name)
    (hno : ∀ nm, ¬ Fixed p.publicGrp p.testGrp mark nm h) (dbg : Bool) (n : Nat) (d : Dyn)
    (hev : evalText dbg k (lkScope k p w read en o) (n + 1) d (callText mark comps) = .ok h) :
    encText dbg k (lkScope k p w read en o) (n + 1) d h (mark ++ ascii "/b") = .ok (callText mark comps) := by
  have hself := net_self mark (List.mem_append_left _ (kind_in hk))
  have hg := ((name_of_iff _ _).1 hn).1
  rw [print_steps hk, core_enc_free p hk hno]
  simp only [AR.orElse]
  rw [tag_abe_of hl hg.some (tag_name_of hr hn) (.inl rfl)]
  simp only
  rw [recheck_call hself (by have := hg.few; omega) hev]
  simp

/-- **C76**: after a key was set up for a new local name, `[@:name]` is the key.  Missing: names that had a claim, see `overwrite_lost`. -/
theorem setup_eval_partial {C : Crypto} {nh : Bytes} (hC : C.Laws) (hnh : nh.length = 32) {c : Bytes} {cs : List Bytes} {nm : Name} (hn : Name.ofComps (c :: cs) = .ok nm)
    {pk : Bytes} (hpk : pk.length = 32) {now : Nat} {db db' : Db} (h1 : 1 < now) (h2 : now < 2 ^ 64) (hc : Spec.Consistent db) (hs : AllShow db) (hff : NoOnesKey db)
    {enckey : Bytes} {iter : List Tally → List Tally} {io : Nat → Call} {ow : Bool} {r : Bytes}
    (hcol : ∀ e ∈ db.log, e.2.hash ≠ C.hash (keyClaim (c :: cs) pk enckey).layout)
    (h : setupKeyclaim C nh db iter io now nm enckey (some pk) ow = (db', .ok r)) (h1' : 1 < o.now) (h2' : o.now < 2 ^ 64)
    (hfresh : ∀ f ∈ db.log, ¬ MadeAt (List.replicate 32 0) (List.replicate 13 0 ++ ascii "lns") (ascii "claims" :: (c :: cs).reverse) none o.now f.2)
    (ho : o.db = db') (hwc : w.C = C) (hwn : w.nh = nh) (hw : c ≠ ascii "none") (dbg : Bool) (n : Nat) (d : Dyn) :
    evalText dbg k (lkScope k p w read en o) (n + 1) d (callText (ascii "@") (c :: cs)) = .ok pk := by
  have hp := (setup_fresh_partial hC hnh hn hpk h1 h2 hc hs hff hcol h h1' h2' w.iter hfresh).2
  have hg := ((name_of_iff _ _).1 hn).1
  rw [name_value_iff k p w read en o .key (by rintro (⟨e, -⟩ | ⟨-, e⟩); exact absurd e (by decide); exact hw e) (by have := hg.few; simp only [List.length_cons] at this; omega)]
  unfold lookupPubkey at hp
  rw [← ho, ← hwc, ← hwn] at hp
  cases hl : lookupClaim w.C w.nh o.db w.iter o.now nm with
  | error e => rw [hl] at hp; cases hp
  | ok x =>
    rw [hl] at hp
    cases x with
    | none => cases hp
    | some cl =>
      refine ⟨nm, cl, hn, .inl hl, ?_⟩
      simp only [Except.ok.injEq, Option.bind_some] at hp
      obtain ⟨a, l, b, e1, e4, e2, e3⟩ := (firstTail_iff _ (t := ascii "pubkey@") (by decide) pk).1 hp
      exact ⟨a, l, b, e1, e2, e3, e4⟩

/-- **C76**: and the key is printed as that, if the index of the key has no newer entry and no hashes collide. -/
theorem setup_print_partial {C : Crypto} {nh : Bytes} (hC : C.Laws) (hnh : nh.length = 32) {c : Bytes} {cs : List Bytes} {nm : Name} (hn : Name.ofComps (c :: cs) = .ok nm)
    {pk : Bytes} (hpk : pk.length = 32) {now : Nat} {db db' : Db} (h1 : 1 < now) (hc : Spec.Consistent db) (hs : AllShow db) (hff : NoOnesKey db)
    {enckey : Bytes} {iter : List Tally → List Tally} {io : Nat → Call} {ow : Bool} {r : Bytes}
    (hcol : ∀ e ∈ db.log, e.2.hash ≠ C.hash (keyClaim (c :: cs) pk enckey).layout)
    (h : setupKeyclaim C nh db iter io now nm enckey (some pk) ow = (db', .ok r)) (h1' : now < o.now) (h2' : o.now < 2 ^ 64 - 1)
    (hfresh : ∀ f ∈ db.log, ¬ MadeAt (List.replicate 32 0) (List.replicate 13 0 ++ ascii "lns") (ascii "claims" :: (c :: cs).reverse) none o.now f.2)
    (hindex : ∀ f ∈ db.log, At (List.replicate 32 0) (List.replicate 13 0 ++ ascii "lns") [ascii "by-tag", ascii "pubkey@", pk] (List.replicate 32 0) f.2 →
      f.2.getCreate < now ∨ o.now ≤ f.2.getCreate)
    (ho : o.db = db') (hwc : w.C = C) (hwn : w.nh = nh) (hw : c ≠ ascii "none") (hz : pk ≠ List.replicate 32 0) (dbg : Bool) (n : Nat) (d : Dyn) :
    ∃ kept : List Link, ∃ entry, entry = Content.link ⟨List.replicate 32 0, List.replicate 13 0 ++ ascii "lns", now,
        ⟨List.replicate 8 255 ++ List.replicate 8 0, C.hash (keyClaim (c :: cs) pk enckey).layout⟩ :: kept,
        rootedOf [ascii "by-tag", ascii "pubkey@", pk], []⟩ ∧
      ((∀ e ∈ db.log, e.2.hash ≠ C.hash entry.layout) → C.hash entry.layout ≠ C.hash (keyClaim (c :: cs) pk enckey).layout →
        encText dbg k (lkScope k p w read en o) (n + 1) d pk (ascii "@/b") = .ok (callText (ascii "@") (c :: cs))) := by
  obtain ⟨kept, entry, he, hr⟩ := setup_reverse_partial hC hnh hn hpk h1 hc hs hff hcol h h1' h2' w.iter hfresh hindex
  refine ⟨kept, entry, he, fun x1 x2 => ?_⟩
  obtain ⟨cl, hr, hnm, -⟩ := hr x1 x2
  rw [← ho, ← hwc, ← hwn] at hr
  have hev := setup_eval_partial k p w read en o hC hnh hn hpk h1 (by omega) hc hs hff hcol h (by omega) (by omega) hfresh ho hwc hwn hw dbg n d
  exact print_found k p read en .key hpk hr (by rw [hnm]; exact hn) (fun nm hf => by
      generalize hm : ascii "@" = mk at hf
      cases hf with
      | none => exact hz rfl
      | _ => exact absurd hm (by decide)) dbg n d hev

/-! ## cases -/

end

theorem name_inj {a b : List Bytes} {n m : Name} (h1 : Name.ofComps a = .ok n) (h2 : Name.ofComps b = .ok m) (h : n.space = m.space) : a = b := by
  obtain ⟨g1, e1, -⟩ := (name_of_iff _ _).1 h1
  obtain ⟨g2, e2, -⟩ := (name_of_iff _ _).1 h2
  have lim : ∀ {x : List Bytes}, GoodName x → ∀ c ∈ x.reverse, 1 ≤ c.length ∧ c.length ≤ 200 := fun g c hc => g.each c (by simpa using hc)
  have := Space.encode_inj (lim g1) (lim g2) (by rw [← e1, ← e2, h])
  simpa using congrArg List.reverse this

/-- `none:local` gets a key. -/
def exNone : List Bytes := [ascii "none", ascii "local"]
def nameNone : Name := ⟨encodeSpace exNone.reverse, true⟩
theorem nameNone_of : Name.ofComps exNone = .ok nameNone := by decide +kernel
def setupNone := setupKeyclaim mixCrypto header0 {} id (fun _ => .ok) 100 nameNone [8] (some key5) false
theorem setupNone_ok : setupNone.2 = .ok key5 := by decide +kernel
theorem setupNone_good : Spec.Consistent setupNone.1 ∧ AllShow setupNone.1 ∧ NoOnesKey setupNone.1 := by
  have h : setupKeyclaim mixCrypto header0 {} id (fun _ => .ok) 100 nameNone [8] (some key5) false = (setupNone.1, .ok key5) := Prod.ext rfl setupNone_ok
  obtain ⟨h1, h2, h3⟩ := empty_good
  obtain ⟨a, b, c, -⟩ := setup_db mixCrypto_laws (by decide) nameNone_of (by decide) (by decide) (by decide) h1 h2 h3 h
  exact ⟨a, b, c⟩

def mixNames : NameEnv := ⟨mixCrypto, header0, id, id⟩
def meOutside : Outside := ⟨setupMe.1, 250, none, fun _ => none⟩
def noneOutside : Outside := ⟨setupNone.1, 250, none, fun _ => none⟩

theorem value_of_pubkey {o : Outside} {comps : List Bytes} {nm : Name} (hn : Name.ofComps comps = .ok nm) (hloc : IsLocal comps) (h1 : 1 < o.now) (h2 : o.now < 2 ^ 64)
    (hg : Spec.Consistent o.db ∧ AllShow o.db ∧ NoOnesKey o.db) {v : Bytes} (h : lookupPubkey mixCrypto header0 o.db id o.now nm = .ok (some v)) :
    LocalValue o.db o.now comps (ascii "pubkey@") v := by
  obtain ⟨g1, g2, g3⟩ := hg
  refine (local_lookup_value (w := mixNames) hn hloc id h1 h2 g1 g2 g3 _ v).1 ?_
  unfold lookupPubkey at h
  show ∃ cl, lookupClaim mixCrypto header0 o.db id o.now nm = _ ∧ _
  cases hl : lookupClaim mixCrypto header0 o.db id o.now nm with
  | error e => rw [hl] at h; cases h
  | ok x =>
    rw [hl] at h
    cases x with
    | none => cases h
    | some cl =>
      simp only [Except.ok.injEq, Option.bind_some] at h
      obtain ⟨a, l, b, e1, e4, e2, e3⟩ := (firstTail_iff _ (t := ascii "pubkey@") (by decide) v).1 h
      exact ⟨cl, rfl, a, l, b, e1, e2, e3, e4⟩

theorem listed_of_found {o : Outside} {comps : List Bytes} {nm : Name} (hn : Name.ofComps comps = .ok nm) (h1 : 1 < o.now) (h2 : o.now < 2 ^ 64)
    (hg : Spec.Consistent o.db ∧ AllShow o.db ∧ NoOnesKey o.db) {v : Bytes} (hl : v.length = 32) (h : foundName (tagLookup o.db o.now (ascii "pubkey@") v none) = some (some nm.space)) :
    ListedAs o.db o.now (ascii "pubkey@") v comps ∧ ∀ c, ListedAs o.db o.now (ascii "pubkey@") v c → c = comps := by
  obtain ⟨g1, g2, g3⟩ := hg
  rcases listed_lookup (tag := ascii "pubkey@") (by decide) hl h1 h2 g1 g2 g3 with ⟨e1, -⟩ | ⟨cl, comps', e1, e2, e3, e4⟩
  · rw [e1] at h; cases h
  · rw [e1] at h
    simp only [foundName, Option.map_some, Option.some.injEq] at h
    have := name_inj e2 hn h
    subst this
    exact ⟨e3, e4⟩

theorem me_value : LocalValue meOutside.db 250 exMe (ascii "pubkey@") key5 :=
  value_of_pubkey (o := meOutside) nameMe_of rfl (by decide) (by decide) setupMe_good (by decide +kernel)
theorem me_listed : ListedAs meOutside.db 250 (ascii "pubkey@") key5 exMe ∧ ∀ c, ListedAs meOutside.db 250 (ascii "pubkey@") key5 c → c = exMe :=
  listed_of_found (o := meOutside) nameMe_of (by decide) (by decide) setupMe_good (by decide) (by decide +kernel)
theorem none_value : LocalValue noneOutside.db 250 exNone (ascii "pubkey@") key5 :=
  value_of_pubkey (o := noneOutside) nameNone_of rfl (by decide) (by decide) setupNone_good (by decide +kernel)
theorem none_listed : ListedAs noneOutside.db 250 (ascii "pubkey@") key5 exNone ∧ ∀ c, ListedAs noneOutside.db 250 (ascii "pubkey@") key5 c → c = exNone :=
  listed_of_found (o := noneOutside) nameNone_of (by decide) (by decide) setupNone_good (by decide) (by decide +kernel)

theorem key5_free (pub test : Bytes) (nm : Bytes) : ¬ Fixed pub test (ascii "@") nm key5 := by
  intro h
  generalize hk : key5 = v at h
  cases h
  exact absurd hk (by decide)

section
variable (k : PktParams) (p : Params) (read : Bytes → Except (Fault Files.FsErr) Bytes) (en : Bool)

/-- `[@:me:local]` is the key of `me`, `[?@:key]` the name, and the key prints as `[@:me:local]`. -/
example (dbg : Bool) (n : Nat) (d : Dyn) :
    evalText dbg k (lkScope k p mixNames read en meOutside) (n + 1) d (ascii "[@:me:local]") = .ok key5 ∧
    evalText dbg k (lkScope k p mixNames read en meOutside) (n + 1) d (callText (ascii "?@") [key5]) = .ok (ascii "me:local") ∧
    encText dbg k (lkScope k p mixNames read en meOutside) (n + 1) d key5 (ascii "@/b") = .ok (ascii "[@:me:local]") := by
  obtain ⟨g1, g2, g3⟩ := setupMe_good
  have hloc : IsLocal exMe := rfl
  have hw : ¬ Word (ascii "@") (ascii "me") := by unfold Word; decide +kernel
  have hgood := ((name_of_iff _ _).1 nameMe_of).1
  have ht : ascii "[@:me:local]" = callText (ascii "@") exMe := by decide +kernel
  rw [ht]
  refine ⟨(local_name_partial k p mixNames read en meOutside .key hgood hloc (by decide) (by decide) g1 g2 g3 dbg n d (.inl ⟨rfl, hw⟩)).1 _ me_value, ?_, ?_⟩
  · have := ((which_name_partial k p mixNames read en meOutside .key (h := key5) (by decide) (.inl rfl) (.inl rfl) (by decide) (by decide) g1 g2 g3 dbg n d).2
      exMe me_listed.1 hloc).1 me_value
    rwa [show nameText exMe = ascii "me:local" by decide +kernel] at this
  · obtain ⟨id, args, h1, -, -, h4⟩ := print_name_partial k p mixNames read en meOutside .key (h := key5) (by decide) (by decide) (by decide) g1 g2 g3
      (fun c hc => by rw [me_listed.2 c hc]; exact ⟨hloc, hw⟩) dbg n d
    obtain ⟨rfl, rfl⟩ := (h4 (key5_free _ _)).1 exMe me_listed.1 me_value
    exact h1

/-- A key with the name `none:local` can not be printed. -/
theorem none_aborts (n : Nat) (d : Dyn) : encText true k (lkScope k p mixNames read en noneOutside) (n + 1) d key5 (ascii "@/b") = .abort := by
  obtain ⟨g1, g2, g3⟩ := setupNone_good
  exact print_word_aborts k p mixNames read en noneOutside .key (h := key5) (by decide) (by decide) (by decide) g1 g2 g3 (key5_free _ _) none_listed.1 rfl
    none_value .none n d

/-- The second key that was set up meets the hypotheses of `setup_eval_partial`. -/
example (dbg : Bool) (n : Nat) (d : Dyn) :
    evalText dbg k (lkScope k p mixNames read en ⟨setupYou.1, 250, none, fun _ => none⟩) (n + 1) d (ascii "[@:you:local]") = .ok key7 := by
  obtain ⟨g1, g2, g3⟩ := setupMe_good
  have h : setupKeyclaim mixCrypto header0 setupMe.1 id (fun _ => .ok) 200 nameYou [9] (some key7) false = (setupYou.1, .ok key7) := Prod.ext rfl setupYou_ok
  rw [show ascii "[@:you:local]" = callText (ascii "@") exYou by decide +kernel]
  exact setup_eval_partial k p mixNames read en ⟨setupYou.1, 250, none, fun _ => none⟩ mixCrypto_laws (by decide) nameYou_of (by decide) (by decide) (by decide) g1 g2 g3
    setupYou_fresh.1 h (by decide) (by decide) setupYou_fresh.2.1 rfl rfl rfl (by decide) dbg n d

/-- The claim of `me`. -/
def meShown : Shown where
  nh := header0
  hash := mixCrypto.hash (keyClaim exMe key5 [8]).layout
  c := keyClaim exMe key5 [8]
  cs := ascii "claims" :: exMe.reverse
  nhLen := by decide
  hashLen := mixCrypto_laws.hash_len _
  valid := by
    have h : setupKeyclaim mixCrypto header0 {} id (fun _ => .ok) 100 nameMe [8] (some key5) false = (setupMe.1, .ok key5) := Prod.ext rfl setupMe_ok
    obtain ⟨hl, -, hs⟩ := setup_steps nameMe_of h
    exact (save_steps nameMe_of hl (by decide) hs).2.2.1
  space := ⟨rfl, claims_valid ((name_of_iff _ _).1 nameMe_of).1⟩

theorem me_leads : ∃ i lc, LeadAt meOutside.db (List.replicate 32 0) (List.replicate 13 0 ++ ascii "lns") (ascii "claims" :: exMe.reverse) none 250 (some (i, meShown.pkt)) ∧
    IsClaim meShown.c exMe lc := by
  have h : setupKeyclaim mixCrypto header0 {} id (fun _ => .ok) 100 nameMe [8] (some key5) false = (setupMe.1, .ok key5) := Prod.ext rfl setupMe_ok
  obtain ⟨h1, h2, h3⟩ := empty_good
  obtain ⟨-, -, -, -, -, hall⟩ := setup_db mixCrypto_laws (by decide) nameMe_of (by decide) (by decide) (by decide) h1 h2 h3 h
  obtain ⟨⟨i, q⟩, c, lc, b0, b1, b2, b3, -⟩ := me_value
  obtain ⟨t, ht, -, -, t3, -⟩ := b0.2.1
  rcases hall (i, q) b0.1 with he | he | ⟨tag, ptr, links, -, hi⟩
  · cases he
  · have he : q = meShown.pkt := he
    subst he
    refine ⟨i, _, b0, rfl, b3.name, rfl, ⟨fun _ => rfl, fun hx => absurd rfl hx⟩, by decide +kernel, by simp⟩
  · have := tuple_unique ht (indexed_tuple mixCrypto_laws (by decide) hi)
    rw [this] at t3
    exact absurd (List.cons.inj t3).1 (by decide)

/-- `[/lns:me:local/[pubkey:str]]` and other templates print the claim of `me`. -/
example (t : Template) (ht : t.Ok) (hne : t.text ≠ []) (dbg : Bool) (n : Nat) :
    ∃ out, evalText dbg k (lkScope k p mixNames read en meOutside) (n + 3) ⟨[], []⟩ (macroText (ascii "lns") exMe t.text) = .ok out ∧ meShown.Prints t out := by
  obtain ⟨g1, g2, g3⟩ := setupMe_good
  obtain ⟨i, lc, hl, hc⟩ := me_leads
  exact macro_claim_partial k p mixNames read en meOutside (.inl rfl) ((name_of_iff _ _).1 nameMe_of).1 rfl (by decide) (by decide) g1 g2 g3 meShown hl hc t ht hne dbg n

end
end Verif.Props
