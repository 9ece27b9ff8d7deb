import Verif.Spec.LnsCmd
import Verif.Props.Local
import Verif.Lemmas.Collect
/-!
Lemmas about the program for names.
-/
namespace Verif.LnsCmd
open Verif Verif.Pkt Verif.Spec Verif.Cmd Verif.Pred Verif.Multi Verif.Props Verif.Shake Verif.Lns Verif.Env

theorem lets_out {o : IoOpts} (h : ¬ Forbids o) : LetsOut (setWrite o) := by
  unfold Forbids at h
  unfold LetsOut setWrite
  cases hp : o.priv with
  | true => exact .inl rfl
  | false =>
    right
    cases hw : o.privateWrite with
    | none => rfl
    | some b =>
      cases b with
      | true => rfl
      | false => exact absurd ⟨hp, hw⟩ h

theorem forbids_iff {o : IoOpts} : Forbids (setWrite o) ↔ Forbids o := by
  unfold Forbids setWrite
  cases o.privateWrite with
  | none => simp
  | some b => simp

theorem goes {o : IoOpts} {s : Sent} (h : s.Secret → ¬ Forbids o) : goesOut (setWrite o) s = true := by
  unfold goesOut
  exact decide_eq_true fun hs => lets_out (h hs)

theorem put_ok (dbg : Bool) (y : Sys) {o : IoOpts} {ds : List Dest} {s : Sent} {l : List Put} (hl : Puts ds s l) (h : s.Secret → ¬ Forbids o)
    (w : World) (hb : ∀ x, Put.hold x ∉ l) {n : Nat} (hc : Clock y w (dbCount ds + n)) :
    ∃ w', put dbg y (setWrite o) ds s.parts w = (w', .ok ()) ∧ Did w w' (l.map (s, ·)) ∧ Clock y w' n := by
  obtain ⟨w', h1, h2, -, h4, h5⟩ := writeMulti_puts_any y (o := setWrite o) hl (fun hs hf => h hs (forbids_iff.1 hf)) w (fun x hx => absurd hx (hb x)) hc
  rw [goes h, if_pos rfl] at h2 h4
  refine ⟨w', ?_, ⟨h2, h4⟩, h5⟩
  unfold put
  rw [ofParts_sent]
  simp only [tryL, Done.get, h1]

/-! ### create-claim -/

theorem authLinks_eq (auth : List Link) : authLinks auth = if LongName auth then .error .err else
    .ok (auth.map fun l => ⟨List.replicate 8 0 ++ (List.replicate (7 - (authName l).length) 0 ++ authName l ++ ascii "^"), l.ptr⟩) := by
  induction auth with
  | nil => rfl
  | cons l ls ih =>
    unfold authLinks
    have hcut : Fit.cutPrefixNulls l.tag = authName l := rfl
    rw [hcut, lnsTag]
    by_cases h : (authName l).length < 8
    · rw [if_pos h]
      simp only
      rw [ih]
      have : LongName (l :: ls) ↔ LongName ls := by
        unfold LongName
        constructor
        · rintro ⟨x, hx, h8⟩
          rcases List.mem_cons.1 hx with rfl | hx
          · omega
          · exact ⟨x, hx, h8⟩
        · rintro ⟨x, hx, h8⟩
          exact ⟨x, List.mem_cons_of_mem _ hx, h8⟩
      by_cases hL : LongName ls
      · rw [if_pos hL, if_pos (this.2 hL)]
      · rw [if_neg hL, if_neg (fun x => hL (this.1 x))]
        simp only [List.map_cons]
        congr 3
    · rw [if_neg h, if_pos ⟨l, List.mem_cons_self, by omega⟩]

/-- The links before the end is put into the first. -/
def plain (l : List (Bytes × Bytes)) : List Link := l.map fun x => ⟨List.replicate 8 0 ++ x.1, x.2⟩

theorem links_eq (c : Create) (key : Option Bytes) : c.links key =
    if LongName c.auth ∨ (wanted c.group key c.noAuth c.auth = [] ∧ c.allowEmpty = false) then .error .err
    else .ok (plain (claimed (wanted c.group key c.noAuth c.auth))) := by
  unfold Create.links
  rw [authLinks_eq]
  by_cases hL : LongName c.auth
  · rw [if_pos hL, if_pos (Or.inl hL : LongName c.auth ∨ (wanted c.group key c.noAuth c.auth = [] ∧ c.allowEmpty = false))]
  · rw [if_neg hL]
    simp only
    have e : (c.group.map fun g => (⟨tagOf groupTag, g⟩ : Link)).toList ++ (key.map fun k => (⟨tagOf pubkeyTag, k⟩ : Link)).toList ++
      ((key.filter fun _ => !c.noAuth).map fun k => (⟨tagOf pubkeyAuthTag, k⟩ : Link)).toList ++
      (c.auth.map fun l => (⟨List.replicate 8 0 ++ (List.replicate (7 - (authName l).length) 0 ++ authName l ++ ascii "^"), l.ptr⟩ : Link)) =
      plain (wanted c.group key c.noAuth c.auth) := by
      unfold plain wanted
      simp only [List.map_append, List.map_map]
      have h1 : (c.group.map fun g => (⟨tagOf groupTag, g⟩ : Link)).toList =
          ((c.group.map fun g => (([0, 0] ++ ascii "group#" : Bytes), g)).toList).map fun x => ⟨List.replicate 8 0 ++ x.1, x.2⟩ := by
        cases c.group with
        | none => rfl
        | some g => rfl
      have h2 : (key.map fun k => (⟨tagOf pubkeyTag, k⟩ : Link)).toList =
          ((key.map fun k => ((0 :: ascii "pubkey@" : Bytes), k)).toList).map fun x => ⟨List.replicate 8 0 ++ x.1, x.2⟩ := by
        cases key with
        | none => rfl
        | some g => rfl
      have h3 : ((key.filter fun _ => !c.noAuth).map fun k => (⟨tagOf pubkeyAuthTag, k⟩ : Link)).toList =
          (if c.noAuth then [] else (key.map fun k => ((0 :: ascii "pubkey^" : Bytes), k)).toList).map fun x => ⟨List.replicate 8 0 ++ x.1, x.2⟩ := by
        cases c.noAuth <;> cases key <;> rfl
      rw [h1, h2, h3]
      rfl
    rw [e]
    by_cases hw : wanted c.group key c.noAuth c.auth = []
    · rw [hw]
      cases ha : c.allowEmpty with
      | false => simp [plain]
      | true => simp [plain, claimed, hL]
    · have hp : (plain (wanted c.group key c.noAuth c.auth)).isEmpty = false := by simpa [plain] using hw
      simp [hp, hL, hw, claimed]

theorem wanted_tail {group key : Option Bytes} {noAuth : Bool} {auth : List Link} (hL : ¬ LongName auth) {x : Bytes × Bytes}
    (hx : x ∈ claimed (wanted group key noAuth auth)) : x.1.length = 8 := by
  unfold claimed at hx
  split at hx
  · rw [List.mem_singleton.1 hx]; rfl
  · unfold wanted at hx
    simp only [List.mem_append, Option.mem_toList, Option.map_eq_some_iff, List.mem_map] at hx
    rcases hx with ((⟨a, -, rfl⟩ | ⟨a, -, rfl⟩) | h) | ⟨l, hl, rfl⟩
    · rfl
    · rfl
    · split at h
      · cases h
      · simp only [Option.mem_toList, Option.map_eq_some_iff] at h
        obtain ⟨a, -, rfl⟩ := h
        rfl
    · have : ¬ 8 ≤ (authName l).length := fun h => hL ⟨l, hl, h⟩
      simp only [List.length_append, List.length_replicate]
      have : (ascii "^").length = 1 := rfl
      omega

theorem wanted_ptr {c : Create} {key : Option Bytes} (hs : CreateSized c key) {x : Bytes × Bytes}
    (hx : x ∈ claimed (wanted c.group key c.noAuth c.auth)) : x.2.length = 32 := by
  unfold claimed at hx
  split at hx
  · rw [List.mem_singleton.1 hx]; rfl
  · unfold wanted at hx
    simp only [List.mem_append, Option.mem_toList, Option.map_eq_some_iff, List.mem_map] at hx
    rcases hx with ((⟨a, h, rfl⟩ | ⟨a, h, rfl⟩) | h) | ⟨l, hl, rfl⟩
    · exact hs.group a h
    · exact hs.key a h
    · split at h
      · cases h
      · simp only [Option.mem_toList, Option.map_eq_some_iff] at h
        obtain ⟨a, h, rfl⟩ := h
        exact hs.key a h
    · exact (hs.auth l hl).2

theorem claimed_cons (l : List (Bytes × Bytes)) : ∃ x xs, claimed l = x :: xs := by
  unfold claimed
  cases l with
  | nil => exact ⟨_, _, rfl⟩
  | cons x xs => exact ⟨x, xs, rfl⟩

theorem ofPkt_pkt {p : NetParts} {cl : Claim} (h : Claim.ofPkt p = .ok cl) : cl.pkt = p := by
  unfold Claim.ofPkt at h
  simp only at h
  repeat' split at h
  all_goals cases h
  all_goals rfl

/-- Making a claim of a name of these links. -/
theorem claim_made {C : Crypto} (L : C.Laws) {nh : Bytes} (hnh : nh.length = 32) {comps : List Bytes} {n : Name} (hn : Name.ofComps comps = .ok n) {t : Nat}
    (hu : t < 2 ^ 64) {ls : List (Bytes × Bytes)} (hne : ls ≠ []) (h8 : ∀ x ∈ ls, x.1.length = 8 ∧ x.2.length = 32) (data : Bytes) :
    (65024 < claimSize comps ls data → Claim.new C nh n t (plain ls) data = .error .panic) ∧
    (claimSize comps ls data ≤ 65024 → t = 0 → Claim.new C nh n t (plain ls) data = .error (.err ())) ∧
    (claimSize comps ls data ≤ 65024 → 0 < t → ∃ s, Claim.new C nh n t (plain ls) data = .ok ⟨s.parts, n⟩ ∧ ClaimMade C nh comps (endsAt t ls) data s ∧
      Claim.ofPkt s.parts = .ok ⟨s.parts, n⟩ ∧ Claim.until ⟨s.parts, n⟩ = .ok t) := by
  obtain ⟨x, xs, rfl⟩ := List.exists_cons_of_ne_nil hne
  obtain ⟨hc, hc8⟩ := claims_valid ((name_of_iff _ _).1 hn).1
  have hx := h8 x List.mem_cons_self
  have hsz : LinksSized (plain (x :: xs)) := by
    intro l hl
    obtain ⟨y, hy, rfl⟩ := List.mem_map.1 hl
    have := h8 y hy
    exact ⟨by simp [this.1], this.2⟩
  have hz : beNat ((List.replicate 8 0 ++ x.1).take 8) = 0 := by
    rw [List.take_left' (by simp)]
    decide
  have hdrop : (List.replicate 8 0 ++ x.1).drop 8 = x.1 := List.drop_left' (by simp)
  have hlen : claimSize comps (x :: xs) data = 64 + 48 * (xs.length + 1) + (rootedOf (ascii "claims" :: comps.reverse)).length + data.length := by
    unfold claimSize; rfl
  have hglen : n.claimGroup.length = 32 := by
    unfold Name.claimGroup
    split <;> decide
  have hs : (claimContent n.claimGroup comps t ⟨List.replicate 8 0 ++ x.1, x.2⟩ (plain xs) data).Sized := by
    refine ⟨hglen, show (List.replicate 13 0 ++ ascii "lns").length = 16 by decide, show 0 < 2 ^ 64 by decide, ?_, rooted_check_accepts _ hc hc8⟩
    intro z hz
    rcases List.mem_cons.1 hz with rfl | hz
    · exact ⟨by rw [List.length_append, beBytes_length, hdrop]; omega, hx.2⟩
    · exact hsz z (List.mem_cons_of_mem _ hz)
  have hclen : (claimContent n.claimGroup comps t ⟨List.replicate 8 0 ++ x.1, x.2⟩ (plain xs) data).len = claimSize comps (x :: xs) data := by
    rw [hlen]
    unfold LinkContent.len claimContent plain
    simp only [List.length_cons, List.length_map]
  have hpt := tryPoint_eq (C := C) hs none nh
  have hnew : Claim.new C nh n t (plain (x :: xs)) data = (match (generalizing := false) tryLinkpoint C n.claimGroup lnsDomain (rootedOf (ascii "claims" :: comps.reverse))
      (⟨beBytes 8 t ++ x.1, x.2⟩ :: plain xs) data 0 nh with
        | .error _ => .error .panic
        | .ok p => if ¬ p.getCreate < t then .error (.err ()) else Claim.ofPkt p) := by
    show Claim.new C nh n t (⟨List.replicate 8 0 ++ x.1, x.2⟩ :: plain xs) data = _
    unfold Claim.new
    simp only
    rw [if_neg (Classical.not_not.2 (.inl hz)), claim_space_eq hn]
    simp only [hdrop]
    cases tryLinkpoint C n.claimGroup lnsDomain (rootedOf (ascii "claims" :: comps.reverse)) (⟨beBytes 8 t ++ x.1, x.2⟩ :: plain xs) data 0 nh <;> rfl
  refine ⟨?_, ?_, ?_⟩
  · intro hbig
    rw [if_neg (by show ¬ LinkContent.len _ ≤ 65024; omega)] at hpt
    rw [hnew]
    have : ∃ e, tryLinkpoint C n.claimGroup lnsDomain (rootedOf (ascii "claims" :: comps.reverse)) (⟨beBytes 8 t ++ x.1, x.2⟩ :: plain xs) data 0 nh = .error e := by
      refine ⟨_, Eq.trans ?_ hpt⟩
      simp only [claimContent, hdrop]
      rfl
    obtain ⟨e, he⟩ := this
    rw [he]
  · intro hfit ht
    rw [if_pos (by show LinkContent.len _ ≤ 65024; omega)] at hpt
    rw [hnew]
    have : ∃ p, tryLinkpoint C n.claimGroup lnsDomain (rootedOf (ascii "claims" :: comps.reverse)) (⟨beBytes 8 t ++ x.1, x.2⟩ :: plain xs) data 0 nh = .ok p := by
      refine ⟨_, Eq.trans ?_ hpt⟩
      simp only [claimContent, hdrop]
      rfl
    obtain ⟨p, hp⟩ := this
    rw [hp]
    simp only [ht, Nat.not_lt_zero, not_false_eq_true, if_true]
  · intro hfit ht
    obtain ⟨cl, g, e1, e2, e3, -, e5, e6, e7⟩ := claim_new (C := C) nh hn ht hu (l := ⟨List.replicate 8 0 ++ x.1, x.2⟩) (ls := plain xs) hsz (.inl hz) data
      (by unfold plain; rw [List.length_map]; omega)
    have hcl : cl.pkt.netHeader = nh := by
      rw [if_pos (by show LinkContent.len _ ≤ 65024; omega)] at hpt
      have : ∃ h q, tryLinkpoint C n.claimGroup lnsDomain (rootedOf (ascii "claims" :: comps.reverse)) (⟨beBytes 8 t ++ x.1, x.2⟩ :: plain xs) data 0 nh = .ok ⟨nh, h, q⟩ := by
        refine ⟨_, _, Eq.trans ?_ hpt⟩
        simp only [claimContent, hdrop]
        rfl
      obtain ⟨h, q, hp⟩ := this
      have e1' := hnew.symm.trans e1
      rw [hp] at e1'
      simp only at e1'
      split at e1'
      · cases e1'
      · rw [ofPkt_pkt e1']
    obtain ⟨pkt, name⟩ := cl
    obtain rfl : name = n := e5
    have hpk : pkt = ⟨nh, C.hash (Content.link (claimContent g comps t ⟨List.replicate 8 0 ++ x.1, x.2⟩ (plain xs) data)).layout,
        (Content.link (claimContent g comps t ⟨List.replicate 8 0 ++ x.1, x.2⟩ (plain xs) data)).parts⟩ := by
      obtain ⟨a, b, d⟩ := pkt
      have h1 : a = nh := hcl
      have h2 := e3.hash
      have h3 := e3.parts
      simp only at h2 h3
      rw [h1, h2, h3]
    subst hpk
    refine ⟨⟨nh, C.hash (Content.link (claimContent g comps t ⟨List.replicate 8 0 ++ x.1, x.2⟩ (plain xs) data)).layout,
      .link (claimContent g comps t ⟨List.replicate 8 0 ++ x.1, x.2⟩ (plain xs) data), hnh, L.hash_len _, e3.valid⟩, ?_, ⟨rfl, rfl, g, e2, ?_⟩, ?_, ?_⟩
    · rw [show plain (x :: xs) = (⟨List.replicate 8 0 ++ x.1, x.2⟩ : Link) :: plain xs from rfl, e1]; rfl
    · unfold claimContent endsAt plain
      simp only [hdrop]
    · exact e7
    · exact e6

/-! ### Reading a claim -/

theorem tail_iff {t a : Bytes} (ht : t.length ≤ 8) (ha : a.length = 16) : t <:+ a ↔ t <:+ a.drop 8 := by
  constructor
  · intro h
    exact List.suffix_of_suffix_length_le h (List.drop_suffix 8 a) (by rw [List.length_drop]; omega)
  · intro h
    exact h.trans (List.drop_suffix 8 a)

theorem firstTail_tails {ls : List Link} (hl : LinksSized ls) {t : Bytes} (ht : t.length ≤ 8) :
    (firstTail ls t).map (·.ptr) = ((ls.map fun l => (l.tag.drop 8, l.ptr)).find? fun x => decide (t <:+ x.1)).map (·.2) := by
  unfold firstTail
  rw [if_neg (by omega), List.find?_map, Option.map_map]
  have : ls.find? (fun l => decide (t <:+ l.tag)) = ls.find? ((fun x : Bytes × Bytes => decide (t <:+ x.1)) ∘ fun l => (l.tag.drop 8, l.ptr)) := by
    induction ls with
    | nil => rfl
    | cons l ls ih =>
      have : decide (t <:+ l.tag) = decide (t <:+ l.tag.drop 8) := decide_eq_decide.2 (tail_iff ht (hl l List.mem_cons_self).1)
      simp only [List.find?_cons, Function.comp, this]
      rw [ih fun x hx => hl x (List.mem_cons_of_mem _ hx)]
  rw [this]
  rfl

theorem auth_tails {ls : List Link} (hl : LinksSized ls) :
    (ls.filter fun l => l.tag[15]? == some 0x5e).map (·.ptr) =
      ((ls.map fun l => (l.tag.drop 8, l.ptr)).filter fun x => x.1[7]? == some 0x5e).map (·.2) := by
  induction ls with
  | nil => rfl
  | cons l ls ih =>
    have : (l.tag.drop 8)[7]? = l.tag[15]? := by rw [List.getElem?_drop]
    have ih := ih fun x hx => hl x (List.mem_cons_of_mem _ hx)
    simp only [List.map_cons, List.filter_cons, this]
    split
    · simp only [List.map_cons, ih]
    · exact ih

theorem endsAt_tails {t : Nat} {ls : List (Bytes × Bytes)} : (endsAt t ls).map (fun l => (l.tag.drop 8, l.ptr)) = ls := by
  cases ls with
  | nil => rfl
  | cons x xs =>
    unfold endsAt
    simp only [List.map_cons, List.map_map]
    rw [List.drop_left' (beBytes_length _ _)]
    congr 1
    conv => rhs; rw [← List.map_id xs]
    apply List.map_congr_left
    intro y _
    simp only [Function.comp, id]
    rw [List.drop_left' (by simp)]

theorem endsAt_sized {t : Nat} {ls : List (Bytes × Bytes)} (h : ∀ x ∈ ls, x.1.length = 8 ∧ x.2.length = 32) : LinksSized (endsAt t ls) := by
  cases ls with
  | nil => exact fun x hx => nomatch hx
  | cons x xs =>
    intro l hl
    rcases List.mem_cons.1 hl with rfl | hl
    · have := h x List.mem_cons_self
      exact ⟨by rw [List.length_append, beBytes_length]; omega, this.2⟩
    · obtain ⟨y, hy, rfl⟩ := List.mem_map.1 hl
      have := h y (List.mem_cons_of_mem _ hy)
      exact ⟨by simp [this.1], this.2⟩

theorem no_tail (a t : Bytes) (b : UInt8) (hb : b ≠ 0x5e) : ¬ (t ++ [b]) <:+ (a ++ ascii "^") := by
  rintro ⟨s, hs⟩
  have := congrArg List.getLast? hs
  rw [← List.append_assoc, show ascii "^" = [0x5e] from rfl, List.getLast?_append, List.getLast?_append] at this
  simp at this
  exact hb this

theorem auth_none (auth : List Link) (t : Bytes) (b : UInt8) (hb : b ≠ 0x5e) :
    (auth.map fun l => (List.replicate (7 - (authName l).length) 0 ++ authName l ++ ascii "^", l.ptr)).find? (fun x => decide ((t ++ [b]) <:+ x.1)) = none := by
  rw [List.find?_eq_none]
  intro x hx
  obtain ⟨l, -, rfl⟩ := List.mem_map.1 hx
  simpa only [decide_eq_true_eq] using no_tail _ t b hb

theorem auth_all {auth : List Link} (hL : ¬ LongName auth) :
    ((auth.map fun l => (List.replicate (7 - (authName l).length) 0 ++ authName l ++ ascii "^", l.ptr)).filter fun x => x.1[7]? == some 0x5e).map (·.2) = auth.map (·.ptr) := by
  rw [List.filter_eq_self.2]
  · simp only [List.map_map]
    rfl
  · intro x hx
    obtain ⟨l, hl, rfl⟩ := List.mem_map.1 hx
    have : ¬ 8 ≤ (authName l).length := fun h => hL ⟨l, hl, h⟩
    simp only
    rw [List.getElem?_append_right (by simp; omega)]
    have : 7 - (List.replicate (7 - (authName l).length) 0 ++ authName l).length = 0 := by simp; omega
    rw [this]
    rfl

theorem claimed_group (group key : Option Bytes) (noAuth : Bool) (auth : List Link) :
    ((claimed (wanted group key noAuth auth)).find? fun x => decide (groupTag <:+ x.1)).map (·.2) = group := by
  unfold claimed
  split
  · rename_i h
    cases group with
    | none => decide
    | some g => exact absurd h (by simp [wanted])
  · unfold wanted
    simp only [List.find?_append]
    rw [show groupTag = ascii "group" ++ [0x23] by decide, auth_none _ _ _ (by decide)]
    cases group with
    | some g =>
      rw [show (Option.map (fun g => (([0, 0] ++ ascii "group#" : Bytes), g)) (some g)).toList.find? (fun x => decide (ascii "group" ++ [0x23] <:+ x.1)) = some ([0, 0] ++ ascii "group#", g) by
        simp only [Option.map_some, Option.toList_some, List.find?_cons]
        rw [show decide (ascii "group" ++ [35] <:+ [0, 0] ++ ascii "group#") = true by decide]]
      rfl
    | none =>
      cases key with
      | none => cases noAuth <;> rfl
      | some k =>
        simp only [Option.map_none, Option.toList_none, List.find?_nil, Option.map_some, Option.toList_some, List.find?_cons,
          show decide (ascii "group" ++ [35] <:+ 0 :: ascii "pubkey@") = false by decide]
        cases noAuth
        · simp only [Bool.false_eq_true, if_false, List.find?_cons, show decide (ascii "group" ++ [35] <:+ 0 :: ascii "pubkey^") = false by decide]
          rfl
        · rfl

theorem claimed_key (group key : Option Bytes) (noAuth : Bool) (auth : List Link) :
    ((claimed (wanted group key noAuth auth)).find? fun x => decide (pubkeyTag <:+ x.1)).map (·.2) = key := by
  unfold claimed
  split
  · rename_i h
    cases key with
    | none => decide
    | some g => exact absurd h (by simp [wanted])
  · unfold wanted
    simp only [List.find?_append]
    rw [show pubkeyTag = ascii "pubkey" ++ [0x40] by decide, auth_none _ _ _ (by decide)]
    have hg : (Option.map (fun g => (([0, 0] ++ ascii "group#" : Bytes), g)) group).toList.find? (fun x => decide (ascii "pubkey" ++ [0x40] <:+ x.1)) = none := by
      cases group with
      | none => rfl
      | some g =>
        simp only [Option.map_some, Option.toList_some, List.find?_cons]
        rw [show decide (ascii "pubkey" ++ [0x40] <:+ [0, 0] ++ ascii "group#") = false by decide]
        rfl
    rw [hg]
    cases key with
    | none => cases noAuth <;> rfl
    | some k =>
      simp only [Option.map_some, Option.toList_some, List.find?_cons, show decide (ascii "pubkey" ++ [0x40] <:+ 0 :: ascii "pubkey@") = true by decide]
      rfl

theorem claimed_auth (group key : Option Bytes) (noAuth : Bool) {auth : List Link} (hL : ¬ LongName auth) :
    ((claimed (wanted group key noAuth auth)).filter fun x => x.1[7]? == some 0x5e).map (·.2) = (if noAuth then [] else key.toList) ++ auth.map (·.ptr) := by
  have hw : ((wanted group key noAuth auth).filter fun x => x.1[7]? == some 0x5e).map (·.2) = (if noAuth then [] else key.toList) ++ auth.map (·.ptr) := by
    unfold wanted
    simp only [List.filter_append, List.map_append]
    rw [auth_all hL]
    congr 1
    cases group <;> cases key <;> cases noAuth <;> rfl
  unfold claimed
  split
  · rename_i h
    rw [h] at hw
    rw [← hw]
    rfl
  · exact hw

end Verif.LnsCmd
