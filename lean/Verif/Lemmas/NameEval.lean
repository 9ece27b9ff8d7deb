import Verif.Model.NameEval
import Verif.Props.ReadHash
import Verif.Props.Local
import Verif.Spec.NameEval
/-!
# Lemmas about names in expressions
-/
namespace Verif.Tpl
open Verif Verif.Ast Verif.Abl Verif.Abe Verif.Abtxt Verif.Num Verif.Fit Verif.Pkt Verif.Eval Verif.Env Verif.Repr Verif.Lns Verif.Spec Verif.Props

def netIds : List Bytes := ["#", "?#", "@", "?@"].map ascii
def privIds : List Bytes := ["private#", "?private#", "private@", "?private@"].map ascii

section
variable {k : PktParams} {p : Params} {w : NameEnv} {read : Bytes → Except (Fault Files.FsErr) Bytes} {en : Bool} {o : Outside}

theorem net_ids (w : NameEnv) (o : Outside) : ids (netFns w o) = netIds := rfl
theorem priv_ids (w : NameEnv) (o : Outside) : ids (privFns w o) = privIds := rfl

theorem net_none (w : NameEnv) (o : Outside) {id : Bytes} (h : id ∉ netIds) (top : Top) (args : List Bytes) (init : Bool) :
    tableFunc (netFns w o) top id args init = .noValue := tableFunc_none (ids_ne (by rw [net_ids]; exact h)) top args init
theorem priv_none (w : NameEnv) (o : Outside) {id : Bytes} (h : id ∉ privIds) (top : Top) (args : List Bytes) (init : Bool) :
    tableFunc (privFns w o) top id args init = .noValue := tableFunc_none (ids_ne (by rw [priv_ids]; exact h)) top args init

theorem tableMac_none {m : Bytes} {f : Top → List ABE → AR Bytes} {id : Bytes} (h : id ≠ m) (top : Top) (abe : List ABE) :
    tableMac [(m, f)] top id abe = .noValue := by
  unfold tableMac
  rw [List.find?_eq_none.2 (by intro x hx; simp at hx; subst hx; simpa using fun e => h e.symm)]
theorem tableMac_hit (m : Bytes) (f : Top → List ABE → AR Bytes) (top : Top) (abe : List ABE) : tableMac [(m, f)] top m abe = f top abe := by
  simp [tableMac]

/-- Names and files know nothing of packets. -/
theorem names_apart (w : NameEnv) (read : Bytes → Except (Fault Files.FsErr) Bytes) (o : Outside) : Apart (nameScopes w o) (fileScope read) := by
  refine ⟨fun ev d top id hid => ⟨fun args init => ?_, fun abe => ?_⟩, fun top id hid => ⟨fun args init => ?_, fun abe => rfl⟩⟩
  · show AR.orElse (tableFunc (netFns w o) top id args init) (fun _ => tableFunc (privFns w o) top id args init) = _
    rw [net_none w o (by revert id; decide +kernel), priv_none w o (by revert id; decide +kernel)]; rfl
  · show AR.orElse (tableMac [(ascii "lns", fun (_ : Top) abe => lnsMac w o ev d abe)] top id abe)
      (fun _ => tableMac [(ascii "private-lns", fun (_ : Top) abe => privMac w o ev d abe)] top id abe) = _
    rw [tableMac_none (by revert id; decide +kernel), tableMac_none (by revert id; decide +kernel)]; rfl
  · refine tableFunc_none (ids_ne ?_) top args init
    show id ∉ [ascii "files"]
    revert id; decide +kernel

theorem nv_orElse {α : Type} (r : AR α) : (r.orElse fun _ => .noValue) = r := by cases r <;> rfl

/-- What the whole scope makes of these names. -/
theorem lk_func {id : Bytes} (hid : id ∈ netIds ++ privIds) (ev : Ev) (d : Dyn) (top : Top) (args : List Bytes) (init : Bool) :
    (lkScope k p w read en o ev d).func top id args init =
      AR.orElse ((coreScope p).func top id args init) fun _ => AR.orElse (tableFunc (netFns w o) top id args init) fun _ => tableFunc (privFns w o) top id args init := by
  have h1 : (if en then table (envFns o) [] else Scope.unit).func top id args init = .noValue := by
    cases en
    · rfl
    · refine tableFunc_none (ids_ne ?_) top args init
      show id ∉ [ascii "env"]
      revert id; decide +kernel
  have h2 : (fileScope read).func top id args init = .noValue := by
    refine tableFunc_none (ids_ne ?_) top args init
    show id ∉ [ascii "files"]
    clear h1; revert id; decide +kernel
  have h3 : tableFunc (readFns k ev d o) top id args init = .noValue := by
    refine tableFunc_none (ids_ne ?_) top args init
    show id ∉ readNames
    clear h1 h2; revert id; decide +kernel
  show AR.orElse ((coreScope p).func top id args init) (fun _ => AR.orElse (AR.orElse (tableFunc (netFns w o) top id args init) fun _ => tableFunc (privFns w o) top id args init) fun _ =>
    AR.orElse (AR.orElse ((fileScope read).func top id args init) fun _ => tableFunc (readFns k ev d o) top id args init) fun _ =>
      (if en then table (envFns o) [] else Scope.unit).func top id args init) = _
  rw [h1, h2, h3]
  show AR.orElse _ (fun _ => AR.orElse _ fun _ => .noValue) = _
  rw [nv_orElse]

theorem denote_net {id : Bytes} (hid : id ∈ netIds) (ev : Ev) (d : Dyn) (top : Top) (args : List Bytes) (init : Bool) :
    (denote k (lkScope k p w read en o) ev d).func top id args init =
      AR.orElse ((coreScope p).func top id args init) fun _ => tableFunc (netFns w o) top id args init := by
  rw [denote_func k _ ev d (by revert id; decide +kernel), lk_func (List.mem_append_left _ hid)]
  have h : tableFunc (privFns w o) top id args init = .noValue := priv_none w o (by revert id; decide +kernel) top args init
  rw [h, nv_orElse]

theorem denote_priv {id : Bytes} (hid : id ∈ privIds) (ev : Ev) (d : Dyn) (top : Top) (args : List Bytes) (init : Bool) :
    (denote k (lkScope k p w read en o) ev d).func top id args init = tableFunc (privFns w o) top id args init := by
  rw [denote_func k _ ev d (by revert id; decide +kernel), lk_func (List.mem_append_right _ hid),
    core_none p (by revert id; decide +kernel), net_none w o (by revert id; decide +kernel)]
  rfl

/-- The macros. -/
theorem lk_mac {id : Bytes} (hid : id = ascii "lns" ∨ id = ascii "private-lns") (ev : Ev) (d : Dyn) (top : Top) (abe : List ABE) :
    (denote k (lkScope k p w read en o) ev d).mac top id abe = if id = ascii "lns" then lnsMac w o ev d abe else privMac w o ev d abe := by
  rw [denote_mac k _ ev d (by rcases hid with rfl | rfl <;> decide +kernel)]
  have h1 : (coreScope p).mac top id abe = .noValue := by rcases hid with rfl | rfl <;> rfl
  have h2 : (if en then table (envFns o) [] else Scope.unit).mac top id abe = .noValue := by cases en <;> rfl
  have h3 : tableMac [(ascii "readhash", fun (_ : Top) abe => readMac ev d o abe)] top id abe = .noValue :=
    tableMac_none (by rcases hid with rfl | rfl <;> decide +kernel) top abe
  show AR.orElse ((coreScope p).mac top id abe) (fun _ => AR.orElse (AR.orElse
      (tableMac [(ascii "lns", fun (_ : Top) abe => lnsMac w o ev d abe)] top id abe) fun _ =>
      tableMac [(ascii "private-lns", fun (_ : Top) abe => privMac w o ev d abe)] top id abe) fun _ =>
    AR.orElse (AR.orElse ((fileScope read).mac top id abe) fun _ => tableMac [(ascii "readhash", fun (_ : Top) abe => readMac ev d o abe)] top id abe) fun _ =>
      (if en then table (envFns o) [] else Scope.unit).mac top id abe) = _
  rw [h1, h2, h3]
  show AR.orElse (AR.orElse _ _) (fun _ => .noValue) = _
  rw [nv_orElse]
  rcases hid with rfl | rfl
  · rw [tableMac_hit, tableMac_none (by decide +kernel), nv_orElse, if_pos rfl]
  · rw [tableMac_hit, tableMac_none (by decide +kernel), if_neg (by decide +kernel)]; rfl

/-! ### calls -/

theorem kind_in {mark tag : Bytes} (h : Kind mark tag) : mark ∈ netIds := by cases h <;> decide +kernel
theorem net_self : ∀ id ∈ netIds ++ privIds, id ≠ [] ∧ ∀ c ∈ id, Self c := by decide +kernel

theorem core_mark {mark tag : Bytes} (h : Kind mark tag) (top : Top) (args : List Bytes) :
    (coreScope p).func top mark args true = tableFunc (lnsFns p) top mark args true := by
  cases h
  · show AR.orElse (tableFunc (lnsFns p) top (ascii "#") args true) (fun _ => .noValue) = _
    rw [nv_orElse]
  · show AR.orElse (tableFunc (lnsFns p) top (ascii "@") args true) (fun _ => .noValue) = _
    rw [nv_orElse]

theorem lns_word {mark tag : Bytes} (h : Kind mark tag) {c : Bytes} (hc : ¬ Word mark c) (top : Top) (cs : List Bytes) (hl : cs.length ≤ 15) :
    tableFunc (lnsFns p) top mark (c :: cs) true = .noValue := by
  have hlen : 1 ≤ (c :: cs).length ∧ (c :: cs).length ≤ 16 := by simp only [List.length_cons]; omega
  cases h
  · have : (lnsFns p).find? (fun f => f.id == ascii "#") = some ((lnsFns p).head (by simp [lnsFns])) := rfl
    unfold tableFunc
    rw [this]
    show (if 1 ≤ (c :: cs).length ∧ (c :: cs).length ≤ 16 then _ else _) = _
    rw [if_pos hlen]
    show (if c = ascii "0" then _ else if c = ascii "pub" then _ else if c = ascii "test" then _ else AR.noValue) = _
    rw [if_neg fun e => hc (.inl ⟨rfl, by simp [e]⟩), if_neg fun e => hc (.inl ⟨rfl, by simp [e]⟩), if_neg fun e => hc (.inl ⟨rfl, by simp [e]⟩)]
  · have : (lnsFns p).find? (fun f => f.id == ascii "@") = some ((lnsFns p).getLast (by simp [lnsFns])) := rfl
    unfold tableFunc
    rw [this]
    show (if 1 ≤ (c :: cs).length ∧ (c :: cs).length ≤ 16 then _ else _) = _
    rw [if_pos hlen]
    show (if c = ascii "none" then _ else AR.noValue) = _
    rw [if_neg fun e => hc (.inr ⟨rfl, e⟩)]

theorem lns_fixed {mark c v : Bytes} (h : Fixed p.publicGrp p.testGrp mark c v) (top : Top) (cs : List Bytes) (hl : cs.length ≤ 15) :
    tableFunc (lnsFns p) top mark (c :: cs) true = .value v := by
  have hlen : 1 ≤ (c :: cs).length ∧ (c :: cs).length ≤ 16 := by simp only [List.length_cons]; omega
  have hg : ∀ c, tableFunc (lnsFns p) top (ascii "#") (c :: cs) true = if c = ascii "0" then .value zeros32 else if c = ascii "pub" then .value p.publicGrp
      else if c = ascii "test" then .value p.testGrp else .noValue := by
    intro c
    have : (lnsFns p).find? (fun f => f.id == ascii "#") = some ((lnsFns p).head (by simp [lnsFns])) := rfl
    unfold tableFunc
    rw [this]
    show (if 1 ≤ (c :: cs).length ∧ (c :: cs).length ≤ 16 then _ else _) = _
    rw [if_pos (by simp only [List.length_cons]; omega)]; rfl
  have hk : ∀ c, tableFunc (lnsFns p) top (ascii "@") (c :: cs) true = if c = ascii "none" then .value zeros32 else .noValue := by
    intro c
    have : (lnsFns p).find? (fun f => f.id == ascii "@") = some ((lnsFns p).getLast (by simp [lnsFns])) := rfl
    unfold tableFunc
    rw [this]
    show (if 1 ≤ (c :: cs).length ∧ (c :: cs).length ≤ 16 then _ else _) = _
    rw [if_pos (by simp only [List.length_cons]; omega)]; rfl
  cases h
  · rw [hg, if_pos rfl]; rfl
  · rw [hg, if_neg (by decide +kernel), if_pos rfl]
  · rw [hg, if_neg (by decide +kernel), if_neg (by decide +kernel), if_pos rfl]
  · rw [hk, if_pos rfl]; rfl

theorem net_mark {mark tag : Bytes} (h : Kind mark tag) (top : Top) (args : List Bytes) : tableFunc (netFns w o) top mark args true =
    if 1 ≤ args.length ∧ args.length ≤ 7 then linkPtr (netClaim w o) tag args else .err := by
  cases h <;> rfl
theorem priv_mark {mark tag : Bytes} (h : Kind mark tag) (top : Top) (args : List Bytes) : tableFunc (privFns w o) top (ascii "private" ++ mark) args true =
    if 1 ≤ args.length ∧ args.length ≤ 7 then linkPtr (privClaim! w o) tag args else .err := by
  cases h <;> rfl
theorem net_which {mark tag : Bytes} (h : Kind mark tag) (top : Top) (a : Bytes) : tableFunc (netFns w o) top (ascii "?" ++ mark) [a] true = nameStr w o tag [a] := by
  cases h <;> rfl
theorem priv_which {mark tag : Bytes} (h : Kind mark tag) (top : Top) (a : Bytes) : tableFunc (privFns w o) top (ascii "?private" ++ mark) [a] true = nameStr w o tag [a] := by
  cases h <;> rfl

theorem link_ptr_ok (find : Name → ER Claim) {mark tag : Bytes} (h : Kind mark tag) (args : List Bytes) (v : Bytes) :
    linkPtr find tag args = .value v ↔ ∃ n c, Name.ofComps args = .ok n ∧ find n = .ok c ∧ FirstPtr c.pkt.getLinks tag v := by
  have ht : tag.length ≤ 16 := by cases h <;> decide +kernel
  have hf : ∀ ls : List Link, FirstPtr ls tag v ↔ (firstTail ls tag).map (·.ptr) = some v := by
    intro ls
    rw [firstTail_iff ls ht]
    constructor
    · rintro ⟨a, l, b, h1, h2, h3, h4⟩; exact ⟨a, l, b, h1, h4, h2, h3⟩
    · rintro ⟨a, l, b, h1, h4, h2, h3⟩; exact ⟨a, l, b, h1, h2, h3, h4⟩
  unfold linkPtr
  cases hn : Name.ofComps args with
  | error x => cases x <;> simp [ofName, ER.bind, ER.toAR]
  | ok n =>
    simp only [ofName, ER.bind]
    cases hc : find n with
    | err => simp [ER.toAR, hc]
    | abort => simp [ER.toAR, hc]
    | ok c =>
      simp only
      constructor
      · intro hv
        refine ⟨n, c, rfl, hc, (hf _).2 ?_⟩
        cases hx : firstTail c.pkt.getLinks tag with
        | none => rw [hx] at hv; cases hv
        | some l => rw [hx] at hv; cases hv; rfl
      · rintro ⟨n', c', h1, h2, h3⟩
        cases h1
        rw [hc] at h2
        cases h2
        have := (hf _).1 h3
        cases hx : firstTail c.pkt.getLinks tag with
        | none => rw [hx] at this; cases this
        | some l => rw [hx] at this; cases this; rfl

theorem link_ptr_nv (find : Name → ER Claim) (tag : Bytes) (args : List Bytes) : linkPtr find tag args ≠ .noValue := by
  unfold linkPtr
  generalize ER.bind _ _ = r
  cases r <;> nofun

theorem link_ptr_abort (find : Name → ER Claim) (tag : Bytes) (args : List Bytes) :
    linkPtr find tag args = .abort ↔ ∃ n, Name.ofComps args = .ok n ∧ find n = .abort := by
  unfold linkPtr
  cases hn : Name.ofComps args with
  | error x =>
    cases x with
    | panic => exact absurd hn (name_of_no_panic args)
    | err e => simp [ofName, ER.bind, ER.toAR]
  | ok n =>
    simp only [ofName, ER.bind]
    cases hc : find n with
    | err => simp [ER.toAR, hc]
    | abort => simp [ER.toAR, hc]
    | ok c =>
      simp only
      cases firstTail c.pkt.getLinks tag <;> simp [ER.toAR, hc]

/-! ### claims that are found -/

theorem priv_claim_ok (n : Name) (c : Claim) : privClaim! w o n = .ok c ↔ lookupClaim w.C w.nh o.db w.iter o.now n = .ok (some c) := by
  unfold privClaim! privClaim
  cases lookupClaim w.C w.nh o.db w.iter o.now n with
  | error x => cases x <;> simp [ofLookup, ER.bind]
  | ok r => cases r <;> simp [ofLookup, ER.bind]

theorem net_claim_ok (n : Name) (c : Claim) : netClaim w o n = .ok c ↔ lookupClaim w.C w.nh o.db w.iter o.now n = .ok (some c) ∨
    (lookupClaim w.C w.nh o.db w.iter o.now n = .ok none ∧ lookupClaim w.C w.nh o.db w.again o.now n = .ok (some c)) := by
  unfold netClaim privClaim
  cases lookupClaim w.C w.nh o.db w.iter o.now n with
  | error x => cases x <;> simp [ofLookup, ER.bind]
  | ok r =>
    cases r with
    | some c' => simp [ofLookup, ER.bind]
    | none =>
      simp only [ofLookup, ER.bind, reduceCtorEq, false_or, true_and]
      cases lookupClaim w.C w.nh o.db w.again o.now n with
      | error x => cases x <;> simp
      | ok r => cases r <;> simp

/-! ### the text of a name -/

theorem print_bytes_abtxt (b : Bytes) : printBytes b = asAbtxt b := by rw [asAbtxt_eq]; rfl

theorem print_colons (cs : List Bytes) : printAbe (cs.flatMap fun c => [.ctr .colon, .bytes c]) = tailText cs := by
  induction cs with
  | nil => rfl
  | cons c cs ih =>
    rw [List.flatMap_cons, List.cons_append, List.cons_append, List.nil_append, printAbe, printAbe, ih]
    have := print_bytes_abtxt c
    simp [printOne, tailText, ascii, Ctr.asChar, this]

theorem name_text {comps : List Bytes} {n : Name} (h : Name.ofComps comps = .ok n) : n.text = .ok (nameText comps) := by
  obtain ⟨hg, hs, _⟩ := (name_of_iff comps n).1 h
  cases comps with
  | nil => exact absurd rfl hg.some
  | cons c cs =>
    unfold Name.text Name.toAbe
    have hz : n.space.isEmpty = false := by
      cases hn : n.space with
      | cons _ _ => rfl
      | nil =>
        rw [hn] at hs
        have : (encodeSpace (c :: cs).reverse).length = 0 := by rw [← hs]; rfl
        rw [encode_size, List.map_reverse, List.sum_reverse, List.map_cons, List.sum_cons] at this
        omega
    rw [hz, if_neg (by simp), space_to_array (bs := n.space) (cs := (c :: cs).reverse) (by rw [hs]; exact (good_space hg).1),
      if_pos (by rw [List.length_reverse]; have := hg.few; omega)]
    simp only [unwrapSp, List.reverse_reverse]
    rw [printAbe, print_colons, printOne, print_bytes_abtxt]
    rfl

theorem bracket_name (mark : Bytes) {comps : List Bytes} (h : comps ≠ []) : bracket mark (nameText comps) = callText mark comps := by
  cases comps with
  | nil => exact absurd rfl h
  | cons c cs => simp [bracket, nameText, callText, tailText, ascii]

/-! ### from a group or key to a name -/

theorem listed_lookup {tag ptr : Bytes} (ht : 1 ≤ tag.length ∧ tag.length ≤ 200) (hp : ptr.length = 32)
    (h1 : 1 < o.now) (h2 : o.now < 2 ^ 64) (hc : Spec.Consistent o.db) (hs : AllShow o.db) (hff : NoOnesKey o.db) :
    (tagLookup o.db o.now tag ptr none = .ok none ∧ ∀ comps, ¬ ListedAs o.db o.now tag ptr comps) ∨
    ∃ cl comps, tagLookup o.db o.now tag ptr none = .ok (some cl) ∧ Name.ofComps comps = .ok cl.name ∧ ListedAs o.db o.now tag ptr comps ∧
      ∀ comps', ListedAs o.db o.now tag ptr comps' → comps' = comps := by
  have key := tag_lookup_iff_partial ht hp (admin := none) nofun h1 h2 hc hs hff
  have hiff : ∀ comps, ListedAs o.db o.now tag ptr comps → ∃ cl, tagLookup o.db o.now tag ptr none = .ok (some cl) ∧ Name.ofComps comps = .ok cl.name := by
    rintro comps ⟨e, q, hl, hf⟩
    obtain ⟨a, l, b, -, ⟨-, -, -, c, lc, -, -, hk⟩, -⟩ := id hf
    have hn : ∃ nm, Name.ofComps comps = .ok nm := by
      by_cases hx : IsLocal comps
      · exact ⟨⟨encodeSpace comps.reverse, true⟩, (name_of_iff _ _).2 ⟨hk.name, rfl, by simp [hx]⟩⟩
      · exact ⟨⟨encodeSpace comps.reverse, false⟩, (name_of_iff _ _).2 ⟨hk.name, rfl, by simp [hx]⟩⟩
    obtain ⟨nm, hn⟩ := hn
    exact ⟨⟨q, nm⟩, (key ⟨q, nm⟩).2 ⟨e, comps, hl, hf, hn⟩, hn⟩
  have htot : ∃ r, tagLookup o.db o.now tag ptr none = .ok r := by
    obtain ⟨r, x1, x2⟩ := tag_lead ht hp (admin := none) nofun h1 h2 hc hs hff
    unfold tagLookup
    rw [x2]
    cases r with
    | none => exact ⟨none, rfl⟩
    | some e =>
      obtain ⟨y, hy, -⟩ := first_live (now := o.now) hc hs e.2.getLinks
      exact ⟨y, hy⟩
  obtain ⟨r, hr⟩ := htot
  cases r with
  | none =>
    refine .inl ⟨hr, fun comps hl => ?_⟩
    obtain ⟨cl, h, -⟩ := hiff comps hl
    rw [hr] at h; cases h
  | some cl =>
    obtain ⟨e, comps, y1, y2, y3⟩ := (key cl).1 hr
    refine .inr ⟨cl, comps, hr, y3, ⟨e, cl.pkt, y1, y2⟩, fun comps' hl => ?_⟩
    obtain ⟨cl', h, hn⟩ := hiff comps' hl
    rw [hr] at h
    cases h
    exact name_injective hn y3

/-- What the reverse lookup does, if the name in the index is a local one. -/
theorem reverse_local {mark tag ptr : Bytes} (hk : Kind mark tag) (hp : ptr.length = 32)
    (h1 : 1 < o.now) (h2 : o.now < 2 ^ 64) (hc : Spec.Consistent o.db) (hs : AllShow o.db) (hff : NoOnesKey o.db) (iter : List Tally → List Tally) :
    ((∀ comps, ¬ ListedAs o.db o.now tag ptr comps) → reverseLookup w.C w.nh o.db iter o.now tag ptr = .ok none) ∧
    ∀ comps, ListedAs o.db o.now tag ptr comps → IsLocal comps →
      (LocalValue o.db o.now comps tag ptr → ∃ cl, reverseLookup w.C w.nh o.db iter o.now tag ptr = .ok (some cl) ∧ Name.ofComps comps = .ok cl.name) ∧
      (¬ LocalValue o.db o.now comps tag ptr → reverseLookup w.C w.nh o.db iter o.now tag ptr = .ok none ∨ reverseLookup w.C w.nh o.db iter o.now tag ptr = .error .err) := by
  have ht : (1 ≤ tag.length ∧ tag.length ≤ 200) ∧ tag.length ≤ 16 := by cases hk <;> decide +kernel
  have hft : ∀ ls : List Link, FirstPtr ls tag ptr ↔ (firstTail ls tag).map (·.ptr) = some ptr := by
    intro ls
    rw [firstTail_iff ls ht.2]
    constructor
    · rintro ⟨a, l, b, h1, h2, h3, h4⟩; exact ⟨a, l, b, h1, h4, h2, h3⟩
    · rintro ⟨a, l, b, h1, h4, h2, h3⟩; exact ⟨a, l, b, h1, h2, h3, h4⟩
  unfold reverseLookup
  rcases listed_lookup ht.1 hp h1 h2 hc hs hff with ⟨e1, e2⟩ | ⟨cl, comps, e1, e2, e3, e4⟩
  · rw [e1]
    exact ⟨fun _ => rfl, fun comps hl => absurd hl (e2 comps)⟩
  · rw [e1]
    refine ⟨fun h => absurd e3 (h comps), fun comps' hl hloc => ?_⟩
    obtain rfl := e4 comps' hl
    simp only
    have hfound := local_found_iff_partial w.C w.nh iter e2 hloc h1 h2 hc hs hff
    constructor
    · rintro ⟨e, c, lc, b0, b1, b2, b3, hf⟩
      rw [(hfound ⟨e.2, cl.name⟩).2 ⟨e, c, lc, b0, b1, b2, b3, rfl⟩]
      have hlk : e.2.getLinks = lc.links := by
        unfold NetParts.getLinks
        rw [b1, b3.point]; rfl
      simp only
      rw [if_pos ((hft _).1 (by rw [hlk]; exact hf))]
      exact ⟨_, rfl, e2⟩
    · intro hno
      cases hx : lookupClaim w.C w.nh o.db iter o.now cl.name with
      | error x => rw [((local_error_iff_partial w.C w.nh iter e2 hloc h1 h2 hc hs hff x).1 hx).1]; exact .inr rfl
      | ok r =>
        cases r with
        | none => exact .inl rfl
        | some by_ =>
          simp only
          obtain ⟨e, c, lc, b0, b1, b2, b3, rfl⟩ := (hfound by_).1 hx
          have hlk : e.2.getLinks = lc.links := by
            unfold NetParts.getLinks
            rw [b1, b3.point]; rfl
          rw [if_neg]
          · exact .inr rfl
          · intro hf
            exact hno ⟨e, c, lc, b0, b1, b2, b3, by rw [← hlk]; exact (hft _).2 hf⟩

/-! ### encoders -/

theorem enc_none_of {fns : List Fn} {id : Bytes} (h : id ∉ ids fns) (opts : List ABE) (b : Bytes) : tableEnc fns id opts b = .noValue := by
  unfold tableEnc
  rw [List.find?_eq_none.2 (by
    intro f hf
    have := ids_ne h f hf
    simp [this])]

theorem denote_encs {id : Bytes} (hid : id ∉ privIds) (ev : Ev) (d : Dyn) (b : Bytes) : (denote k (lkScope k p w read en o) ev d).enc id [] b =
    AR.orElse ((coreScope p).enc id [] b) fun _ => tableEnc (netFns w o) id [] b := by
  rw [denote_enc]
  have h1 : (if en then table (envFns o) [] else Scope.unit).enc id [] b = .noValue := by
    cases en
    · rfl
    · show tableEnc (envFns o) id [] b = _
      refine tableEnc_none _ ?_ id [] b
      intro f hf
      simp only [envFns, List.mem_cons, List.not_mem_nil, or_false] at hf
      rw [hf]
  have h2 : (fileScope read).enc id [] b = .noValue := by
    have : ∀ fns : List Fn, (∀ f ∈ fns, f.toAbe = none) → (table fns []).enc id [] b = .noValue := fun fns h => tableEnc_none fns h id [] b
    refine this _ ?_
    intro f hf
    simp only [List.mem_cons, List.not_mem_nil, or_false] at hf
    rw [hf]
  have h3 : tableEnc (readFns k ev d o) id [] b = .noValue := by
    refine tableEnc_none _ ?_ id [] b
    intro f hf
    simp only [readFns, List.mem_cons, List.not_mem_nil, or_false] at hf
    rcases hf with rfl | rfl <;> rfl
  have h4 : tableEnc (privFns w o) id [] b = .noValue := enc_none_of (by rw [priv_ids]; exact hid) [] b
  show AR.orElse ((coreScope p).enc id [] b) (fun _ => AR.orElse (AR.orElse (tableEnc (netFns w o) id [] b) fun _ => tableEnc (privFns w o) id [] b) fun _ =>
    AR.orElse (AR.orElse ((fileScope read).enc id [] b) fun _ => tableEnc (readFns k ev d o) id [] b) fun _ =>
      (if en then table (envFns o) [] else Scope.unit).enc id [] b) = _
  rw [h1, h2, h3, h4]
  show AR.orElse _ (fun _ => AR.orElse (AR.orElse _ _) fun _ => .noValue) = _
  rw [nv_orElse, nv_orElse]

theorem enc_mark {mark tag : Bytes} (h : Kind mark tag) (b : Bytes) : tableEnc (netFns w o) mark [] b = tagAbe w o tag mark b := by
  cases h <;> rfl

end

end Verif.Tpl
