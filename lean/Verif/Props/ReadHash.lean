import Verif.Lemmas.ReadHash
import Verif.Spec.ReadHash
import Verif.Props.Template
import Verif.Props.Votes
import Verif.Props.Fit
import Verif.Props.TreeQuery
/-!
# C75: packets read in expressions
-/
namespace Verif.Props
open Verif Verif.Ast Verif.Abl Verif.Abe Verif.Abtxt Verif.Num Verif.Fit Verif.Pkt Verif.Eval Verif.Env Verif.Repr Verif.Spec Verif.Tpl

/-! ## asking a packet -/

/-- What a packet can be askedRh for: fields, pages without further evaluation, links and arrival. -/
def askedRh : List Bytes := fieldNames ++ ["pkt-quick", "html-quick", "netbytes", "links", "link", "recv", "recv_now"].map ascii

theorem asked_self : ∀ n ∈ askedRh, n ≠ [] ∧ ∀ c ∈ n, Self c := by decide +kernel

theorem slice_value {α : Type} (l : List α) (args : List Bytes) : Abe.slice l args ≠ .noValue := by
  unfold Abe.slice
  simp only
  split
  · split
    · split <;> nofun
    · nofun
  · nofun

theorem inForm_value (a b c : Bytes) (i : List Bytes) : inForm a b c i ≠ .noValue := by
  unfold inForm
  simp only
  split
  · nofun
  · split
    · nofun
    · split <;> nofun

theorem table_hit {fns : List Fn} {id : Bytes} {f : Fn} (h : fns.find? (fun f => f.id == id) = some f) (top : Top) (args : List Bytes) (init : Bool)
    (hv : f.apply top args init ≠ .noValue) : tableFunc fns top id args init ≠ .noValue := by
  unfold tableFunc
  rw [h]
  simp only
  split
  · nofun
  · split
    · exact hv
    · nofun

def _root_.Verif.Abe.AR.ofNet : Except (Fault PktError) Segments → AR Bytes
  | .ok s => .value (Segments.bytes s)
  | .error _ => .abort

theorem asks_value (k : PktParams) (ev : Ev) (d : Dyn) (c : Ctx) (top : Top) {id : Bytes} (h : id ∈ askedRh) (args : List Bytes) :
    (pktScope k ev d c).func top id args true ≠ .noValue := by
  have field : ∀ e ∈ fieldTable, (pktScope k ev d c).func top e.1 args true ≠ .noValue := by
    intro e he
    rw [pktScope_field k ev d c top he]
    obtain ⟨f, hf, hid⟩ := fields_has k c.pkt he
    cases hx : (fieldFns k c.pkt).find? (fun f => f.id == e.1) with
    | none => exact absurd (List.find?_eq_none.1 hx f hf) (by simp [hid])
    | some g => exact table_hit hx top args true (fields_value k c.pkt top g (List.mem_of_find?_eq_some hx) args)
  have one : ∀ a b c' e : AR Bytes, (a ≠ .noValue ∨ b ≠ .noValue ∨ c' ≠ .noValue ∨ e ≠ .noValue) →
      AR.orElse (AR.orElse a fun _ => b) (fun _ => AR.orElse c' fun _ => e) ≠ .noValue := by
    intro a b c' e h
    cases a <;> cases b <;> cases c' <;> cases e <;> simp_all [AR.orElse]
  rcases List.mem_append.1 h with h | h
  · obtain ⟨e, he, rfl⟩ := List.mem_map.1 h
    exact field e he
  · show AR.orElse (AR.orElse (tableFunc (fieldFns k c.pkt) top id args true) fun _ => tableFunc (printFns k ev d c) top id args true)
      (fun _ => AR.orElse (tableFunc (selectFns c.pkt.getLinks) top id args true) fun _ => tableFunc (recvFns c) top id args true) ≠ _
    apply one
    simp only [List.map_cons, List.map_nil, List.mem_cons, List.not_mem_nil, or_false] at h
    rcases h with rfl | rfl | rfl | rfl | rfl | rfl | rfl
    · refine .inr (.inl (table_hit (f := { id := ascii "pkt-quick", lo := 0, hi := 2, init := some true, apply := fun _ i _ => quickFn k c i }) rfl top args true ?_))
      show quickFn k c args ≠ _
      unfold quickFn
      simp only
      split
      · nofun
      · cases toStr k.toConsts c.pkt c.recv _ _ <;> nofun
    · refine .inr (.inl (table_hit (f := { id := ascii "html-quick", lo := 0, hi := 0, init := some true, apply := fun _ _ _ => (toHtml k.toConsts c.pkt true).toAR }) rfl top args true ?_))
      show (toHtml k.toConsts c.pkt true).toAR ≠ _
      cases toHtml k.toConsts c.pkt true <;> nofun
    · refine .inr (.inl (table_hit (f := (printFns k ev d c).getLast (by simp [printFns])) rfl top args true ?_))
      show AR.ofNet (NetParts.segments top.dbg c.pkt) ≠ _
      cases NetParts.segments top.dbg c.pkt <;> nofun
    · refine .inr (.inr (.inl (table_hit (f := { id := ascii "links", lo := 0, hi := 4, init := some true, apply := fun _ i _ => linksFn c.pkt.getLinks i }) rfl top args true ?_)))
      show linksFn c.pkt.getLinks args ≠ _
      unfold linksFn
      have := slice_value c.pkt.getLinks (args.drop 1)
      revert this
      cases Abe.slice c.pkt.getLinks (args.drop 1) <;> simp
    · refine .inr (.inr (.inl (table_hit (f := (selectFns c.pkt.getLinks).getLast (by simp [selectFns])) rfl top args true ?_)))
      show AR.ofOption ((firstTailmask c.pkt.getLinks (args.headD [])).map (·.ptr)) ≠ _
      cases firstTailmask c.pkt.getLinks (args.headD []) <;> nofun
    · refine .inr (.inr (.inr (table_hit (f := { id := ascii "recv", lo := 0, hi := 1, init := some true, apply := fun _ i _ => stampForm (c.recv.getD c.now) i }) rfl top args true ?_)))
      exact inForm_value _ _ _ _
    · refine .inr (.inr (.inr (table_hit (f := (recvFns c).getLast (by simp [recvFns])) rfl top args true ?_)))
      simp only [recvFns, List.getLast]
      split
      · exact inForm_value _ _ _ _
      · nofun

theorem asks_same (k : PktParams) (ev ev' : Ev) (d d' : Dyn) (c : Ctx) (top top' : Top) (ht : top.dbg = top'.dbg) {id : Bytes} (h : id ∈ askedRh) (args : List Bytes) :
    (pktScope k ev d c).func top id args true = (pktScope k ev' d' c).func top' id args true := by
  have hf : tableFunc (fieldFns k c.pkt) top id args true = tableFunc (fieldFns k c.pkt) top' id args true := by
    unfold tableFunc
    cases hx : (fieldFns k c.pkt).find? (fun f => f.id == id) with
    | none => rfl
    | some g =>
      obtain ⟨e, -, rfl⟩ := List.mem_map.1 (List.mem_of_find?_eq_some hx)
      rfl
  have hp : tableFunc (printFns k ev d c) top id args true = tableFunc (printFns k ev' d' c) top' id args true := by
    rcases List.mem_append.1 h with h | h
    · have e1 : ∀ ev d, ids (printFns k ev d c) = ["pkt", "netpkt", "point", "pkt-quick", "html-quick", "netbytes"].map ascii := fun _ _ => rfl
      have e2 : id ∉ ["pkt", "netpkt", "point", "pkt-quick", "html-quick", "netbytes"].map ascii := by
        clear hf; revert id; decide +kernel
      rw [tableFunc_none (ids_ne (by rw [e1]; exact e2)), tableFunc_none (ids_ne (by rw [e1]; exact e2))]
    · simp only [List.map_cons, List.map_nil, List.mem_cons, List.not_mem_nil, or_false] at h
      obtain ⟨e, enc, db⟩ := top
      obtain ⟨e', enc', db'⟩ := top'
      cases ht
      rcases h with rfl | rfl | rfl | rfl | rfl | rfl | rfl <;> rfl
  have hs : tableFunc (selectFns c.pkt.getLinks) top id args true = tableFunc (selectFns c.pkt.getLinks) top' id args true := by
    unfold tableFunc
    cases hx : (selectFns c.pkt.getLinks).find? (fun f => f.id == id) with
    | none => rfl
    | some g =>
      have := List.mem_of_find?_eq_some hx
      simp only [selectFns, List.mem_cons, List.not_mem_nil, or_false] at this
      rcases this with rfl | rfl <;> rfl
  have hr : tableFunc (recvFns c) top id args true = tableFunc (recvFns c) top' id args true := by
    unfold tableFunc
    cases hx : (recvFns c).find? (fun f => f.id == id) with
    | none => rfl
    | some g =>
      have := List.mem_of_find?_eq_some hx
      simp only [recvFns, List.mem_cons, List.not_mem_nil, or_false] at this
      rcases this with rfl | rfl <;> rfl
  show AR.orElse (AR.orElse (tableFunc (fieldFns k c.pkt) top id args true) fun _ => tableFunc (printFns k ev d c) top id args true)
      (fun _ => AR.orElse (tableFunc (selectFns c.pkt.getLinks) top id args true) fun _ => tableFunc (recvFns c) top id args true) = _
  rw [hf, hp, hs, hr]; rfl

/-- A packet in front answers what it is askedRh. -/
theorem front_asks (dbg : Bool) (k : PktParams) (base : Ev → Dyn → Scope) (n : Nat) (c : Ctx) {id : Bytes} (h : id ∈ askedRh) (args : List Bytes) (hl : args.length ≤ 15)
    (ev : Ev) (d : Dyn) (top : Top) (ht : top.dbg = dbg) :
    lkEvalPkt dbg k base (n + 1) c (callText id args) =
      match (pktScope k ev d c).func top id args true with
      | .value b => .ok b
      | .abort => .abort
      | _ => .err := by
  have hn := asked_self id h
  have h1 : lkEvalPkt dbg k base (n + 1) c (callText id args) = evalText dbg k base (n + 1) ⟨[.pkt c], []⟩ (callText id args) := rfl
  rw [h1, callText_args id args dbg k base n ⟨[.pkt c], []⟩ hn.1 (callText_text hn args) hl, call_ar]
  have h2 : (denote k base (evalD dbg k base n) ⟨[.pkt c], []⟩).func
      ⟨evalD dbg k base n ⟨[.pkt c], []⟩, (denote k base (evalD dbg k base n) ⟨[.pkt c], []⟩).enc, dbg⟩ id args true =
      (pktScope k ev d c).func top id args true := by
    show AR.orElse ((pktScope k _ ⟨[.pkt c], []⟩ c).func _ id args true) _ = _
    rw [asks_same k _ ev ⟨[.pkt c], []⟩ d c _ top (by exact ht.symm) h args]
    have := asks_value k ev d c top h args
    revert this
    cases (pktScope k ev d c).func top id args true <;> simp [AR.orElse]
  rw [h2]
  cases (pktScope k ev d c).func top id args true <;> rfl

theorem ok_table {name : Bytes} {f : Form} (hf : okField name f) : ∃ e ∈ fieldTable, e.1 = name := by
  cases f <;> (simp only [okField, decide_eq_true_eq] at hf; revert name; decide +kernel)

theorem ok_asked {name : Bytes} {f : Form} (hf : okField name f) : name ∈ askedRh := by
  obtain ⟨e, he, rfl⟩ := ok_table hf
  exact List.mem_append_left _ (List.mem_map_of_mem he)

theorem pkt_field_func (k : PktParams) (ev : Ev) (d : Dyn) (c : Ctx) (top : Top) {name : Bytes} {f : Form} (hf : okField name f) :
    (pktScope k ev d c).func top name (formArgs f) true = tableFunc (fieldFns k c.pkt) top name (formArgs f) true := by
  obtain ⟨e, he, rfl⟩ := ok_table hf
  exact pktScope_field k ev d c top he _

section
variable {p : Params} {names : Ev → Dyn → Scope} {files : Scope} {en : Bool} {o : Outside} (k : PktParams)

/-- The scopes of names and files do not take the names used here: those of packets and links, `read` and `readhash`. -/
def Apart (names : Ev → Dyn → Scope) (files : Scope) : Prop :=
  (∀ ev d, Mute (readNames ++ frameNames) (names ev d)) ∧ Mute (readNames ++ frameNames) files

theorem mute_left {a b : List Bytes} {sc : Scope} (h : Mute (a ++ b) sc) : Mute a sc := fun top id hid => h top id (List.mem_append_left _ hid)
theorem Apart.n (ha : Apart names files) (ev : Ev) (d : Dyn) : Mute readNames (names ev d) := mute_left (ha.1 ev d)
theorem Apart.f (ha : Apart names files) : Mute readNames files := mute_left ha.2

theorem read_self : ∀ n ∈ readNames, n ≠ [] ∧ ∀ c ∈ n, Self c := by decide +kernel

theorem fit_self (h : Bytes) (hl : h.length = 32) : fit 32 h = some h :=
  (fit_exact 32 h h).2 ⟨rfl, hl⟩

/-- A stored point is what its hash reads. -/
theorem stored_read (hc : Spec.Consistent o.db) {i : Nat} {pkt : NetParts} (hm : (i, pkt) ∈ o.db.log) : o.db.read pkt.hash = some (i, pkt) :=
  (read_hash_iff hc pkt.hash i pkt).2 ⟨hm, rfl⟩

theorem readhash_table (ev : Ev) (d : Dyn) (top : Top) (inp : List Bytes) (init : Bool) (h1 : 1 ≤ inp.length) (h2 : inp.length ≤ 16) :
    tableFunc (readFns k ev d o) top (ascii "readhash") inp init = readhashFn k ev d o top inp := by
  have : (readFns k ev d o).find? (fun f => f.id == ascii "readhash") = some ((readFns k ev d o).head (by simp [readFns])) := rfl
  unfold tableFunc
  rw [this]
  show (if 1 ≤ inp.length ∧ inp.length ≤ 16 then _ else _) = _
  rw [if_pos ⟨h1, h2⟩]
  rfl

/-- `[readhash:HASH:f:args]` says what `[f:args]` says of the point with this hash, whatever packet is at hand. -/
theorem readhash_asks (ha : Apart names files) (hc : Spec.Consistent o.db) {i : Nat} {pkt : NetParts} (hm : (i, pkt) ∈ o.db.log)
    (hl : pkt.hash.length = 32) {id : Bytes} (h : id ∈ askedRh) (args : List Bytes) (hargs : args.length ≤ 13) (dbg : Bool) (n : Nat) (d : Dyn) :
    evalText dbg k (lkBase k p names files en o) (n + 1) d (callText (ascii "readhash") (pkt.hash :: id :: args)) =
      lkEvalPkt dbg k (lkBase k p names files en o) (n + 1) ⟨pkt, none, o.now⟩ (callText id args) := by
  have hn := read_self (ascii "readhash") (by simp [readNames])
  rw [callText_args _ _ dbg k _ n d hn.1 (callText_text hn _) (by simp; omega), call_ar, denote_read ha.n ha.f _ _ _ (by simp [readNames])]
  rw [readhash_table k _ _ _ _ _ (by simp) (by simp; omega), front_asks dbg k _ n ⟨pkt, none, o.now⟩ h args (by omega) (evalD dbg k (lkBase k p names files en o) n) d
    ⟨evalD dbg k (lkBase k p names files en o) n d, (denote k (lkBase k p names files en o) (evalD dbg k (lkBase k p names files en o) n) d).enc, dbg⟩ rfl]
  unfold readhashFn
  simp only [List.headD_cons, fit_self _ hl, stored_read hc hm, List.drop_succ_cons, List.drop_zero]
  cases (pktScope k _ d ⟨pkt, none, o.now⟩).func _ id args true <;> rfl

/-- The fields of a stored point, by its hash. -/
theorem readhash_field (ha : Apart names files) (hc : Spec.Consistent o.db) (s : Shown) (hm : Stored o.db s) {name : Bytes} {f : Form} (hf : okField name f)
    (dbg : Bool) (n : Nat) (d : Dyn) : ∃ v, evalText dbg k (lkBase k p names files en o) (n + 1) d (callText (ascii "readhash") (s.hash :: name :: formArgs f)) = .ok v ∧
      s.Field name f v := by
  obtain ⟨i, hm⟩ := hm
  have hn : name ∈ askedRh := ok_asked hf
  have hl : (formArgs f).length ≤ 1 := by cases f <;> simp [formArgs]
  obtain ⟨v, hv, hs⟩ := ok_field s k hf ⟨fun _ => .err, fun _ _ _ => .err, dbg⟩
  refine ⟨v, ?_, hs⟩
  have := readhash_asks k (p := p) (en := en) ha hc hm s.hashLen hn (formArgs f) (by omega) dbg n d
  rw [show s.pkt.hash = s.hash from rfl] at this
  rw [this, front_asks dbg k _ n _ hn _ (by omega) (evalD dbg k (lkBase k p names files en o) n) d ⟨fun _ => .err, fun _ _ _ => .err, dbg⟩ rfl, pkt_field_func k _ _ _ _ hf, hv]

/-! ## hashes from expressions -/

theorem abeText_append {a b : Bytes} {x y : List ABE} (ha : AbeText a x) (hb : AbeText b y) (hn : NoBytesHead y) : AbeText (a ++ b) (x ++ y) := by
  induction ha with
  | nil => exact hb
  | colon _ ih => exact .colon ih
  | fslash _ ih => exact .fslash ih
  | lst h1 _ _ ih =>
    have := AbeText.lst h1 ih
    simpa using this
  | @bytes w b s t hw hb0 hn0 _ ih =>
    rw [List.append_assoc]
    refine .bytes hw hb0 ?_ ih
    cases t with
    | nil => exact hn
    | cons e t => cases e <;> first | exact hn0 | trivial

theorem tailText_text (args : List Bytes) : AbeText (tailText args) (argsOf (args.map lit)) ∧ NoBytesHead (argsOf (args.map lit)) := by
  induction args with
  | nil => exact ⟨.nil, trivial⟩
  | cons a as ih =>
    refine ⟨?_, trivial⟩
    have := AbeText.colon (lit_text (t := a) ih.2 ih.1)
    simpa [tailText, argsOf, ascii] using this

theorem lit_arg (sc : Scope) (top : Top) (t : Bytes) : Arg sc top (lit t) t := by
  unfold lit
  split
  · rename_i e; subst e; exact .nil
  · have := Arg.bytes (sc := sc) (top := top) (b := t) .nil
    simpa using this

theorem lit_args (sc : Scope) (top : Top) (ts : List Bytes) : Args sc top (ts.map lit) ts := by
  induction ts with
  | nil => exact .nil
  | cons t ts ih => exact .cons (lit_arg sc top t) ih

theorem word_text {w : Bytes} (hw : w ≠ [] ∧ ∀ c ∈ w, Self c) {r : Bytes} {es : List ABE} (hr : AbeText r es) (hn : NoBytesHead es) :
    AbeText (w ++ r) (.bytes w :: es) := .bytes (spells_self w hw.2) hw.1 hn hr

def topD (dbg : Bool) (k : PktParams) (base : Ev → Dyn → Scope) (n : Nat) (d : Dyn) : Top :=
  ⟨evalD dbg k base n d, (denote k base (evalD dbg k base n) d).enc, dbg⟩

theorem evalText_br {dbg : Bool} {k : PktParams} {base : Ev → Dyn → Scope} {n : Nat} {d : Dyn} {t : Bytes} {l : List ABE} (ht : AbeText t [.lst l]) {out : Bytes}
    (h : Br (denote k base (evalD dbg k base n) d) (topD dbg k base n d) l out) : evalText dbg k base (n + 1) d t = .ok out := by
  have hp : parseStrict t = .ok _ := parse_of_text ht false
  unfold evalText
  rw [hp]
  show ER.map _ ((evalItems (denote k base (evalD dbg k base n) d) (topD dbg k base n d) [_]).map fromItems) = _
  rw [evalItems, (bracket_value_iff l out).2 h]
  simp [ER.map, ER.bind, evalItems, fromItems, push, pushBytes, concat, asStr]

theorem arg_of_text {dbg : Bool} {k : PktParams} {base : Ev → Dyn → Scope} {n : Nat} {d : Dyn} {t : Bytes} {es : List ABE} (ht : AbeText t es) (hp : ∀ e ∈ es, IsPart e)
    {v : Bytes} (h : evalText dbg k base (n + 1) d t = .ok v) : Arg (denote k base (evalD dbg k base n) d) (topD dbg k base n d) es v := by
  have hq : parseStrict t = .ok _ := parse_of_text ht false
  unfold evalText at h
  rw [hq] at h
  obtain ⟨l, h1, h2⟩ := ER.map_ok.1 h
  have h1 : (evalItems (denote k base (evalD dbg k base n) d) (topD dbg k base n d) es).map fromItems = .ok l := h1
  obtain ⟨is, h3, h4⟩ := ER.map_ok.1 h1
  obtain ⟨us, rfl, h5, -⟩ := items_arg hp h3
  rw [fromItems_bytes] at h4
  have hv : us.flatten = v := by
    rw [← h2, ← h4]
    split
    · rename_i e; subst e; rfl
    · simp [concat, asStr]
  rw [← hv]
  exact arg_iff.2 (argV_mono h5 fun k u _ hk => (bracket_value_iff k u).1 hk)

/-- The texts a hash may be given by: parts next to each other without `:` or `/` outside of brackets, with this value. -/
def HashExpr (dbg : Bool) (k : PktParams) (base : Ev → Dyn → Scope) (n : Nat) (d : Dyn) (t v : Bytes) : Prop :=
  (∃ es, AbeText t es ∧ ∀ e ∈ es, IsPart e) ∧ evalText dbg k base n d t = .ok v

theorem front_value {dbg : Bool} {k : PktParams} {base : Ev → Dyn → Scope} {n : Nat} {c : Ctx} {id : Bytes} (h : id ∈ askedRh) {args : List Bytes} (hl : args.length ≤ 15)
    (ev : Ev) (d : Dyn) (top : Top) (ht : top.dbg = dbg) {v : Bytes} (hv : lkEvalPkt dbg k base (n + 1) c (callText id args) = .ok v) :
    (pktScope k ev d c).func top id args true = .value v := by
  rw [front_asks dbg k base n c h args hl ev d top ht] at hv
  revert hv
  cases (pktScope k ev d c).func top id args true <;> simp

theorem readhash_value (ha : Apart names files) (hc : Spec.Consistent o.db) {i : Nat} {pkt : NetParts} (hm : (i, pkt) ∈ o.db.log)
    (hl : pkt.hash.length = 32) {id : Bytes} (h : id ∈ askedRh) {args : List Bytes} (hargs : args.length ≤ 13) (dbg : Bool) (n : Nat) (d : Dyn) (init : Bool) {v : Bytes}
    {base : Ev → Dyn → Scope} {m : Nat} (hv : lkEvalPkt dbg k base (m + 1) ⟨pkt, none, o.now⟩ (callText id args) = .ok v) :
    (denote k (lkBase k p names files en o) (evalD dbg k (lkBase k p names files en o) n) d).func (topD dbg k (lkBase k p names files en o) n d)
      (ascii "readhash") (pkt.hash :: id :: args) init = .value v := by
  rw [denote_read ha.n ha.f _ _ _ (by simp [readNames]), readhash_table k _ _ _ _ _ (by simp) (by simp; omega)]
  unfold readhashFn
  simp only [List.headD_cons, fit_self _ hl, stored_read hc hm, List.drop_succ_cons, List.drop_zero]
  exact front_value h (by omega) _ _ _ rfl hv

/-- The hash may be any expression for it: a literal, `[b:..]`, `[link:tag]`, another `[readhash:..]`, .. -/
theorem readhash_expr (ha : Apart names files) (hc : Spec.Consistent o.db) {i : Nat} {pkt : NetParts} (hm : (i, pkt) ∈ o.db.log)
    (hl : pkt.hash.length = 32) {id : Bytes} (h : id ∈ askedRh) {args : List Bytes} (hargs : args.length ≤ 13) {dbg : Bool} {n : Nat} {d : Dyn} {t v : Bytes}
    (ht : HashExpr dbg k (lkBase k p names files en o) (n + 1) d t pkt.hash)
    {base : Ev → Dyn → Scope} {m : Nat} (hv : lkEvalPkt dbg k base (m + 1) ⟨pkt, none, o.now⟩ (callText id args) = .ok v) :
    HashExpr dbg k (lkBase k p names files en o) (n + 1) d (hashText t (id :: args)) v := by
  obtain ⟨⟨es, h1, h2⟩, h3⟩ := ht
  have hn := read_self (ascii "readhash") (by simp [readNames])
  obtain ⟨t1, t2⟩ := tailText_text (id :: args)
  have e1 : AbeText (hashText t (id :: args)) [.lst (.bytes (ascii "readhash") :: [] ++ argsOf (es :: (id :: args).map lit) ++ callsOf [])] := by
    have := AbeText.lst (word_text hn (.colon (abeText_append h1 t1 t2)) trivial) .nil
    simpa [hashText, argsOf, callsOf, ascii] using this
  refine ⟨⟨_, e1, by intro e he; simp at he; subst he; trivial⟩, evalText_br e1 ?_⟩
  refine Br.call (i := ascii "readhash") (vs := pkt.hash :: id :: args) (r := v) ?_ (by simp) (.cons (arg_of_text h1 h2 h3) (lit_args _ _ _)) (by simp; omega) ?_ .done
  · have := Arg.bytes (sc := denote k (lkBase k p names files en o) (evalD dbg k (lkBase k p names files en o) n) d) (top := topD dbg k (lkBase k p names files en o) n d)
      (b := ascii "readhash") .nil
    simpa using this
  · exact readhash_value k ha hc hm hl h hargs dbg n d true hv

/-! ## following links -/

theorem link_value {s : Shown} {suffix : Bytes} {l : Link} (h : s.FirstLink suffix l) (dbg : Bool) (k : PktParams) (base : Ev → Dyn → Scope) (n : Nat)
    (recv : Option Nat) (now : Nat) : lkEvalPkt dbg k base (n + 1) ⟨s.pkt, recv, now⟩ (callText (ascii "link") [suffix]) = .ok l.ptr := by
  obtain ⟨a, b, h1, h2, h3⟩ := h
  exact link_first s dbg k base n recv now suffix a l b h1 h2 h3

theorem field_value (s : Shown) {name : Bytes} {f : Form} (hf : okField name f) (dbg : Bool) (k : PktParams) (base : Ev → Dyn → Scope) (n : Nat)
    (recv : Option Nat) (now : Nat) : ∃ v, lkEvalPkt dbg k base (n + 1) ⟨s.pkt, recv, now⟩ (callText name (formArgs f)) = .ok v ∧ s.Field name f v := by
  have hl : (formArgs f).length ≤ 1 := by cases f <;> simp [formArgs]
  obtain ⟨v, hv, hs⟩ := ok_field s k hf ⟨fun _ => .err, fun _ _ _ => .err, dbg⟩
  refine ⟨v, ?_, hs⟩
  rw [front_asks dbg k _ n _ (ok_asked hf) _ (by omega) (fun _ _ => .err) ⟨[], []⟩ ⟨fun _ => .err, fun _ _ _ => .err, dbg⟩ rfl, pkt_field_func k _ _ _ _ hf, hv]

theorem self_abtxt {w : Bytes} (h : ∀ c ∈ w, Self c) : AbeText w (lit w) := by
  unfold lit
  split
  · rename_i e; subst e; exact .nil
  · have := AbeText.bytes (spells_self w h) ‹_› (t := []) trivial .nil
    simpa using this

/-- The calls of a path, after the first link. -/
def pathCalls (ts : List Bytes) (name : Bytes) (f : Form) : List (List ABE × List (List ABE)) :=
  ts.map (fun t => (lit (ascii "readhash"), [ascii "link", t].map lit)) ++ [(lit (ascii "readhash"), (name :: formArgs f).map lit)]

theorem pathCalls_text (ts : List Bytes) {name : Bytes} {f : Form} (hf : okField name f) :
    AbeText (ts.flatMap (fun t => ascii "/readhash:link:" ++ asAbtxt t) ++ (ascii "/readhash:" ++ name ++ f.text)) (callsOf (pathCalls ts name f)) ∧
      NoBytesHead (callsOf (pathCalls ts name f)) := by
  have hn := read_self (ascii "readhash") (by simp [readNames])
  have hw := ok_name hf
  induction ts with
  | nil =>
    refine ⟨?_, trivial⟩
    have h1 : AbeText f.text (argsOf ((formArgs f).map lit)) ∧ NoBytesHead (argsOf ((formArgs f).map lit)) := by
      cases f with
      | raw => exact ⟨.nil, trivial⟩
      | str => exact ⟨.colon (self_abtxt (by decide +kernel)), trivial⟩
      | abe => exact ⟨.colon (self_abtxt (by decide +kernel)), trivial⟩
    have := AbeText.fslash (word_text hn (.colon (word_text hw h1.1 h1.2)) trivial)
    simpa [pathCalls, callsOf, argsOf, ascii, lit, hw.1] using this
  | cons t ts ih =>
    refine ⟨?_, trivial⟩
    have hk : ascii "link" ≠ [] ∧ ∀ c ∈ ascii "link", Self c := ⟨by decide +kernel, by decide +kernel⟩
    have := AbeText.fslash (word_text hn (.colon (word_text hk (.colon (lit_text (t := t) ih.2 ih.1)) trivial)) trivial)
    simpa [pathCalls, callsOf, argsOf, ascii, lit] using this

theorem link_asked : ascii "link" ∈ askedRh := by decide +kernel

/-- `[link:a/readhash:link:b/readhash:f]`, for any number of links: the field of the point at the end of the path. -/
theorem path_field (ha : Apart names files) (hc : Spec.Consistent o.db) {s u : Shown} {t : Bytes} {ts : List Bytes} (hp : LinkPath o.db s (t :: ts) u)
    {name : Bytes} {f : Form} (hf : okField name f) (dbg : Bool) (n : Nat) (recv : Option Nat) (now : Nat) :
    ∃ v, lkEvalPkt dbg k (lkBase k p names files en o) (n + 1) ⟨s.pkt, recv, now⟩ (pathText t ts name f) = .ok v ∧ u.Field name f v := by
  have hfa : (formArgs f).length ≤ 1 := by cases f <;> simp [formArgs]
  have hrun : ∀ (ts : List Bytes) (s : Shown), Stored o.db s → LinkPath o.db s ts u → ∀ d, ∃ v,
      Calls (denote k (lkBase k p names files en o) (evalD dbg k (lkBase k p names files en o) n) d) (topD dbg k (lkBase k p names files en o) n d) s.hash
        (pathCalls ts name f) v ∧ u.Field name f v := by
    intro ts
    induction ts with
    | nil =>
      intro s ⟨i, hm⟩ hp d
      cases hp
      obtain ⟨v, hv, hs⟩ := field_value u hf dbg k (lkBase k p names files en o) n none o.now
      refine ⟨v, .call (lit_arg _ _ _) (lit_args _ _ _) (by simp; omega) ?_ .done, hs⟩
      exact readhash_value k ha hc hm u.hashLen (ok_asked hf) (by omega) dbg n d false hv
    | cons t ts ih =>
      intro s ⟨i, hm⟩ hp d
      cases hp with
      | cons hl hst hptr hp =>
        rename_i q l
        obtain ⟨v, hv, hs⟩ := ih _ hst hp d
        have hl := link_value hl dbg k (lkBase k p names files en o) n none o.now
        refine ⟨v, .call (lit_arg _ _ _) (lit_args _ _ _) (by simp) (readhash_value k ha hc hm s.hashLen link_asked (by simp) dbg n d false hl) ?_, hs⟩
        rw [hptr]; exact hv
  cases hp with
  | cons hl hst hptr hp =>
    rename_i q l
    obtain ⟨v, hv, hs⟩ := hrun ts q hst hp ⟨[.pkt ⟨s.pkt, recv, now⟩], []⟩
    refine ⟨v, ?_, hs⟩
    have hk : ascii "link" ≠ [] ∧ ∀ c ∈ ascii "link", Self c := ⟨by decide +kernel, by decide +kernel⟩
    obtain ⟨t1, t2⟩ := pathCalls_text ts hf
    have e1 : AbeText (pathText t ts name f) [.lst (.bytes (ascii "link") :: [] ++ argsOf [lit t] ++ callsOf (pathCalls ts name f))] := by
      have := AbeText.lst (word_text hk (.colon (lit_text (t := t) t2 t1)) trivial) .nil
      simpa [pathText, argsOf, ascii] using this
    refine evalText_br (d := ⟨[.pkt ⟨s.pkt, recv, now⟩], []⟩) e1 ?_
    refine Br.call (i := ascii "link") (vs := [t]) (r := l.ptr) ?_ (by simp) (.cons (lit_arg _ _ _) .nil) (by simp) ?_ (by rw [hptr]; exact hv)
    · have := Arg.bytes (sc := denote k (lkBase k p names files en o) (evalD dbg k (lkBase k p names files en o) n) ⟨[.pkt ⟨s.pkt, recv, now⟩], []⟩)
        (top := topD dbg k (lkBase k p names files en o) n ⟨[.pkt ⟨s.pkt, recv, now⟩], []⟩) (b := ascii "link") .nil
      simpa using this
    · have := front_value link_asked (by simp) (evalD dbg k (lkBase k p names files en o) n) ⟨[.pkt ⟨s.pkt, recv, now⟩], []⟩
        (topD dbg k (lkBase k p names files en o) n ⟨[.pkt ⟨s.pkt, recv, now⟩], []⟩) rfl (link_value hl dbg k (lkBase k p names files en o) n recv now)
      show AR.orElse ((pktScope k _ ⟨[.pkt ⟨s.pkt, recv, now⟩], []⟩ ⟨s.pkt, recv, now⟩).func _ (ascii "link") [t] true) _ = _
      rw [this]; rfl

/-! ## points that are not there -/

/-- A hash without a stored point, and what is no hash, is an error. -/
theorem readhash_missing (ha : Apart names files) (hc : Spec.Consistent o.db) {h : Bytes} (hm : h.length ≠ 32 ∨ ∀ e ∈ o.db.log, e.2.hash ≠ h)
    (args : List Bytes) (hargs : args.length ≤ 14) (dbg : Bool) (n : Nat) (d : Dyn) :
    evalText dbg k (lkBase k p names files en o) (n + 1) d (callText (ascii "readhash") (h :: args)) = .err := by
  have hn := read_self (ascii "readhash") (by simp [readNames])
  rw [callText_args _ _ dbg k _ n d hn.1 (callText_text hn _) (by simp; omega), call_ar, denote_read ha.n ha.f _ _ _ (by simp [readNames]),
    readhash_table k _ _ _ _ _ (by simp) (by simp; omega)]
  unfold readhashFn
  rw [List.headD_cons]
  by_cases hl : h.length = 32
  · rw [fit_self _ hl]
    simp only
    cases hr : o.db.read h with
    | none => rfl
    | some e =>
      obtain ⟨h1, h2⟩ := (read_hash_iff hc h e.1 e.2).1 hr
      rcases hm with hm | hm
      · exact absurd hl hm
      · exact absurd h2 (hm _ h1)
  · cases hx : fit 32 h with
    | none => rfl
    | some x => exact absurd ((fit_exact 32 h x).1 hx).2 hl

/-- Without more, `[readhash:HASH]` is `[readhash:HASH:pkt]`. -/
theorem readhash_pkt (ha : Apart names files) (h : Bytes) (dbg : Bool) (n : Nat) (d : Dyn) :
    evalText dbg k (lkBase k p names files en o) (n + 1) d (callText (ascii "readhash") [h]) =
      evalText dbg k (lkBase k p names files en o) (n + 1) d (callText (ascii "readhash") [h, ascii "pkt"]) := by
  have hn := read_self (ascii "readhash") (by simp [readNames])
  rw [callText_args _ _ dbg k _ n d hn.1 (callText_text hn _) (by simp), call_ar, denote_read ha.n ha.f _ _ _ (by simp [readNames]),
    readhash_table k _ _ _ _ _ (by simp) (by simp)]
  rw [callText_args _ _ dbg k _ n d hn.1 (callText_text hn _) (by simp), call_ar, denote_read ha.n ha.f _ _ _ (by simp [readNames]),
    readhash_table k _ _ _ _ _ (by simp) (by simp)]
  rfl

/-! ## templates for a point -/

/-- Texts that hold no `:` outside of brackets. -/
def NoColon (t : Bytes) : Prop := ∃ es, AbeText t es ∧ ∀ e ∈ es, e ≠ .ctr .colon

theorem isColon_false {e : ABE} (h : e ≠ .ctr .colon) : isColon e = false := by
  cases e with
  | ctr c => cases c <;> first | rfl | exact absurd rfl h
  | bytes b => rfl
  | lst l => rfl

theorem split_one {es : List ABE} (h : ∀ e ∈ es, e ≠ .ctr .colon) : splitBy isColon es = [es] := by
  induction es with
  | nil => rfl
  | cons e es ih => rw [splitBy, isColon_false (h e (by simp)), ih fun x hx => h x (by simp [hx])]; rfl

theorem split_next {es r : List ABE} (h : ∀ e ∈ es, e ≠ .ctr .colon) : splitBy isColon (es ++ .ctr .colon :: r) = es :: splitBy isColon r := by
  induction es with
  | nil => rfl
  | cons e es ih => rw [List.cons_append, splitBy, isColon_false (h e (by simp)), ih fun x hx => h x (by simp [hx])]; rfl

theorem split_args (xss : List (List ABE)) (h : ∀ xs ∈ xss, ∀ e ∈ xs, e ≠ .ctr .colon) : splitBy isColon (argsOf xss) = [] :: xss := by
  have : ∀ (es : List ABE) (xss : List (List ABE)), (∀ e ∈ es, e ≠ .ctr .colon) → (∀ xs ∈ xss, ∀ e ∈ xs, e ≠ .ctr .colon) →
      splitBy isColon (es ++ argsOf xss) = es :: xss := by
    intro es xss
    induction xss generalizing es with
    | nil => intro h _; rw [argsOf, List.flatMap_nil, List.append_nil, split_one h]
    | cons x xss ih =>
      intro h1 h2
      have : es ++ argsOf (x :: xss) = es ++ .ctr .colon :: (x ++ argsOf xss) := rfl
      rw [this, split_next h1, ih x (h2 x (by simp)) fun y hy => h2 y (by simp [hy])]
  exact this [] xss (by simp) h

theorem args_text {xs : List Bytes} (h : ∀ x ∈ xs, NoColon x) : ∃ xss : List (List ABE), AbeText (xs.flatMap fun x => ascii ":" ++ x) (argsOf xss) ∧ NoBytesHead (argsOf xss) ∧
    (∀ x ∈ xss, ∀ e ∈ x, e ≠ .ctr .colon) ∧ xss.map Except.ok = xs.map parseStrict := by
  induction xs with
  | nil => exact ⟨[], .nil, trivial, by simp, rfl⟩
  | cons x xs ih =>
    obtain ⟨xss, h1, h2, h3, h4⟩ := ih fun y hy => h y (by simp [hy])
    obtain ⟨es, e1, e2⟩ := h x (by simp)
    refine ⟨es :: xss, ?_, trivial, ?_, ?_⟩
    · have := AbeText.colon (abeText_append e1 h1 h2)
      simpa [argsOf, ascii] using this
    · intro y hy; rcases List.mem_cons.1 hy with rfl | hy
      · exact e2
      · exact h3 y hy
    · have : parseStrict x = .ok es := parse_of_text e1 false
      simp [h4, this]

/-- What the macro makes of its texts. -/
theorem macro_eval (ha : Apart names files) {h : Bytes} {xs : List Bytes} (hh : NoColon h) (hx : ∀ x ∈ xs, NoColon x) (dbg : Bool) (n : Nat) (d : Dyn) :
    ∃ es xss, parseStrict h = .ok es ∧ xss.map Except.ok = xs.map parseStrict ∧ (∀ y ∈ es :: xss, ∀ e ∈ y, e ≠ .ctr .colon) ∧
      evalText dbg k (lkBase k p names files en o) (n + 1) d (macText h xs) =
        match readMac (evalD dbg k (lkBase k p names files en o) n) d o (argsOf (es :: xss)) with
        | .value b => .ok b
        | .abort => .abort
        | _ => .err := by
  obtain ⟨xss, t1, t2, t3, t4⟩ := args_text hx
  obtain ⟨es, e1, e2⟩ := hh
  have hn := read_self (ascii "readhash") (by simp [readNames])
  refine ⟨es, xss, parse_of_text e1 false, t4, ?_, ?_⟩
  · intro y hy; rcases List.mem_cons.1 hy with rfl | hy
    · exact e2
    · exact t3 y hy
  have ht : AbeText (macText h xs) [.lst (.ctr .fslash :: .bytes (ascii "readhash") :: argsOf (es :: xss))] := by
    have := AbeText.lst (.fslash (word_text hn (.colon (abeText_append e1 t1 t2)) trivial)) .nil
    simpa [macText, argsOf, ascii] using this
  have hp : parseStrict (macText h xs) = .ok _ := parse_of_text ht false
  unfold evalText
  rw [hp]
  show ER.map _ ((evalItems (denote k (lkBase k p names files en o) (evalD dbg k (lkBase k p names files en o) n) d) (topD dbg k (lkBase k p names files en o) n d) [_]).map fromItems) = _
  rw [evalItems, matchExpr]
  simp only [shape]
  show ER.map _ (ER.map _ ((ER.map _ (macroCall.run _ _ (ascii "readhash") (argsOf (es :: xss)))).bind _)) = _
  unfold macroCall.run
  rw [denote_readmac ha.n ha.f]
  cases readMac (evalD dbg k (lkBase k p names files en o) n) d o (argsOf (es :: xss)) <;>
    simp [ER.map, ER.bind, evalItems, fromItems, push, pushBytes, concat, asStr]

theorem evalText_parse {dbg : Bool} {k : PktParams} {base : Ev → Dyn → Scope} {n : Nat} {d : Dyn} {t : Bytes} {es : List ABE} (h : parseStrict t = .ok es) :
    evalText dbg k base n d t = (evalD dbg k base n d es).map concat := by
  unfold evalText; rw [h]

/-- With the point stored, the macro evaluates the first text with the point behind the scope; more texts are not looked at. -/
theorem macro_found (ha : Apart names files) (hc : Spec.Consistent o.db) {i : Nat} {pkt : NetParts} (hm : (i, pkt) ∈ o.db.log)
    (hl : pkt.hash.length = 32) {h x : Bytes} {xs : List Bytes} (hh : NoColon h) (hx : NoColon x) (hxs : ∀ x ∈ xs, NoColon x) (dbg : Bool) (n : Nat) (d : Dyn)
    (he : evalText dbg k (lkBase k p names files en o) n d h = .ok pkt.hash) :
    evalText dbg k (lkBase k p names files en o) (n + 1) d (macText h (x :: xs)) =
      evalText dbg k (lkBase k p names files en o) n { d with post := d.post ++ [.pkt ⟨pkt, some i, o.now⟩] } x := by
  obtain ⟨es, xss, h1, h2, h3, h4⟩ := macro_eval k (p := p) (en := en) (o := o) ha hh (xs := x :: xs) (by
    intro y hy; rcases List.mem_cons.1 hy with rfl | hy
    · exact hx
    · exact hxs y hy) dbg n d
  rw [h4]
  rw [evalText_parse h1] at he
  cases xss with
  | nil => simp at h2
  | cons y ys =>
    simp only [List.map_cons, List.cons.injEq] at h2
    unfold readMac
    rw [split_args _ h3]
    simp only
    rw [he]
    simp only [ER.bind, fit_self _ hl, stored_read hc hm]
    rw [evalText_parse h2.1.symm]
    cases (evalD dbg k (lkBase k p names files en o) n _ y).map concat <;> rfl

/-- Without the point, the value is that of the second text, and only if there is a third. -/
theorem macro_missing (ha : Apart names files) (hc : Spec.Consistent o.db) {v : Bytes} (hm : ∀ e ∈ o.db.log, e.2.hash ≠ v) (hl : v.length = 32)
    {h x : Bytes} {xs : List Bytes} (hh : NoColon h) (hx : NoColon x) (hxs : ∀ x ∈ xs, NoColon x) (dbg : Bool) (n : Nat) (d : Dyn)
    (he : evalText dbg k (lkBase k p names files en o) n d h = .ok v) :
    evalText dbg k (lkBase k p names files en o) (n + 1) d (macText h (x :: xs)) =
      if 2 ≤ xs.length then evalText dbg k (lkBase k p names files en o) n d (xs.headD []) else .err := by
  obtain ⟨es, xss, h1, h2, h3, h4⟩ := macro_eval k (p := p) (en := en) (o := o) ha hh (xs := x :: xs) (by
    intro y hy; rcases List.mem_cons.1 hy with rfl | hy
    · exact hx
    · exact hxs y hy) dbg n d
  rw [h4]
  rw [evalText_parse h1] at he
  have hr : o.db.read v = none := by
    cases hr : o.db.read v with
    | none => rfl
    | some e =>
      obtain ⟨h1, h2⟩ := (read_hash_iff hc v e.1 e.2).1 hr
      exact absurd h2 (hm _ h1)
  cases xss with
  | nil => simp at h2
  | cons y ys =>
    simp only [List.map_cons, List.cons.injEq] at h2
    unfold readMac
    rw [split_args _ h3]
    simp only
    rw [he]
    simp only [ER.bind, fit_self _ hl, hr]
    have hlen : ys.length = xs.length := by have := congrArg List.length h2.2; simpa using this
    match ys, xs, h2.2, hlen with
    | [], [], _, _ => rfl
    | [a], [b], _, _ => rfl
    | a :: a' :: as, b :: b' :: bs, h, _ =>
      simp only [List.map_cons, List.cons.injEq] at h
      rw [if_pos (by simp), List.headD_cons, evalText_parse h.1.symm]
      simp only []
      cases (evalD dbg k (lkBase k p names files en o) n d a).map concat <;> rfl

/-! ### quiet scopes -/

theorem base_frame (ha : Apart names files) (ev : Ev) (d : Dyn) (top : Top) {id : Bytes} (hid : id ∈ frameNames) (args : List Bytes) (init : Bool) :
    (lkBase k p names files en o ev d).func top id args init = .noValue := by
  have h1 : (coreScope p).func top id args init = .noValue := core_none p (by clear ha; revert id; decide +kernel) top args init
  have h2 : (if en then table (envFns o) [] else Scope.unit).func top id args init = .noValue := by
    cases en
    · rfl
    · refine tableFunc_none (ids_ne ?_) top args init
      have : ids (envFns o) = [ascii "env"] := rfl
      rw [this]; clear ha h1; revert id; decide +kernel
  have h3 : tableFunc (readFns k ev d o) top id args init = .noValue := by
    refine tableFunc_none (ids_ne ?_) top args init
    have : ids (readFns k ev d o) = readNames := rfl
    rw [this]; clear ha h1 h2; revert id; decide +kernel
  show AR.orElse ((coreScope p).func top id args init) (fun _ => AR.orElse ((names ev d).func top id args init) fun _ =>
    AR.orElse (AR.orElse (files.func top id args init) fun _ => tableFunc (readFns k ev d o) top id args init) fun _ =>
      (if en then table (envFns o) [] else Scope.unit).func top id args init) = _
  rw [h1, (ha.1 ev d top id (List.mem_append_right _ hid)).1, (ha.2 top id (List.mem_append_right _ hid)).1, h2, h3]
  rfl

theorem base_quiet (ha : Apart names files) : Quiet (lkBase k p names files en o) := by
  intro ev d top
  refine ⟨fun e he args => base_frame k ha ev d top (List.mem_append_left _ (List.mem_map_of_mem he)) args true, fun abe => ?_⟩
  have hid : ascii "links" ∈ frameNames := by decide +kernel
  have h1 : (coreScope p).mac top (ascii "links") abe = .noValue := rfl
  have h2 : (if en then table (envFns o) [] else Scope.unit).mac top (ascii "links") abe = .noValue := by cases en <;> rfl
  have h3 : (readScope k ev d o).mac top (ascii "links") abe = .noValue := rfl
  show AR.orElse ((coreScope p).mac top (ascii "links") abe) (fun _ => AR.orElse ((names ev d).mac top (ascii "links") abe) fun _ =>
    AR.orElse (AR.orElse (files.mac top (ascii "links") abe) fun _ => (readScope k ev d o).mac top (ascii "links") abe) fun _ =>
      (if en then table (envFns o) [] else Scope.unit).mac top (ascii "links") abe) = _
  rw [h1, (ha.1 ev d top _ (List.mem_append_right _ hid)).2, (ha.2 top _ (List.mem_append_right _ hid)).2, h2, h3]
  rfl

theorem template_noColon (t : Template) (ht : t.Ok) : NoColon t.text := by
  refine ⟨_, tpl_text t.parts t.fin ht, ?_⟩
  have hl : ∀ b, ∀ e ∈ lit b, e ≠ .ctr .colon := by
    intro b e he; unfold lit at he
    split at he
    · simp at he
    · simp at he; subst he; nofun
  intro e he
  unfold tplParts at he
  rcases List.mem_append.1 he with he | he
  · obtain ⟨q, -, he⟩ := List.mem_flatMap.1 he
    rcases List.mem_append.1 he with he | he
    · exact hl _ e he
    · simp at he; subst he
      cases q.2 <;> nofun
  · exact hl _ e he

/-- `[/readhash:HASH:template]` prints the template for the stored point, when no other packet is at hand. -/
theorem macro_template (ha : Apart names files) (hc : Spec.Consistent o.db) (s : Shown) (hm : Stored o.db s) (t : Template) (ht : t.Ok)
    {h : Bytes} {xs : List Bytes} (hh : NoColon h) (hxs : ∀ x ∈ xs, NoColon x) (dbg : Bool) (n : Nat)
    (he : evalText dbg k (lkBase k p names files en o) (n + 2) ⟨[], []⟩ h = .ok s.hash) :
    ∃ out, evalText dbg k (lkBase k p names files en o) (n + 3) ⟨[], []⟩ (macText h (t.text :: xs)) = .ok out ∧ s.Prints t out := by
  obtain ⟨i, hm⟩ := hm
  rw [macro_found k ha hc hm s.hashLen hh (template_noColon t ht) hxs dbg (n + 2) ⟨[], []⟩ he]
  exact template_render_behind s dbg k _ (base_quiet k ha) n (some i) o.now t ht

/-- **Finding**: with a packet at hand the template is about that packet, not about the one of the hash. -/
theorem macro_shadowed (ha : Apart names files) (hc : Spec.Consistent o.db) (s : Shown) (hm : Stored o.db s) (s' : Shown) (t : Template) (ht : t.Ok)
    {h : Bytes} {xs : List Bytes} (hh : NoColon h) (hxs : ∀ x ∈ xs, NoColon x) (dbg : Bool) (n : Nat) (recv : Option Nat) (now : Nat)
    (he : lkEvalPkt dbg k (lkBase k p names files en o) (n + 2) ⟨s'.pkt, recv, now⟩ h = .ok s.hash) :
    ∃ out, lkEvalPkt dbg k (lkBase k p names files en o) (n + 3) ⟨s'.pkt, recv, now⟩ (macText h (t.text :: xs)) = .ok out ∧ s'.Prints t out := by
  obtain ⟨i, hm⟩ := hm
  have := macro_found k (p := p) (en := en) ha hc hm s.hashLen hh (template_noColon t ht) hxs dbg (n + 2) ⟨[.pkt ⟨s'.pkt, recv, now⟩], []⟩ he
  obtain ⟨abe, l, out, h1, h2, h3, h4⟩ := tpl_renders s' dbg k (lkBase k p names files en o) ⟨s'.pkt, recv, now⟩ rfl n
    ⟨[.pkt ⟨s'.pkt, recv, now⟩], [.pkt ⟨s.pkt, some i, o.now⟩]⟩ (seen_front k _ _ [] _) (fun l j => seen_front_row k _ _ [] _ l j) t ht
  refine ⟨out, this.trans ?_, h4⟩
  show evalText dbg k _ (n + 2) ⟨[.pkt ⟨s'.pkt, recv, now⟩], [.pkt ⟨s.pkt, some i, o.now⟩]⟩ t.text = _
  rw [evalText_parse h1, h2]
  simp [ER.map, h3]

theorem asked_frame : ∀ id ∈ askedRh, id ∈ frameNames := by decide +kernel

/-- `[/readhash:HASH:[f:args]]` says what `[f:args]` says of the stored point, when no other packet is at hand.  Unlike in
`[readhash:HASH:f:args]` the stamp of arrival is known. -/
theorem macro_asks (ha : Apart names files) (hc : Spec.Consistent o.db) {i : Nat} {pkt : NetParts} (hm : (i, pkt) ∈ o.db.log)
    (hl : pkt.hash.length = 32) {id : Bytes} (h : id ∈ askedRh) (args : List Bytes) (hargs : args.length ≤ 15) {t : Bytes} (hh : NoColon t) (dbg : Bool) (n : Nat)
    (he : evalText dbg k (lkBase k p names files en o) (n + 1) ⟨[], []⟩ t = .ok pkt.hash) :
    evalText dbg k (lkBase k p names files en o) (n + 2) ⟨[], []⟩ (macText t [callText id args]) =
      lkEvalPkt dbg k (lkBase k p names files en o) (n + 1) ⟨pkt, some i, o.now⟩ (callText id args) := by
  have hn := asked_self id h
  rw [macro_found k ha hc hm hl hh ⟨_, callText_text hn args, by simp⟩ (by simp) dbg (n + 1) ⟨[], []⟩ he]
  show evalText dbg k _ (n + 1) ⟨[], [.pkt ⟨pkt, some i, o.now⟩]⟩ _ = _
  rw [callText_args id args dbg k _ n _ hn.1 (callText_text hn args) hargs, call_ar]
  rw [front_asks dbg k _ n ⟨pkt, some i, o.now⟩ h args hargs (evalD dbg k (lkBase k p names files en o) n) ⟨[], [.pkt ⟨pkt, some i, o.now⟩]⟩
    (topD dbg k (lkBase k p names files en o) n ⟨[], [.pkt ⟨pkt, some i, o.now⟩]⟩) rfl]
  have h2 : (denote k (lkBase k p names files en o) (evalD dbg k (lkBase k p names files en o) n) ⟨[], [.pkt ⟨pkt, some i, o.now⟩]⟩).func
      (topD dbg k (lkBase k p names files en o) n ⟨[], [.pkt ⟨pkt, some i, o.now⟩]⟩) id args true =
      (pktScope k (evalD dbg k (lkBase k p names files en o) n) ⟨[], [.pkt ⟨pkt, some i, o.now⟩]⟩ ⟨pkt, some i, o.now⟩).func
        (topD dbg k (lkBase k p names files en o) n ⟨[], [.pkt ⟨pkt, some i, o.now⟩]⟩) id args true := by
    show AR.orElse ((lkBase k p names files en o _ _).func _ id args true) _ = _
    rw [base_frame k ha _ _ _ (asked_frame id h)]
    simp only [AR.orElse]
    rfl
  show (match (denote k (lkBase k p names files en o) (evalD dbg k (lkBase k p names files en o) n) ⟨[], [.pkt ⟨pkt, some i, o.now⟩]⟩).func
      (topD dbg k (lkBase k p names files en o) n ⟨[], [.pkt ⟨pkt, some i, o.now⟩]⟩) id args true with
    | .value b => ER.ok b
    | .abort => .abort
    | _ => .err) = _
  rw [h2]

/-- **Finding**: the two forms differ in the stamp of arrival, though said to be the same: the function has the present. -/
theorem recv_differs (ha : Apart names files) (hc : Spec.Consistent o.db) {i : Nat} {pkt : NetParts} (hm : (i, pkt) ∈ o.db.log)
    (hl : pkt.hash.length = 32) {t : Bytes} (hh : NoColon t) (dbg : Bool) (n : Nat)
    (he : evalText dbg k (lkBase k p names files en o) (n + 1) ⟨[], []⟩ t = .ok pkt.hash) :
    evalText dbg k (lkBase k p names files en o) (n + 2) ⟨[], []⟩ (macText t [callText (ascii "recv") []]) = .ok (beBytes 8 i) ∧
    evalText dbg k (lkBase k p names files en o) (n + 1) ⟨[], []⟩ (callText (ascii "readhash") [pkt.hash, ascii "recv"]) = .ok (beBytes 8 o.now) ∧
    evalText dbg k (lkBase k p names files en o) (n + 1) ⟨[], []⟩ (callText (ascii "readhash") [pkt.hash, ascii "recv_now"]) = .err := by
  refine ⟨?_, ?_, ?_⟩
  · rw [macro_asks k ha hc hm hl (by decide +kernel) [] (by simp) hh dbg n he]
    exact (recv_stamp dbg k _ n ⟨pkt, some i, o.now⟩).1
  · rw [readhash_asks k ha hc hm hl (by decide +kernel) [] (by simp)]
    exact (recv_stamp dbg k _ n ⟨pkt, none, o.now⟩).1
  · rw [readhash_asks k ha hc hm hl (by decide +kernel) [] (by simp)]
    exact (recv_stamp dbg k _ n ⟨pkt, none, o.now⟩).2

/-! ## points by their place -/

theorem read_table (ev : Ev) (d : Dyn) (top : Top) (inp : List Bytes) (init : Bool) (h1 : 2 ≤ inp.length) (h2 : inp.length ≤ 16) :
    tableFunc (readFns k ev d o) top (ascii "read") inp init = readFn k ev d o top inp := by
  have : (readFns k ev d o).find? (fun f => f.id == ascii "read") = some ((readFns k ev d o).getLast (by simp [readFns])) := rfl
  unfold tableFunc
  rw [this]
  show (if 2 ≤ inp.length ∧ inp.length ≤ 16 then _ else _) = _
  rw [if_pos ⟨h1, h2⟩]
  rfl

/-- The arguments of `read` name this place.  Group and key are bytes or base64, the domain may lack leading zeros. -/
structure Names (g d : Bytes) (cs : List Bytes) (key : Bytes) (ag ad akey : Bytes) : Prop where
  group : g.length = 32 ∧ (ag = g ∨ ag = base64 g)
  domain : ad.length ≤ 16 ∧ d = List.replicate (16 - ad.length) 0 ++ ad
  key : key.length = 32 ∧ (akey = key ∨ akey = base64 key)
  space : IsSpace (encodeSpace cs) cs ∧ cs.length ≤ 8

theorem b64_either {b a : Bytes} (hl : b.length = 32) (h : a = b ∨ a = base64 b) : b64Fit 32 a = some b := by
  have := b64_fit_both b
  rw [hl] at this
  rcases h with rfl | rfl
  · exact this.2
  · exact this.1

theorem rootArg_named {cs : List Bytes} (h : IsSpace (encodeSpace cs) cs) (h8 : cs.length ≤ 8) (dbg : Bool) : rootArg dbg (encodeSpace cs) = .ok (rootedOf cs) := by
  unfold rootArg
  rw [(space_check_iff _ _).2 ⟨cs, h, rfl⟩]
  simp only
  unfold Pred.root
  rw [rooted_of_space dbg _ _ h h8]

/-- What `read` does with the point its query has first. -/
theorem readFn_named {g d : Bytes} {cs : List Bytes} {key ag ad akey : Bytes} (hn : Names g d cs key ag ad akey) (hp : g ≠ privateGroup ∨ o.lkPrivate = some true)
    (ev : Ev) (dy : Dyn) (top : Top) (id : Bytes) (args : List Bytes) :
    readFn k ev dy o top (ad :: ag :: encodeSpace cs :: akey :: id :: args) =
      match Query.queryFirst o.db false (Query.dgskAbs g d cs key).preds with
      | .error _ => .abort
      | .ok none => .err
      | .ok (some e) =>
        match (pktScope k ev dy ⟨e.2, none, o.now⟩).func top id args true with
        | .noValue => .err
        | r => r := by
  unfold readFn
  have h1 : fitBack 0 16 ad = some d := (fit_back_iff 0 16 ad d).2 ⟨by rw [hn.domain.2]; have := hn.domain.1; simp; omega, _, hn.domain.2⟩
  have h5 : keyArg (ad :: ag :: encodeSpace cs :: akey :: id :: args)[3]? = some key := b64_either hn.key.1 hn.key.2
  simp only [List.headD_cons, List.getD_cons_succ, List.getD_cons_zero, h1, b64_either hn.group.1 hn.group.2]
  rw [if_neg (by rintro ⟨x, y⟩; rcases hp with h | h; exact h x; exact y h), rootArg_named hn.space.1 hn.space.2, h5]
  simp only
  rw [Query.dgsk_preds]
  simp only [List.drop_succ_cons, List.drop_zero]
  rcases Query.queryFirst o.db false (Query.dgskAbs g d cs key).preds with x | x
  · rfl
  · cases x with
    | none => rfl
    | some e =>
      simp only
      cases (pktScope k ev dy ⟨e.2, none, o.now⟩).func top id args true <;> rfl

/-- `[read:DOMAIN:GROUP:SPACE:KEY:f:args]` when the query has a point. -/
theorem read_asks (ha : Apart names files) {g d : Bytes} {cs : List Bytes} {key ag ad akey : Bytes} (hn : Names g d cs key ag ad akey)
    (hp : g ≠ privateGroup ∨ o.lkPrivate = some true) {id : Bytes} (hid : id ∈ askedRh) (args : List Bytes) (hl : args.length ≤ 10) (dbg : Bool) (n : Nat) (dy : Dyn) :
    evalText dbg k (lkBase k p names files en o) (n + 1) dy (callText (ascii "read") (ad :: ag :: encodeSpace cs :: akey :: id :: args)) =
      match Query.queryFirst o.db false (Query.dgskAbs g d cs key).preds with
      | .error _ => .abort
      | .ok none => .err
      | .ok (some e) => lkEvalPkt dbg k (lkBase k p names files en o) (n + 1) ⟨e.2, none, o.now⟩ (callText id args) := by
  have hself := read_self (ascii "read") (by simp [readNames])
  rw [callText_args _ _ dbg k _ n dy hself.1 (callText_text hself _) (by simp; omega), call_ar, denote_read ha.n ha.f _ _ _ (by simp [readNames]),
    read_table k _ _ _ _ _ (by simp) (by simp; omega), readFn_named k hn hp]
  rcases Query.queryFirst o.db false (Query.dgskAbs g d cs key).preds with x | x
  · rfl
  · cases x with
    | none => rfl
    | some e =>
      simp only
      rw [front_asks dbg k _ n ⟨e.2, none, o.now⟩ hid args (by omega) (evalD dbg k (lkBase k p names files en o) n) dy (topD dbg k (lkBase k p names files en o) n dy) rfl]
      have := asks_value k (evalD dbg k (lkBase k p names files en o) n) dy ⟨e.2, none, o.now⟩ (topD dbg k (lkBase k p names files en o) n dy) hid args
      revert this
      unfold topD
      cases (pktScope k (evalD dbg k (lkBase k p names files en o) n) dy ⟨e.2, none, o.now⟩).func _ id args true <;> simp

/-- The point at the place that was named, when there is one and no point of the same group, domain and depth has a lesser
space: the newest.  Missing: any other stored points, see `read_misses`. -/
theorem read_newest_partial (ha : Apart names files) (hc : Spec.Consistent o.db) (hw : AllShow o.db) (hff : NoOnesKey o.db)
    {g d : Bytes} {cs : List Bytes} {key ag ad akey : Bytes} (hn : Names g d cs key ag ad akey) (hp : g ≠ privateGroup ∨ o.lkPrivate = some true)
    (hal : ∀ i p t, (i, p) ∈ o.db.log → HasTuple p t → t.group = g → t.domain = d → t.space.length = cs.length →
      ¬ BytesBefore (encodeSpace t.space) (encodeSpace cs))
    (hex : ∃ e ∈ o.db.log, At g d cs key e.2) {id : Bytes} (hid : id ∈ askedRh) (args : List Bytes) (hl : args.length ≤ 10) (dbg : Bool) (n : Nat) (dy : Dyn) :
    ∃ e, NewestAt o.db g d cs key (some e) ∧
      evalText dbg k (lkBase k p names files en o) (n + 1) dy (callText (ascii "read") (ad :: ag :: encodeSpace cs :: akey :: id :: args)) =
        lkEvalPkt dbg k (lkBase k p names files en o) (n + 1) ⟨e.2, none, o.now⟩ (callText id args) := by
  have hd : d.length = 16 := by rw [hn.domain.2]; have := hn.domain.1; simp; omega
  obtain ⟨e, h1, h2⟩ := Query.dgsk_first hn.group.1 hd hn.key.1 hn.space.1 hn.space.2 hc (allProper_allShow.2 hw) (.inr hff) (by
    intro i p t hm ht e1 e2 e3
    have := hal i p t hm ht e1 e2 e3
    rw [Tree.bytesBefore_iff] at this
    simpa using this) hex false
  refine ⟨e, ?_, ?_⟩
  · obtain ⟨x1, x2, x3⟩ := h2
    refine ⟨x1, x2, fun f hf hp => ?_⟩
    rcases x3 f hf hp with h | h
    · exact .inl h
    · exact .inr (before_older x2 hp h)
  · rw [read_asks k ha hn hp hid args hl, h1]

/-- Whatever is stored: what is read is a point of that group, domain and key, at the space or below it. -/
theorem read_within (ha : Apart names files) (hc : Spec.Consistent o.db) (hw : AllShow o.db) (hff : NoOnesKey o.db)
    {g d : Bytes} {cs : List Bytes} {key ag ad akey : Bytes} (hn : Names g d cs key ag ad akey) (hp : g ≠ privateGroup ∨ o.lkPrivate = some true)
    {id : Bytes} (hid : id ∈ askedRh) (args : List Bytes) (hl : args.length ≤ 10) (dbg : Bool) (n : Nat) (dy : Dyn) :
    evalText dbg k (lkBase k p names files en o) (n + 1) dy (callText (ascii "read") (ad :: ag :: encodeSpace cs :: akey :: id :: args)) = .err ∨
    ∃ e ∈ o.db.log, (∃ t, HasTuple e.2 t ∧ t.group = g ∧ t.domain = d ∧ t.pubkey = key ∧ cs <+: t.space) ∧
      evalText dbg k (lkBase k p names files en o) (n + 1) dy (callText (ascii "read") (ad :: ag :: encodeSpace cs :: akey :: id :: args)) =
        lkEvalPkt dbg k (lkBase k p names files en o) (n + 1) ⟨e.2, none, o.now⟩ (callText id args) := by
  have hd : d.length = 16 := by rw [hn.domain.2]; have := hn.domain.1; simp; omega
  obtain ⟨r, h1, h2⟩ := Query.dgsk_within hn.group.1 hd hn.key.1 hn.space.1 hc (allProper_allShow.2 hw) (.inr hff) false
  rw [read_asks k ha hn hp hid args hl, h1]
  cases r with
  | none => exact .inl rfl
  | some e =>
    obtain ⟨x1, x2⟩ := h2 e rfl
    exact .inr ⟨e, x1, x2, rfl⟩

/-- Without a key the point is one that nobody signed, without a space it is one at the root. -/
theorem read_defaults (ha : Apart names files) (ad ag sp : Bytes) (dbg : Bool) (n : Nat) (dy : Dyn) :
    evalText dbg k (lkBase k p names files en o) (n + 1) dy (callText (ascii "read") [ad, ag, sp]) =
      evalText dbg k (lkBase k p names files en o) (n + 1) dy (callText (ascii "read") [ad, ag, sp, List.replicate 32 0]) ∧
    evalText dbg k (lkBase k p names files en o) (n + 1) dy (callText (ascii "read") [ad, ag]) =
      evalText dbg k (lkBase k p names files en o) (n + 1) dy (callText (ascii "read") [ad, ag, []]) := by
  have hself := read_self (ascii "read") (by simp [readNames])
  have go : ∀ args : List Bytes, 2 ≤ args.length → args.length ≤ 15 →
      evalText dbg k (lkBase k p names files en o) (n + 1) dy (callText (ascii "read") args) =
        match readFn k (evalD dbg k (lkBase k p names files en o) n) dy o (topD dbg k (lkBase k p names files en o) n dy) args with
        | .value b => .ok b
        | .abort => .abort
        | _ => .err := by
    intro args h1 h2
    rw [callText_args _ _ dbg k _ n dy hself.1 (callText_text hself _) h2, call_ar, denote_read ha.n ha.f _ _ _ (by simp [readNames]),
      read_table k _ _ _ _ _ h1 (by omega)]
    rfl
  have hk : keyArg (some (List.replicate 32 0)) = some (List.replicate 32 0) := by
    show b64Fit 32 (List.replicate 32 0) = _
    exact b64_either (b := List.replicate 32 0) (by simp) (.inl rfl)
  refine ⟨?_, ?_⟩
  · rw [go _ (by simp) (by simp), go _ (by simp) (by simp)]
    unfold readFn
    simp only [List.headD_cons, List.getD_cons_succ, List.getD_cons_zero, List.getElem?_cons_succ, List.getElem?_cons_zero, List.getElem?_nil, hk]
    rfl
  · rw [go _ (by simp) (by simp), go _ (by simp) (by simp)]
    rfl

/-- The private group is not read, unless the process allows it. -/
theorem read_private_group (ha : Apart names files) {ag ad : Bytes} (hg : ag = privateGroup ∨ ag = base64 privateGroup) (hp : o.lkPrivate ≠ some true)
    (args : List Bytes) (hl : args.length ≤ 13) (dbg : Bool) (n : Nat) (dy : Dyn) :
    evalText dbg k (lkBase k p names files en o) (n + 1) dy (callText (ascii "read") (ad :: ag :: args)) = .err := by
  have hself := read_self (ascii "read") (by simp [readNames])
  rw [callText_args _ _ dbg k _ n dy hself.1 (callText_text hself _) (by simp; omega), call_ar, denote_read ha.n ha.f _ _ _ (by simp [readNames]),
    read_table k _ _ _ _ _ (by simp) (by simp; omega)]
  unfold readFn
  simp only [List.headD_cons, List.getD_cons_succ, List.getD_cons_zero, b64_either (by decide +kernel : privateGroup.length = 32) hg]
  cases fitBack 0 16 ad with
  | none => rfl
  | some d => simp only; rw [if_pos ⟨trivial, hp⟩]

/-- **Finding**: the example in the help, `[read:mydomain:[#:pub]:[//a/space]:[@:me]::data:str]`, never has a value: an empty argument
is taken as the name of what is askedRh. -/
theorem read_empty_name (ha : Apart names files) (hc : Spec.Consistent o.db) (hw : AllShow o.db) (hff : NoOnesKey o.db)
    {g d : Bytes} {cs : List Bytes} {key ag ad akey : Bytes} (hn : Names g d cs key ag ad akey) (args : List Bytes) (hl : args.length ≤ 10) (dbg : Bool) (n : Nat) (dy : Dyn) :
    evalText dbg k (lkBase k p names files en o) (n + 1) dy (callText (ascii "read") (ad :: ag :: encodeSpace cs :: akey :: [] :: args)) = .err := by
  by_cases hp : g ≠ privateGroup ∨ o.lkPrivate = some true
  · have hself := read_self (ascii "read") (by simp [readNames])
    have hd : d.length = 16 := by rw [hn.domain.2]; have := hn.domain.1; simp; omega
    obtain ⟨r, h1, -⟩ := Query.dgsk_within hn.group.1 hd hn.key.1 hn.space.1 hc (allProper_allShow.2 hw) (.inr hff) false
    rw [callText_args _ _ dbg k _ n dy hself.1 (callText_text hself _) (by simp; omega), call_ar, denote_read ha.n ha.f _ _ _ (by simp [readNames]),
      read_table k _ _ _ _ _ (by simp) (by simp; omega), readFn_named k hn hp, h1]
    cases r with
    | none => rfl
    | some e =>
      have := frame_func k (evalD dbg k (lkBase k p names files en o) n) dy (.pkt ⟨e.2, none, o.now⟩) (id := []) (by decide +kernel)
        ⟨evalD dbg k (lkBase k p names files en o) n dy, (denote k (lkBase k p names files en o) (evalD dbg k (lkBase k p names files en o) n) dy).enc, dbg⟩ args true
      have this : (pktScope k (evalD dbg k (lkBase k p names files en o) n) dy ⟨e.2, none, o.now⟩).func _ [] args true = _ := this
      simp only [this]
  · have hp' : g = privateGroup ∧ o.lkPrivate ≠ some true := by
      constructor
      · exact Classical.byContradiction fun h => hp (.inl h)
      · exact fun h => hp (.inr h)
    exact read_private_group k ha (by rw [← hp'.1]; exact hn.group.2) hp'.2 _ (by simp; omega) dbg n dy

theorem data_asked : ascii "data" ∈ askedRh := by decide +kernel

def exNames (cs : List Bytes) (h : IsSpace (encodeSpace cs) cs ∧ cs.length ≤ 8) :
    Names (List.replicate 32 5) (List.replicate 16 6) cs (List.replicate 32 0) (List.replicate 32 5) (List.replicate 16 6) (List.replicate 32 0) :=
  ⟨⟨by decide, .inl rfl⟩, ⟨by decide, by decide⟩, ⟨by decide, .inl rfl⟩, h⟩

/-- **Finding**: with points at `/a` and `/b`, `[read:..:/b:..]` does not find the one at `/b`. -/
theorem read_misses (ha : Apart names files) (hdb : o.db = saved [exPkt [[97]] 7 1, exPkt [[98]] 7 2]) (dbg : Bool) (n : Nat) (dy : Dyn) :
    (∃ e ∈ o.db.log, At (List.replicate 32 5) (List.replicate 16 6) [[98]] (List.replicate 32 0) e.2) ∧
    evalText dbg k (lkBase k p names files en o) (n + 1) dy (callText (ascii "read") [List.replicate 16 6, List.replicate 32 5, encodeSpace [[98]], List.replicate 32 0, ascii "data"]) = .err := by
  have hsp : ∀ c : UInt8, IsSpace (encodeSpace [[c]]) [[c]] := fun c => ⟨by simp [ValidComps], rfl, by simp [encodeSpace]⟩
  constructor
  · rw [hdb]
    refine ⟨(101, exPkt [[98]] 7 2), by decide +kernel, _, exTuple_has _ _ _ (hsp 98) (by decide) (by decide) (by decide), rfl, rfl, rfl, rfl⟩
  · have h1 : Query.queryFirst (saved [exPkt [[97]] 7 1, exPkt [[98]] 7 2]) false (Query.dgskAbs (List.replicate 32 5) (List.replicate 16 6) [[98]] (List.replicate 32 0)).preds = .ok none := by
      decide +kernel
    rw [read_asks k ha (exNames [[98]] ⟨hsp 98, by decide⟩) (.inl (by decide)) data_asked [] (by simp), hdb, h1]

/-- **Finding**: with a point at `/b/a` only, `[read:..:/b:..]` shows that one. -/
theorem read_deeper (ha : Apart names files) (hdb : o.db = saved [exPkt [[98], [97]] 7 2]) (dbg : Bool) (n : Nat) (dy : Dyn) :
    (∀ e ∈ o.db.log, ∀ t, HasTuple e.2 t → t.space = [[98], [97]]) ∧
    evalText dbg k (lkBase k p names files en o) (n + 1) dy (callText (ascii "read") [List.replicate 16 6, List.replicate 32 5, encodeSpace [[98]], List.replicate 32 0, ascii "data"]) =
      lkEvalPkt dbg k (lkBase k p names files en o) (n + 1) ⟨exPkt [[98], [97]] 7 2, none, o.now⟩ (callText (ascii "data") []) := by
  have hsp : IsSpace (encodeSpace [[98]]) [[98]] := ⟨by simp [ValidComps], rfl, by decide⟩
  have hsp2 : IsSpace (encodeSpace [[98], [97]]) [[98], [97]] := ⟨by simp [ValidComps], rfl, by decide⟩
  constructor
  · rw [hdb]
    have hlog : (saved [exPkt [[98], [97]] 7 2]).log = [(100, exPkt [[98], [97]] 7 2)] := by decide +kernel
    rw [hlog]
    intro e he t ht
    simp only [List.mem_cons, List.not_mem_nil, or_false] at he
    subst he
    have := exTuple_has [[98], [97]] 7 2 hsp2 (by decide) (by decide) (by decide)
    rw [tuple_unique ht this]
    rfl
  · have h1 : Query.queryFirst (saved [exPkt [[98], [97]] 7 2]) false (Query.dgskAbs (List.replicate 32 5) (List.replicate 16 6) [[98]] (List.replicate 32 0)).preds =
        .ok (some (100, exPkt [[98], [97]] 7 2)) := by
      decide +kernel
    rw [read_asks k ha (exNames [[98]] ⟨hsp, by decide⟩) (.inl (by decide)) data_asked [] (by simp), hdb, h1]

/-! ## arguments and variables -/

def argNames : List Bytes := (List.range 8).map dec

theorem base_other {l : List Bytes} (hn : ∀ ev d, Mute l (names ev d)) (hf : Mute l files) (hl : ∀ x ∈ l, x ∉ coreNames ++ readNames) (ev : Ev) (d : Dyn) (top : Top) {id : Bytes} (hid : id ∈ l)
    (args : List Bytes) (init : Bool) : (lkBase k p names files en o ev d).func top id args init = (if en then table (envFns o) [] else Scope.unit).func top id args init := by
  have hx := hl id hid
  have h1 : (coreScope p).func top id args init = .noValue := core_none p (fun h => hx (List.mem_append_left _ h)) top args init
  have h3 : tableFunc (readFns k ev d o) top id args init = .noValue := tableFunc_none (ids_ne fun h => hx (List.mem_append_right _ h)) top args init
  show AR.orElse ((coreScope p).func top id args init) (fun _ => AR.orElse ((names ev d).func top id args init) fun _ =>
    AR.orElse (AR.orElse (files.func top id args init) fun _ => tableFunc (readFns k ev d o) top id args init) fun _ =>
      (if en then table (envFns o) [] else Scope.unit).func top id args init) = _
  rw [h1, (hn ev d top id hid).1, (hf top id hid).1, h3]
  rfl

/-- `[0]` to `[7]` are the arguments of an evaluation; one that was not given is an error. -/
theorem args_named (hn : ∀ ev d, Mute argNames (names ev d)) (hf : Mute argNames files) {args : List Bytes} {a : Scope} (ha : argvScope args = some a)
    {i : Nat} (hi : i < 8) (dbg : Bool) (n : Nat) (d : Dyn) :
    evalText dbg k (withArgs (lkBase k p names files en o) (some a)) (n + 1) d (callText (dec i) []) = (match args[i]? with | some v => .ok v | none => .err) := by
  have hmem : dec i ∈ argNames := List.mem_map.2 ⟨i, List.mem_range.2 hi, rfl⟩
  have hall : ∀ x ∈ argNames, (x ≠ [] ∧ ∀ c ∈ x, Self c) ∧ x ∉ frameNames ∧ x ∉ coreNames ++ readNames ∧ x ≠ ascii "env" := by decide +kernel
  obtain ⟨h1, h2, -, h4⟩ := hall _ hmem
  rw [callText_args _ _ dbg k _ n d h1.1 (callText_text h1 _) (by simp), call_ar, denote_func k _ _ d h2]
  have ha' : a = table (argvFns args) [] := by
    unfold argvScope at ha
    split at ha
    · cases ha; rfl
    · cases ha
  show (match AR.orElse ((lkBase k p names files en o _ d).func _ (dec i) [] true) (fun _ => a.func _ (dec i) [] true) with
    | .value b => ER.ok b
    | .abort => .abort
    | _ => .err) = _
  rw [base_other k hn hf (fun x hx => (hall x hx).2.2.1) _ _ _ hmem]
  have h5 : ∀ top, (if en then table (envFns o) [] else Scope.unit).func top (dec i) [] true = .noValue := by
    intro top
    cases en
    · rfl
    · refine tableFunc_none (ids_ne ?_) top [] true
      have : ids (envFns o) = [ascii "env"] := rfl
      rw [this]; simpa using h4
  rw [h5, ha']
  have h6 : ∀ top, (table (argvFns args) []).func top (dec i) [] true = .ofOption args[i]? := by
    intro top
    have : i = 0 ∨ i = 1 ∨ i = 2 ∨ i = 3 ∨ i = 4 ∨ i = 5 ∨ i = 6 ∨ i = 7 := by omega
    have h7 : ∀ j, j < 8 → (argvFns args).find? (fun f => f.id == dec j) = some { id := dec j, lo := 0, hi := 0, init := some true, apply := fun _ _ _ => .ofOption args[j]? } := by
      intro j hj
      unfold argvFns
      rw [List.find?_map]
      have : (List.range 8).find? ((fun f : Fn => f.id == dec j) ∘ fun i => { id := dec i, lo := 0, hi := 0, init := some true, apply := fun _ _ _ => .ofOption args[i]? }) = some j := by
        have h8 : ∀ j ∈ List.range 8, (List.range 8).find? (fun i => dec i == dec j) = some j := by decide +kernel
        exact h8 j (List.mem_range.2 hj)
      rw [this]; rfl
    show tableFunc (argvFns args) top (dec i) [] true = _
    unfold tableFunc
    rw [h7 i hi]
    rfl
  rw [h6]
  cases args[i]? <;> rfl

/-- More than eight arguments are refused. -/
theorem args_refused (args : List Bytes) : argvScope args = none ↔ 8 < args.length := by
  unfold argvScope
  split <;> simp <;> omega

/-- The scope of any number of arguments: `[argv:start:stop:step]` are those of the Python slice one after the other, `[i]` is the
`i`-th.  The bounds are those of `slice_py_partial`. -/
theorem arg_list_partial (lst : List Bytes) (top : Top) (init : Bool) :
    (∀ (start stop : Option Int) (step : Int), (∀ v, start = some v → -(2 ^ 63) < v ∧ v < 2 ^ 63) → (∀ v, stop = some v → -(2 ^ 63) < v ∧ v < 2 ^ 63) →
      step ≠ 0 → -(2 ^ 63) ≤ step → step < 2 ^ 63 → step + lst.length ≤ 2 ^ 63 → (lst.length : Int) < 2 ^ 63 →
      ∃ out, PySlice lst start stop step out ∧ (argList lst).func top (ascii "argv") [pyArg start, pyArg stop, pyArg (some step)] init = .value out.flatten) ∧
    ∀ i, i < 2 ^ 64 → (argList lst).func top (dec i) [] true = (match lst[i]? with | some v => .value v | none => .err) := by
  constructor
  · intro start stop step h1 h2 h3 h4 h5 h6 h7
    obtain ⟨out, ho, hp⟩ := slice_py_partial lst [pyArg start, pyArg stop, pyArg (some step)] start stop step rfl rfl (.inr rfl) h1 h2 h3 h4 h5 h6 h7
    refine ⟨out, hp, ?_⟩
    simp only [argList, if_pos, ho]
  · intro i hi
    have hne : dec i ≠ ascii "argv" := by
      intro h
      have h1 := parseU_dec (2 ^ 64) i
      rw [h, if_pos hi] at h1
      have h2 : parseU 10 (2 ^ 64) (ascii "argv") = none := by decide +kernel
      rw [h2] at h1; cases h1
    show (if dec i = ascii "argv" then _ else match parseUsize (dec i) with | none => _ | some i => _) = _
    rw [if_neg hne, parseUsize, parseU_dec, if_pos hi]
    simp only
    rw [if_neg (by simp)]
    cases lst[i]? <;> rfl

/-- `[env:NAME]` is the variable of the process where that is enabled, and an error where not. -/
theorem env_named (hn : ∀ ev d, Mute [ascii "env"] (names ev d)) (hf : Mute [ascii "env"] files) (name : Bytes) (dbg : Bool) (n : Nat) (d : Dyn) :
    evalText dbg k (lkBase k p names files en o) (n + 1) d (callText (ascii "env") [name]) =
      (match if en then o.vars name else none with | some v => .ok v | none => .err) := by
  have h1 : ascii "env" ≠ [] ∧ ∀ c ∈ ascii "env", Self c := ⟨by decide +kernel, by decide +kernel⟩
  rw [callText_args _ _ dbg k _ n d h1.1 (callText_text h1 _) (by simp), call_ar, denote_func k _ _ d (by decide +kernel),
    base_other k hn hf (by decide +kernel) _ _ _ List.mem_cons_self]
  cases en
  · rfl
  · show (match AR.ofOption (o.vars name) with
      | .value b => ER.ok b
      | .abort => .abort
      | _ => .err) = _
    cases o.vars name <;> rfl

end

/-! ## two points -/

theorem apart_unit : Apart (fun _ _ => .unit) .unit := ⟨fun _ _ _ _ _ => ⟨fun _ _ => rfl, fun _ => rfl⟩, fun _ _ _ => ⟨fun _ _ => rfl, fun _ => rfl⟩⟩

/-- A point that `demoShown` links to. -/
def demoTarget : Shown where
  nh := List.replicate 32 0
  hash := List.replicate 32 3
  c := .link { demoContent with links := [], data := ascii "there" }
  cs := [ascii "a", ascii "b"]
  nhLen := by simp
  hashLen := by simp
  valid := ⟨by decide +kernel, by decide +kernel, by decide +kernel, by decide +kernel, by unfold LinksSized; decide +kernel, by decide +kernel⟩
  space := ⟨rfl, ⟨by unfold ValidComps; decide +kernel, rfl, by decide +kernel⟩, by decide +kernel⟩

def demoOutside : Outside := ⟨saved [demoShown.pkt, demoTarget.pkt], 5, none, fun _ => none⟩

theorem demo_stored : Spec.Consistent demoOutside.db ∧ Stored demoOutside.db demoShown ∧ Stored demoOutside.db demoTarget :=
  ⟨saved_consistent _, ⟨100, by decide +kernel⟩, ⟨101, by decide +kernel⟩⟩

/-- The path along the link tagged `yyy..`. -/
theorem demo_path : LinkPath demoOutside.db demoShown [ascii "yy"] demoTarget :=
  .cons (l := ⟨List.replicate 16 0x79, List.replicate 32 3⟩) ⟨[⟨List.replicate 15 0 ++ [0x78], List.replicate 32 2⟩], [], rfl, by decide +kernel, by decide +kernel⟩
    demo_stored.2.2 rfl (.nil _)

example : pathText (ascii "yy") [] (ascii "data") .raw = ascii "[link:yy/readhash:data]" := by decide +kernel
example : pathText (ascii "a") [ascii "b"] (ascii "group") .str = ascii "[link:a/readhash:link:b/readhash:group:str]" := by decide +kernel

/-- From the first point, the data of the second. -/
theorem demo_read (k : PktParams) (p : Params) (dbg : Bool) (n : Nat) :
    lkEvalPkt dbg k (lkBase k p (fun _ _ => .unit) .unit false demoOutside) (n + 1) ⟨demoShown.pkt, none, 5⟩ (ascii "[link:yy/readhash:data]") = .ok (ascii "there") := by
  obtain ⟨v, h1, h2⟩ := path_field k (p := p) (en := false) apart_unit demo_stored.1 demo_path (name := ascii "data") (f := .raw) (by decide +kernel) dbg n none 5
  have : pathText (ascii "yy") [] (ascii "data") .raw = ascii "[link:yy/readhash:data]" := by decide +kernel
  rw [this] at h1
  rw [h1]
  have h2 : (ascii "data", v) ∈ demoTarget.values := h2
  have hall : ∀ e ∈ demoTarget.values, e.1 = ascii "data" → e.2 = ascii "there" := by decide +kernel
  exact congrArg ER.ok (hall _ h2 rfl)

example : macText (ascii "[b:xx]") [demoTemplate.text] =
    ascii "[/readhash:[b:xx]:<[domain:str]>[/links:[i:str]=[ptr:abe][create];\\n][comp1:abe]\\/end]" := by decide +kernel
example : NoColon (ascii "[b:xx]") := ⟨_, callText_text (id := ascii "b") ⟨by decide, by decide⟩ [ascii "xx"], by simp⟩
example : Names (List.replicate 32 5) (List.replicate 12 0 ++ ascii "demo") [] (List.replicate 32 7) (base64 (List.replicate 32 5)) (ascii "demo") (List.replicate 32 7) :=
  ⟨⟨by decide, .inr rfl⟩, ⟨by decide, by decide +kernel⟩, ⟨by decide, .inl rfl⟩, Space.isSpace_nil, by decide⟩

/-- The store of `read_misses` has the point at `/a` for the taking. -/
theorem demo_place : let db := saved [exPkt [[97]] 7 1, exPkt [[98]] 7 2]
    AllShow db ∧ NoOnesKey db ∧ (∃ e ∈ db.log, At (List.replicate 32 5) (List.replicate 16 6) [[97]] (List.replicate 32 0) e.2) ∧
    ∀ i p t, (i, p) ∈ db.log → HasTuple p t → t.group = List.replicate 32 5 → t.domain = List.replicate 16 6 → t.space.length = 1 →
      ¬ BytesBefore (encodeSpace t.space) (encodeSpace [[97]]) := by
  have hlog : (saved [exPkt [[97]] 7 1, exPkt [[98]] 7 2]).log = [(100, exPkt [[97]] 7 1), (101, exPkt [[98]] 7 2)] := by decide +kernel
  have hsp : ∀ c : UInt8, IsSpace (encodeSpace [[c]]) [[c]] := fun c => ⟨by simp [ValidComps], rfl, by simp [encodeSpace]⟩
  have h1 := exTuple_has [[97]] 7 1 (hsp 97) (by decide) (by decide) (by decide)
  have h2 := exTuple_has [[98]] 7 2 (hsp 98) (by decide) (by decide) (by decide)
  intro db
  have hlog : db.log = _ := hlog
  refine ⟨allProper_allShow.1 ?_, ?_, ⟨(100, exPkt [[97]] 7 1), by rw [hlog]; simp, _, h1, rfl, rfl, rfl, rfl⟩, ?_⟩
  · intro i p hp
    rw [hlog] at hp
    simp only [List.mem_cons, Prod.mk.injEq, List.not_mem_nil, or_false] at hp
    rcases hp with ⟨_, rfl⟩ | ⟨_, rfl⟩
    · exact .inl ⟨_, h1⟩
    · exact .inl ⟨_, h2⟩
  · intro i p t hp ht
    rw [hlog] at hp
    simp only [List.mem_cons, Prod.mk.injEq, List.not_mem_nil, or_false] at hp
    rcases hp with ⟨_, rfl⟩ | ⟨_, rfl⟩
    · rw [tuple_unique ht h1]; decide +kernel
    · rw [tuple_unique ht h2]; decide +kernel
  · intro i p t hp ht _ _ _
    rw [hlog] at hp
    simp only [List.mem_cons, Prod.mk.injEq, List.not_mem_nil, or_false] at hp
    rw [Tree.bytesBefore_iff]
    rcases hp with ⟨_, rfl⟩ | ⟨_, rfl⟩
    · rw [tuple_unique ht h1]; decide +kernel
    · rw [tuple_unique ht h2]; decide +kernel

end Verif.Props
