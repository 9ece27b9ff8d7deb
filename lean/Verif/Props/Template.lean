import Verif.Lemmas.PktPage
import Verif.Props.Arith
/-!
# C73: packet expressions
-/
namespace Verif.Props
open Verif Verif.Ast Verif.Abl Verif.Abe Verif.Abtxt Verif.Num Verif.Fit Verif.Pkt Verif.Eval Verif.Repr Verif.Spec Verif.Tpl

/-! ## templates -/

/-- Every template of text, fields and rows of links prints exactly what it says, whatever else the scope has: the
packet is in front of it. -/
theorem template_render (s : Shown) (dbg : Bool) (k : PktParams) (base : Ev → Dyn → Scope) (n : Nat) (recv : Option Nat) (now : Nat) (t : Template)
    (ht : t.Ok) : ∃ out, lkEvalPkt dbg k base (n + 2) ⟨s.pkt, recv, now⟩ t.text = .ok out ∧ s.Prints t out := by
  obtain ⟨abe, l, out, h1, h2, h3, h4⟩ := tpl_renders s dbg k base ⟨s.pkt, recv, now⟩ rfl n ⟨[.pkt ⟨s.pkt, recv, now⟩], []⟩
    (seen_front k base _ [] []) (fun l i => seen_front_row k base _ [] [] l i) t ht
  refine ⟨out, ?_, h4⟩
  unfold lkEvalPkt
  rw [h1]
  simp only [h2, ER.map, h3]

/-- `eval` with the packet behind the scope, as the command line has it. -/
def evalBehind (dbg : Bool) (k : PktParams) (base : Ev → Dyn → Scope) (n : Nat) (c : Ctx) (expr : Bytes) : ER Bytes :=
  match parseStrict expr with
  | .ok abe => (evalD dbg k base n ⟨[], [.pkt c]⟩ abe).map concat
  | .error _ => .err

/-- The same with the packet behind a scope that has none of its names. -/
theorem template_render_behind (s : Shown) (dbg : Bool) (k : PktParams) (base : Ev → Dyn → Scope) (hb : Quiet base) (n : Nat) (recv : Option Nat) (now : Nat)
    (t : Template) (ht : t.Ok) : ∃ out, evalBehind dbg k base (n + 2) ⟨s.pkt, recv, now⟩ t.text = .ok out ∧ s.Prints t out := by
  obtain ⟨abe, l, out, h1, h2, h3, h4⟩ := tpl_renders s dbg k base ⟨s.pkt, recv, now⟩ rfl n ⟨[], [.pkt ⟨s.pkt, recv, now⟩]⟩
    (seen_back k hb _) (fun l i => seen_back_row k hb _ l i) t ht
  refine ⟨out, ?_, h4⟩
  unfold evalBehind
  rw [h1]
  simp only [h2, ER.map, h3]

/-- The scope every expression has is such a scope. -/
theorem template_render_core (s : Shown) (dbg : Bool) (k : PktParams) (p : Params) (n : Nat) (recv : Option Nat) (now : Nat)
    (t : Template) (ht : t.Ok) : ∃ out, evalBehind dbg k (fun _ _ => coreScope p) (n + 2) ⟨s.pkt, recv, now⟩ t.text = .ok out ∧ s.Prints t out :=
  template_render_behind s dbg k _ (core_quiet p) n recv now t ht

/-! ## single calls -/

/-- `[id:arg:..]`. -/
def callText (id : Bytes) (args : List Bytes) : Bytes := ascii "[" ++ id ++ args.flatMap (fun a => ascii ":" ++ asAbtxt a) ++ ascii "]"

theorem callText_text {id : Bytes} (hn : id ≠ [] ∧ ∀ c ∈ id, Self c) (args : List Bytes) : AbeText (callText id args) [.lst (toAbe (callList id args))] := by
  have ht : ∀ args : List Bytes, AblTail (args.flatMap fun a => ascii ":" ++ asAbtxt a) (args.map fun a => (some Ctr.colon, a)) := by
    intro args
    induction args with
    | nil => exact .nil
    | cons a as ih => exact .colon (spells_abtxt a) ih
  have := call_text hn.1 (spells_self id hn.2) (ht args) .nil
  simpa [callText, ascii] using this

theorem pkt_call (dbg : Bool) (k : PktParams) (base : Ev → Dyn → Scope) (n : Nat) (c : Ctx) {id : Bytes} (hn : id ≠ [] ∧ ∀ c ∈ id, Self c)
    (args : List Bytes) (hl : args.length ≤ 15) : ∃ top, lkEvalPkt dbg k base (n + 1) c (callText id args) =
      call (denote k base (evalD dbg k base n) ⟨[.pkt c], []⟩) top id ([] :: args) true := by
  refine ⟨⟨evalD dbg k base n ⟨[.pkt c], []⟩, (denote k base (evalD dbg k base n) ⟨[.pkt c], []⟩).enc, dbg⟩, ?_⟩
  have hp : parseStrict (callText id args) = .ok _ := parse_of_text (callText_text hn args) false
  unfold lkEvalPkt
  rw [hp]
  show ER.map _ ((evalItems _ _ [_]).map fromItems) = _
  rw [evalItems, match_callList _ _ id hn.1 args hl]
  cases call (denote k base (evalD dbg k base n) ⟨[.pkt c], []⟩) _ id ([] :: args) true <;>
    simp [ER.map, ER.bind, evalItems, fromItems, push, pushBytes, concat, asStr]

theorem call_ar (sc : Scope) (top : Top) (id : Bytes) (args : List Bytes) : call sc top id ([] :: args) true =
    match sc.func top id args true with
    | .value b => .ok b
    | .abort => .abort
    | _ => .err := by
  simp only [call, if_true, List.drop_succ_cons, List.drop_zero]
  cases sc.func top id args true <;> rfl

/-- The names of fields as the table has them. -/
def fieldNames : List Bytes := fieldTable.map (·.1)

theorem fieldNames_self : ∀ n ∈ fieldNames, n ≠ [] ∧ ∀ c ∈ n, Self c := by decide +kernel

/-- `[f]`, `[f:]` and `[f:bytes]` are the bytes of the field. -/
theorem field_bytes_forms (s : Shown) (dbg : Bool) (k : PktParams) (base : Ev → Dyn → Scope) (n : Nat) (recv : Option Nat) (now : Nat) (name b : Bytes)
    (h : (name, b) ∈ s.values) (args : List Bytes) (ha : args = [] ∨ args = [[]] ∨ args = [ascii "bytes"]) :
    lkEvalPkt dbg k base (n + 1) ⟨s.pkt, recv, now⟩ (callText name args) = .ok b := by
  have hmem : name ∈ fieldNames := by
    have h0 : ∀ x ∈ s.values.map (·.1), x ∈ fieldNames := by
      have : s.values.map (·.1) = (routing.map fun r => ascii r.1) ++ (["hash", "type", "size", "pubkey", "signature", "group", "domain", "create",
        "depth", "links_len", "data_size", "data"].map ascii) ++ compNames.map ascii ++ ["spacename", "rspacename"].map ascii := rfl
      rw [this]; decide +kernel
    exact h0 _ (List.mem_map.2 ⟨_, h, rfl⟩)
  obtain ⟨⟨nm, f⟩, he, rfl⟩ := List.mem_map.1 hmem
  have hlen : args.length ≤ 1 := by rcases ha with rfl | rfl | rfl <;> simp
  obtain ⟨top, ht⟩ := pkt_call dbg k base n ⟨s.pkt, recv, now⟩ (fieldNames_self nm hmem) args (by omega)
  obtain ⟨b', hb', hv'⟩ := field_bytes s (nm, f) he
  have huniq : ∀ x ∈ s.values, ∀ y ∈ s.values, x.1 = y.1 → x = y := by
    have hnd : (s.values.map (·.1)).Nodup := by
      have : s.values.map (·.1) = (routing.map fun r => ascii r.1) ++ (["hash", "type", "size", "pubkey", "signature", "group", "domain", "create",
        "depth", "links_len", "data_size", "data"].map ascii) ++ compNames.map ascii ++ ["spacename", "rspacename"].map ascii := rfl
      rw [this]; decide +kernel
    exact fun x hx y hy => nodup_fst hnd hx hy
  have hbb : b = b' := congrArg Prod.snd (huniq _ h _ hv' rfl)
  subst hbb
  rw [ht, call_ar, (seen_front k base _ [] [] _ _).1 (nm, f) he, fields_func k s.pkt _ he args hlen]
  have : fieldApply k s.pkt f args = .value b := by
    unfold fieldApply
    rw [if_neg (by rcases ha with rfl | rfl | rfl <;> decide +kernel), if_neg (by rcases ha with rfl | rfl | rfl <;> decide +kernel), if_pos ha, hb']
    rfl
  show (match fieldApply k s.pkt f args with | .value b => ER.ok b | .abort => .abort | _ => .err) = _
  rw [this]
where
  nodup_fst {l : List (Bytes × Bytes)} (h : (l.map (·.1)).Nodup) {x y : Bytes × Bytes} (hx : x ∈ l) (hy : y ∈ l) (e : x.1 = y.1) : x = y := by
    induction l with
    | nil => cases hx
    | cons a l ih =>
      simp only [List.map_cons, List.nodup_cons] at h
      rcases List.mem_cons.1 hx with rfl | hx'
      · rcases List.mem_cons.1 hy with rfl | hy'
        · rfl
        · exact absurd (List.mem_map.2 ⟨y, hy', e.symm⟩) h.1
      · rcases List.mem_cons.1 hy with rfl | hy'
        · exact absurd (List.mem_map.2 ⟨x, hx', e⟩) h.1
        · exact ih h.2 hx' hy'

/-- `[spacename:str]` reads as the space of the packet.  So does `[rspacename:str]`, although `[rspacename]` are other
bytes: those of the space with eight bytes of offsets in front. -/
theorem space_str_reads (s : Shown) (dbg : Bool) (k : PktParams) (base : Ev → Dyn → Scope) (n : Nat) (recv : Option Nat) (now : Nat) (name : Bytes)
    (hname : name = ascii "spacename" ∨ name = ascii "rspacename") :
    ∃ t, lkEvalPkt dbg k base (n + 1) ⟨s.pkt, recv, now⟩ (callText name [ascii "str"]) = .ok t ∧ ReadsSpace t s.cs := by
  obtain ⟨t, ht, hr⟩ := space_reads s
  refine ⟨t, ?_, hr⟩
  have he : ∃ f, (name, f) ∈ fieldTable ∧ (f = .spacename ∨ f = .rspacename) := by
    rcases hname with rfl | rfl
    · exact ⟨.spacename, by decide +kernel, .inl rfl⟩
    · exact ⟨.rspacename, by decide +kernel, .inr rfl⟩
  obtain ⟨f, he, hf⟩ := he
  obtain ⟨top, hc⟩ := pkt_call dbg k base n ⟨s.pkt, recv, now⟩ (fieldNames_self name (List.mem_map.2 ⟨_, he, rfl⟩)) [ascii "str"] (by simp)
  rw [hc, call_ar, (seen_front k base _ [] [] _ _).1 (name, f) he, fields_func k s.pkt _ he _ (by simp)]
  have : fieldApply k s.pkt f [ascii "str"] = .value t := by
    refine apply_str k s.pkt f ?_
    rcases hf with rfl | rfl
    · show ofComp _ = _; rw [ht]; rfl
    · show ofComp _ = _; rw [ht]; rfl
  show (match fieldApply k s.pkt f _ with | .value b => ER.ok b | .abort => .abort | _ => .err) = _
  rw [this]

/-- Unless the space is empty, the bytes of `[rspacename]` are not those its text reads as. -/
theorem rspacename_differs (cs : List Bytes) (hc : cs ≠ []) : rootedOf cs ≠ encodeSpace cs := by
  intro h
  have h1 : (rootedOf cs).drop 8 = encodeSpace cs := rooted_drop cs
  have h2 := congrArg List.length h1
  rw [h, List.length_drop] at h2
  have h3 : 8 ≤ (rootedOf cs).length := by simp [rootedOf, hc, rootedWith]
  rw [h] at h3
  omega

/-! ## links -/

theorem select_func (k : PktParams) (base : Ev → Dyn → Scope) (ev : Ev) (c : Ctx) (top : Top) (id : Bytes) (hid : id = ascii "links" ∨ id = ascii "link")
    (args : List Bytes) (hv : tableFunc (selectFns c.pkt.getLinks) top id args true ≠ .noValue) :
    (denote k base ev ⟨[.pkt c], []⟩).func top id args true = tableFunc (selectFns c.pkt.getLinks) top id args true := by
  have h1 : tableFunc (fieldFns k c.pkt) top id args true = .noValue := by
    refine tableFunc_none (ids_ne ?_) top args true
    have : ids (fieldFns k c.pkt) = fieldTable.map (·.1) := by simp [ids, fieldFns, Function.comp_def]
    rw [this]; rcases hid with rfl | rfl <;> decide +kernel
  have h2 : tableFunc (printFns k ev ⟨[.pkt c], []⟩ c) top id args true = .noValue := by
    refine tableFunc_none (ids_ne ?_) top args true
    have : ids (printFns k ev ⟨[.pkt c], []⟩ c) = ["pkt", "netpkt", "point", "pkt-quick", "html-quick", "netbytes"].map ascii := rfl
    rw [this]; rcases hid with rfl | rfl <;> decide +kernel
  show AR.orElse (AR.orElse (AR.orElse (tableFunc (fieldFns k c.pkt) top id args true) fun _ => tableFunc (printFns k ev ⟨[.pkt c], []⟩ c) top id args true)
    (fun _ => AR.orElse (tableFunc (selectFns c.pkt.getLinks) top id args true) fun _ => tableFunc (recvFns c) top id args true)) _ = _
  rw [h1, h2]
  revert hv
  cases tableFunc (selectFns c.pkt.getLinks) top id args true <;> simp [AR.orElse]

/-- `[link:suffix]` is where the first link with such a tag points. -/
theorem link_first (s : Shown) (dbg : Bool) (k : PktParams) (base : Ev → Dyn → Scope) (n : Nat) (recv : Option Nat) (now : Nat) (suffix : Bytes)
    (a : List Link) (l : Link) (b : List Link) (hs : s.c.linked.links = a ++ l :: b) (hl : suffix <:+ l.tag) (ha : ∀ x ∈ a, ¬ suffix <:+ x.tag) :
    lkEvalPkt dbg k base (n + 1) ⟨s.pkt, recv, now⟩ (callText (ascii "link") [suffix]) = .ok l.ptr := by
  obtain ⟨top, ht⟩ := pkt_call dbg k base n ⟨s.pkt, recv, now⟩ (id := ascii "link") ⟨by decide +kernel, by decide +kernel⟩ [suffix] (by simp)
  have htag : l.tag.length = 16 := (links_small s).2 l (by rw [sh_links, hs]; simp)
  have hf : firstTailmask s.pkt.getLinks suffix = some l := by
    unfold firstTailmask
    rw [if_neg (by have := hl.length_le; omega), sh_links, hs, List.find?_append, List.find?_eq_none.2 (by
      intro x hx; simpa using ha x hx)]
    simp [hl]
  have hv : tableFunc (selectFns s.pkt.getLinks) top (ascii "link") [suffix] true = .value l.ptr := by
    have : tableFunc (selectFns s.pkt.getLinks) top (ascii "link") [suffix] true = .ofOption ((firstTailmask s.pkt.getLinks suffix).map (·.ptr)) := rfl
    rw [this, hf]; rfl
  rw [ht, call_ar, select_func k base _ _ top _ (.inr rfl) _ (by rw [hv]; nofun), hv]

/-- Without such a link the expression fails. -/
theorem link_missing (s : Shown) (dbg : Bool) (k : PktParams) (base : Ev → Dyn → Scope) (n : Nat) (recv : Option Nat) (now : Nat) (suffix : Bytes)
    (hs : ∀ l ∈ s.c.linked.links, ¬ suffix <:+ l.tag) :
    lkEvalPkt dbg k base (n + 1) ⟨s.pkt, recv, now⟩ (callText (ascii "link") [suffix]) = .err := by
  obtain ⟨top, ht⟩ := pkt_call dbg k base n ⟨s.pkt, recv, now⟩ (id := ascii "link") ⟨by decide +kernel, by decide +kernel⟩ [suffix] (by simp)
  have hf : firstTailmask s.pkt.getLinks suffix = none := by
    unfold firstTailmask
    split
    · rfl
    · rw [sh_links]
      exact List.find?_eq_none.2 (by intro x hx; simpa using hs x hx)
  have hv : tableFunc (selectFns s.pkt.getLinks) top (ascii "link") [suffix] true = .err := by
    have : tableFunc (selectFns s.pkt.getLinks) top (ascii "link") [suffix] true = .ofOption ((firstTailmask s.pkt.getLinks suffix).map (·.ptr)) := rfl
    rw [this, hf]; rfl
  rw [ht, call_ar, select_func k base _ _ top _ (.inr rfl) _ (by rw [hv]; nofun), hv]

/-- A link in a line: tag and pointer. -/
def linkLine (l : Link) : Bytes := asAbtxt l.tag ++ ascii ":" ++ base64 l.ptr

theorem joinLinks_eq (delim : Bytes) (ls : List Link) : joinLinks delim ls = delim.intercalate (ls.map linkLine) := by
  cases ls with
  | nil => rfl
  | cons l ls =>
    have hl : ∀ l, linkText l = linkLine l := fun l => by simp [linkText, linkLine, ascii]
    rw [joinLinks, hl]
    simp only [hl]
    induction ls generalizing l with
    | nil => simp [List.intercalate]
    | cons m ls ih =>
      have := ih m
      rw [List.flatMap_cons, List.append_assoc, this]
      simp [List.intercalate, List.intersperse]

/-- `[links:delim:start:stop:step]` are the links of the Python slice in order, with `delim` between them, as long as a
step past the end fits in a machine word (`slice_overflow_aborts`). -/
theorem links_slice_partial (s : Shown) (dbg : Bool) (k : PktParams) (base : Ev → Dyn → Scope) (n : Nat) (recv : Option Nat) (now : Nat) (delim : Bytes)
    (start stop : Option Int) (step : Int) (hstart : ∀ v, start = some v → -(2 ^ 63) < v ∧ v < 2 ^ 63) (hstop : ∀ v, stop = some v → -(2 ^ 63) < v ∧ v < 2 ^ 63)
    (hne : step ≠ 0) (hlo : -(2 ^ 63) ≤ step) (hhi : step + s.c.linked.links.length < 2 ^ 63) :
    ∃ out, PySlice s.c.linked.links start stop step out ∧
      lkEvalPkt dbg k base (n + 1) ⟨s.pkt, recv, now⟩ (callText (ascii "links") [delim, pyArg start, pyArg stop, pyArg (some step)]) =
        .ok (delim.intercalate (out.map linkLine)) := by
  obtain ⟨top, ht⟩ := pkt_call dbg k base n ⟨s.pkt, recv, now⟩ (id := ascii "links") ⟨by decide +kernel, by decide +kernel⟩
    [delim, pyArg start, pyArg stop, pyArg (some step)] (by simp)
  have hlen := (sh_sizes s).2.1
  obtain ⟨out, ho, hp⟩ := slice_py_partial s.c.linked.links [pyArg start, pyArg stop, pyArg (some step)] start stop step rfl rfl (.inr rfl) hstart hstop
    hne hlo (by omega) (by omega) (by omega)
  refine ⟨out, hp, ?_⟩
  have hv : tableFunc (selectFns s.pkt.getLinks) top (ascii "links") [delim, pyArg start, pyArg stop, pyArg (some step)] true =
      .value (delim.intercalate (out.map linkLine)) := by
    have : tableFunc (selectFns s.pkt.getLinks) top (ascii "links") [delim, pyArg start, pyArg stop, pyArg (some step)] true =
      linksFn s.pkt.getLinks [delim, pyArg start, pyArg stop, pyArg (some step)] := rfl
    rw [this, linksFn, sh_links]
    show (match slice s.c.linked.links [pyArg start, pyArg stop, pyArg (some step)] with
      | .value r => _ | .err => _ | .noValue => _ | .abort => _) = _
    rw [ho]
    show AR.value (joinLinks delim out) = _
    rw [joinLinks_eq]
  rw [ht, call_ar, select_func k base _ _ top _ (.inl rfl) _ (by rw [hv]; nofun), hv]

/-- `[links]` are all links, one a line. -/
theorem links_all (s : Shown) (dbg : Bool) (k : PktParams) (base : Ev → Dyn → Scope) (n : Nat) (recv : Option Nat) (now : Nat) :
    lkEvalPkt dbg k base (n + 1) ⟨s.pkt, recv, now⟩ (callText (ascii "links") []) = .ok ((ascii "\n").intercalate (s.c.linked.links.map linkLine)) := by
  obtain ⟨top, ht⟩ := pkt_call dbg k base n ⟨s.pkt, recv, now⟩ (id := ascii "links") ⟨by decide +kernel, by decide +kernel⟩ [] (by simp)
  have hlen := (sh_sizes s).2.1
  obtain ⟨out, ho, hp⟩ := slice_py_partial s.c.linked.links [] none none 1 rfl rfl (.inl ⟨rfl, rfl⟩) nofun nofun
    (by omega) (by omega) (by omega) (by omega) (by omega)
  have hout : out = s.c.linked.links := by
    apply List.ext_getElem?
    intro i
    rw [hp i]
    have e1 : pyStart s.c.linked.links.length 1 none = 0 := rfl
    have e2 : pyStop s.c.linked.links.length 1 none = s.c.linked.links.length := rfl
    rw [e1, e2]
    by_cases hi : i < s.c.linked.links.length
    · simp [hi]
    · simp [hi]
  have hv : tableFunc (selectFns s.pkt.getLinks) top (ascii "links") [] true = .value ((ascii "\n").intercalate (s.c.linked.links.map linkLine)) := by
    have : tableFunc (selectFns s.pkt.getLinks) top (ascii "links") [] true = linksFn s.pkt.getLinks [] := rfl
    rw [this, linksFn, sh_links]
    show (match slice s.c.linked.links [] with | .value r => _ | .err => _ | .noValue => _ | .abort => _) = _
    rw [ho, hout]
    show AR.value (joinLinks [0x0a] _) = _
    rw [joinLinks_eq]; rfl
  rw [ht, call_ar, select_func k base _ _ top _ (.inl rfl) _ (by rw [hv]; nofun), hv]

/-! ## pages -/

theorem print_func (k : PktParams) (base : Ev → Dyn → Scope) (ev : Ev) (c : Ctx) (top : Top) (id : Bytes)
    (hid : id ∈ ["pkt", "netpkt", "point", "pkt-quick", "html-quick", "netbytes"].map ascii)
    (args : List Bytes) (hv : tableFunc (printFns k ev ⟨[.pkt c], []⟩ c) top id args true ≠ .noValue) :
    (denote k base ev ⟨[.pkt c], []⟩).func top id args true = tableFunc (printFns k ev ⟨[.pkt c], []⟩ c) top id args true := by
  have h1 : tableFunc (fieldFns k c.pkt) top id args true = .noValue := by
    refine tableFunc_none (ids_ne ?_) top args true
    have : ids (fieldFns k c.pkt) = fieldTable.map (·.1) := by simp [ids, fieldFns, Function.comp_def]
    rw [this]; clear hv; revert id; decide +kernel
  show AR.orElse (AR.orElse (AR.orElse (tableFunc (fieldFns k c.pkt) top id args true) fun _ => tableFunc (printFns k ev ⟨[.pkt c], []⟩ c) top id args true) _) _ = _
  rw [h1]
  revert hv
  cases tableFunc (printFns k ev ⟨[.pkt c], []⟩ c) top id args true <;> simp [AR.orElse]

/-- `[pkt]`, `[netpkt]` and `[point]` never fail, and print every part of the packet.  Group, space and key are
expressions that evaluate to them. -/
theorem pkt_page (s : Shown) (dbg : Bool) (k : PktParams) (p : Params) (n : Nat) (recv : Option Nat) (now : Nat) (id : Bytes)
    (hid : id = ascii "pkt" ∨ id = ascii "netpkt" ∨ id = ascii "point") :
    ∃ g sp pk, lkEvalPkt dbg k (fun _ _ => coreScope p) (n + 3) ⟨s.pkt, recv, now⟩ (callText id []) =
        .ok (s.page g sp pk (p.utf8 s.c.linked.data) (ascii "\n") (ascii "\n")) ∧
      (∀ m, EvalsTo dbg (coreScope p) (m + 1) g s.c.linked.group) ∧ ReadsSpace sp s.cs ∧ ∀ m, EvalsTo dbg (coreScope p) (m + 1) pk s.c.pubkey := by
  obtain ⟨g, sp, pk, h, hr⟩ := page_text s dbg k p ⟨s.pkt, recv, now⟩ rfl n ⟨[.pkt ⟨s.pkt, recv, now⟩], []⟩
  refine ⟨g, sp, pk, ?_, hr⟩
  obtain ⟨top, ht⟩ := pkt_call dbg k (coreBase p) (n + 2) ⟨s.pkt, recv, now⟩ (id := id) (by rcases hid with rfl | rfl | rfl <;> exact ⟨by decide +kernel, by decide +kernel⟩) [] (by simp)
  have hv : tableFunc (printFns k (evalD dbg k (coreBase p) (n + 2)) ⟨[.pkt ⟨s.pkt, recv, now⟩], []⟩ ⟨s.pkt, recv, now⟩) top id [] true =
      .value (s.page g sp pk (p.utf8 s.c.linked.data) (ascii "\n") (ascii "\n")) := by
    rw [← h]
    rcases hid with rfl | rfl | rfl <;> rfl
  show lkEvalPkt dbg k (coreBase p) (n + 3) _ _ = _
  rw [ht, call_ar, print_func k _ _ _ top id (by rcases hid with rfl | rfl | rfl <;> decide +kernel) _ (by rw [hv]; nofun), hv]

theorem line_eq (name value : Bytes) : line name value = name ++ ascii "\t" ++ value ++ ascii "\n" := by simp [line, ascii]

/-- What `pkt-quick` puts in front when asked for the time of arrival. -/
def recvLine (add : Bool) (recv : Option Nat) : Bytes :=
  if add then ascii "recv\t" ++ (match recv with | some r => dec r | none => ascii "???") ++ ascii "\n" else []

theorem toStr_page (s : Shown) (k : Consts) (recv : Option Nat) (add : Bool) (limit : Nat) (sp : Bytes) (hsp : displaySpace (getSpace s.pkt) = .ok sp) :
    toStr k s.pkt recv add limit = .ok (recvLine add recv ++ s.page ((groupName k s.c.linked.group).getD (b64Abe s.c.linked.group)) sp (b64Abe s.c.pubkey)
      (k.lossy (s.c.linked.data.take limit)) [] []) := by
  have h1 : typeName s.pkt.parts.header.ptype = s.c.typeText := typeName_content s.c
  have h2 : s.pkt.hash = s.hash := rfl
  have h3 : ∀ b, abStr b = asAbtxt (bare b) := fun b => rfl
  have e1 := sh_links s
  have e2 := sh_data s
  have e3 := sh_domain s
  have e4 := sh_create s
  have e5 := sh_group s
  have e6 := sh_pubkey s
  have hl : Repr.linkLines s.pkt.getLinks = s.linkLines := by
    rw [e1]; unfold Repr.linkLines Shown.linkLines
    simp [h3, ascii]
  have hr : (if add then (match recv with
      | some r => line (ascii "recv") (dec r)
      | none => line (ascii "recv") (ascii "???")) else []) = recvLine add recv := by
    unfold recvLine
    cases add
    · rfl
    · cases recv <;> simp [line_eq, ascii]
  unfold toStr
  rw [hsp]
  have hr' : ∀ X : Bytes, (ER.ok ((if add then (match recv with
      | some r => line (ascii "recv") (dec r)
      | none => line (ascii "recv") (ascii "???")) else []) ++ X) : ER Bytes) = .ok (recvLine add recv ++ X) := fun X => by rw [hr]
  simp only [List.append_assoc]
  refine (hr' _).trans ?_
  rw [hl]
  generalize s.pkt = P at *
  rw [e1, e2, e3, e4, e5, e6, h1, h2, h3]
  simp only [line_eq]
  have a1 : ascii "type\t" = ascii "type" ++ ascii "\t" := by decide +kernel
  have a2 : ascii "\nhash\t" = ascii "\n" ++ ascii "hash" ++ ascii "\t" := by decide +kernel
  have a3 : ascii "\ngroup\t" = ascii "\n" ++ ascii "group" ++ ascii "\t" := by decide +kernel
  have a4 : ascii "\ndomain\t" = ascii "\n" ++ ascii "domain" ++ ascii "\t" := by decide +kernel
  have a5 : ascii "\nspace\t" = ascii "\n" ++ ascii "space" ++ ascii "\t" := by decide +kernel
  have a6 : ascii "\npubkey\t" = ascii "\n" ++ ascii "pubkey" ++ ascii "\t" := by decide +kernel
  have a7 : ascii "\ncreate\t" = ascii "\n" ++ ascii "create" ++ ascii "\t" := by decide +kernel
  have a8 : ascii "\nlinks\t" = ascii "\n" ++ ascii "links" ++ ascii "\t" := by decide +kernel
  have a9 : ascii "data\t" = ascii "data" ++ ascii "\t" := by decide +kernel
  unfold Shown.page
  rw [a1, a2, a3, a4, a5, a6, a7, a8, a9]
  unfold b64Abe
  simp only [List.append_assoc, List.append_nil, List.nil_append]

theorem groupName_reads (dbg : Bool) (p : Params) (k : Consts) (hk : k.publicGrp = p.publicGrp ∧ k.testGrp = p.testGrp) (g : Bytes) (m : Nat) :
    EvalsTo dbg (coreScope p) (m + 1) ((groupName k g).getD (b64Abe g)) g := by
  have hf2 : ∀ top nm, tableFunc (lnsFns p) top (ascii "#") [nm] true = if nm = ascii "0" then .value zeros32 else if nm = ascii "pub" then .value p.publicGrp
      else if nm = ascii "test" then .value p.testGrp else .noValue := fun _ _ => rfl
  have hf : ∀ top nm, (coreScope p).func top (ascii "#") [nm] true = AR.orElse (tableFunc (lnsFns p) top (ascii "#") [nm] true) fun _ => .noValue :=
    fun _ _ => rfl
  have hb : ∀ nm, bracket (ascii "#") nm = ascii "[#:" ++ nm ++ ascii "]" := fun nm => by simp [bracket, ascii]
  unfold groupName
  by_cases h0 : g = Pkt.zeros 32
  · rw [if_pos h0]
    have := evalsTo_bracket dbg (coreScope p) m (id := ascii "#") (by decide +kernel) (by decide +kernel) (spells_self (ascii "0") (by decide +kernel)) (b := g) (by
      rw [hf, hf2, if_pos rfl, h0]; rfl)
    exact this
  · rw [if_neg h0]
    by_cases h1 : g = k.publicGrp
    · rw [if_pos h1]
      have := evalsTo_bracket dbg (coreScope p) m (id := ascii "#") (by decide +kernel) (by decide +kernel) (spells_self (ascii "pub") (by decide +kernel)) (b := g) (by
        rw [hf, hf2, if_neg (by decide +kernel), if_pos rfl, h1, hk.1]; rfl)
      exact this
    · rw [if_neg h1]
      by_cases h2 : g = k.testGrp
      · rw [if_pos h2]
        have := evalsTo_bracket dbg (coreScope p) m (id := ascii "#") (by decide +kernel) (by decide +kernel) (spells_self (ascii "test") (by decide +kernel)) (b := g) (by
          rw [hf, hf2, if_neg (by decide +kernel), if_neg (by decide +kernel), if_pos rfl, h2, hk.2]; rfl)
        exact this
      · rw [if_neg h2]
        exact b_evals dbg _ (core_hasText p) m g

/-- `[pkt-quick:add:limit]` never fails either, with the data cut at the limit and the stamp of arrival on request. -/
theorem pkt_quick_page (s : Shown) (dbg : Bool) (k : PktParams) (p : Params) (hk : k.publicGrp = p.publicGrp ∧ k.testGrp = p.testGrp)
    (base : Ev → Dyn → Scope) (n : Nat) (recv : Option Nat) (now : Nat) (add : Bool) (limit : Nat) (hl : limit < 2 ^ 64) :
    ∃ g sp pk, lkEvalPkt dbg k base (n + 1) ⟨s.pkt, recv, now⟩ (callText (ascii "pkt-quick") [if add then ascii "true" else ascii "false", dec limit]) =
        .ok (recvLine add recv ++ s.page g sp pk (k.lossy (s.c.linked.data.take limit)) [] []) ∧
      (∀ m, EvalsTo dbg (coreScope p) (m + 1) g s.c.linked.group) ∧ ReadsSpace sp s.cs ∧ ∀ m, EvalsTo dbg (coreScope p) (m + 1) pk s.c.pubkey := by
  obtain ⟨sp, hsp, hr⟩ := space_reads s
  refine ⟨_, sp, b64Abe s.c.pubkey, ?_, fun m => groupName_reads dbg p k.toConsts hk _ m, hr, fun m => b_evals dbg _ (core_hasText p) m _⟩
  obtain ⟨top, ht⟩ := pkt_call dbg k base n ⟨s.pkt, recv, now⟩ (id := ascii "pkt-quick") ⟨by decide +kernel, by decide +kernel⟩
    [if add then ascii "true" else ascii "false", dec limit] (by simp)
  have hv : tableFunc (printFns k (evalD dbg k base n) ⟨[.pkt ⟨s.pkt, recv, now⟩], []⟩ ⟨s.pkt, recv, now⟩) top (ascii "pkt-quick")
      [if add then ascii "true" else ascii "false", dec limit] true =
      .value (recvLine add recv ++ s.page ((groupName k.toConsts s.c.linked.group).getD (b64Abe s.c.linked.group)) sp (b64Abe s.c.pubkey)
        (k.lossy (s.c.linked.data.take limit)) [] []) := by
    have h1 : tableFunc (printFns k (evalD dbg k base n) ⟨[.pkt ⟨s.pkt, recv, now⟩], []⟩ ⟨s.pkt, recv, now⟩) top (ascii "pkt-quick")
      [if add then ascii "true" else ascii "false", dec limit] true = quickFn k ⟨s.pkt, recv, now⟩ [if add then ascii "true" else ascii "false", dec limit] := rfl
    rw [h1, quickFn]
    have h2 : limitArg [if add then ascii "true" else ascii "false", dec limit][1]? = some limit := by
      show parseUsize (dec limit) = _
      rw [parseUsize, parseU_dec, if_pos hl]
    have h3 : (match [if add then ascii "true" else ascii "false", dec limit].head? with
        | none => false
        | some a => !(a == ascii "false" || a == [])) = add := by
      cases add
      · show (!(ascii "false" == ascii "false" || ascii "false" == [])) = false; decide +kernel
      · show (!(ascii "true" == ascii "false" || ascii "true" == [])) = true; decide +kernel
    rw [h2]
    simp only
    show (toStr k.toConsts s.pkt recv (match [if add then ascii "true" else ascii "false", dec limit].head? with
        | none => false
        | some a => !(a == ascii "false" || a == [])) limit).toAR = _
    rw [h3, toStr_page s k.toConsts recv add limit sp hsp]; rfl
  rw [ht, call_ar, print_func k _ _ _ top _ (by decide +kernel) _ (by rw [hv]; nofun), hv]

/-- It is not the same text as `[pkt]`, as its help has it: that one ends the page with a new line. -/
theorem pkt_quick_differs (s : Shown) (g sp pk g' sp' pk' d : Bytes) (h : d.getLast? ≠ some 0x0a) (hd : d ≠ []) :
    s.page g sp pk d (ascii "\n") (ascii "\n") ≠ s.page g' sp' pk' d [] [] := by
  intro e
  have h1 : (s.page g sp pk d (ascii "\n") (ascii "\n")).getLast? = some 0x0a := by
    unfold Shown.page
    rw [List.getLast?_append]; rfl
  have h2 : (s.page g' sp' pk' d [] []).getLast? = d.getLast? := by
    unfold Shown.page
    rw [List.append_nil, List.getLast?_append]
    cases hx : d.getLast? with
    | none => exact absurd (List.getLast?_eq_none_iff.1 hx) hd
    | some x => rfl
  rw [e, h2] at h1
  exact h h1

/-- `[netbytes]` are the bytes of the packet: routing header, hash and content. -/
theorem netbytes_layout (s : Shown) (dbg : Bool) (k : PktParams) (base : Ev → Dyn → Scope) (n : Nat) (recv : Option Nat) (now : Nat) :
    lkEvalPkt dbg k base (n + 1) ⟨s.pkt, recv, now⟩ (callText (ascii "netbytes") []) = .ok (s.nh ++ s.hash ++ s.c.layout) := by
  obtain ⟨top, ht⟩ := pkt_call dbg k base n ⟨s.pkt, recv, now⟩ (id := ascii "netbytes") ⟨by decide +kernel, by decide +kernel⟩ [] (by simp)
  obtain ⟨h7, h8⟩ := segments_take7 s.c
  have hv : tableFunc (printFns k (evalD dbg k base n) ⟨[.pkt ⟨s.pkt, recv, now⟩], []⟩ ⟨s.pkt, recv, now⟩) top (ascii "netbytes") [] true =
      .value (s.nh ++ s.hash ++ s.c.layout) := by
    show (match s.pkt.segments top.dbg with | .ok s => AR.value (Segments.bytes s) | .error _ => .abort) = _
    have : s.pkt.segments top.dbg = .ok ((s.nh ++ s.hash) :: s.c.parts.segments.take 7) := by
      show Segments.pushFront _ s.c.parts.segments (s.nh ++ s.hash) = _
      rw [Segments.pushFront, h8]; simp
    rw [this]
    simp [Segments.bytes, h7]
  rw [ht, call_ar, print_func k _ _ _ top _ (by decide +kernel) _ (by rw [hv]; nofun), hv]

/-- `[recv]` is the stamp of arrival, or the present where there is none; `[recv_now]` fails there. -/
theorem recv_stamp (dbg : Bool) (k : PktParams) (base : Ev → Dyn → Scope) (n : Nat) (c : Ctx) :
    lkEvalPkt dbg k base (n + 1) c (callText (ascii "recv") []) = .ok (beBytes 8 (c.recv.getD c.now)) ∧
    lkEvalPkt dbg k base (n + 1) c (callText (ascii "recv_now") []) = (match c.recv with | some r => .ok (beBytes 8 r) | none => .err) := by
  have h : ∀ id, id = ascii "recv" ∨ id = ascii "recv_now" → ∀ top, tableFunc (recvFns c) top id [] true ≠ .noValue →
      (denote k base (evalD dbg k base n) ⟨[.pkt c], []⟩).func top id [] true = tableFunc (recvFns c) top id [] true := by
    intro id hid top hv
    have h1 : tableFunc (fieldFns k c.pkt) top id [] true = .noValue := by
      refine tableFunc_none (ids_ne ?_) top [] true
      have : ids (fieldFns k c.pkt) = fieldTable.map (·.1) := by simp [ids, fieldFns, Function.comp_def]
      rw [this]; rcases hid with rfl | rfl <;> decide +kernel
    have h2 : tableFunc (printFns k (evalD dbg k base n) ⟨[.pkt c], []⟩ c) top id [] true = .noValue := by
      refine tableFunc_none (ids_ne ?_) top [] true
      have : ids (printFns k (evalD dbg k base n) ⟨[.pkt c], []⟩ c) = ["pkt", "netpkt", "point", "pkt-quick", "html-quick", "netbytes"].map ascii := rfl
      rw [this]; rcases hid with rfl | rfl <;> decide +kernel
    have h3 : tableFunc (selectFns c.pkt.getLinks) top id [] true = .noValue := by
      refine tableFunc_none (ids_ne ?_) top [] true
      have : ids (selectFns c.pkt.getLinks) = ["links", "link"].map ascii := rfl
      rw [this]; rcases hid with rfl | rfl <;> decide +kernel
    show AR.orElse (AR.orElse (AR.orElse (tableFunc (fieldFns k c.pkt) top id [] true) fun _ => tableFunc (printFns k (evalD dbg k base n) ⟨[.pkt c], []⟩ c) top id [] true)
      (fun _ => AR.orElse (tableFunc (selectFns c.pkt.getLinks) top id [] true) fun _ => tableFunc (recvFns c) top id [] true)) _ = _
    rw [h1, h2, h3]
    revert hv
    cases tableFunc (recvFns c) top id [] true <;> simp [AR.orElse]
  constructor
  · obtain ⟨top, ht⟩ := pkt_call dbg k base n c (id := ascii "recv") ⟨by decide +kernel, by decide +kernel⟩ [] (by simp)
    have hv : tableFunc (recvFns c) top (ascii "recv") [] true = .value (beBytes 8 (c.recv.getD c.now)) := rfl
    rw [ht, call_ar, h _ (.inl rfl) top (by rw [hv]; nofun), hv]
  · obtain ⟨top, ht⟩ := pkt_call dbg k base n c (id := ascii "recv_now") ⟨by decide +kernel, by decide +kernel⟩ [] (by simp)
    have hv : tableFunc (recvFns c) top (ascii "recv_now") [] true = (match c.recv with | some r => .value (beBytes 8 r) | none => .err) := by
      show (match c.recv with | some s => stampForm s [] | none => AR.err) = _
      cases c.recv <;> rfl
    rw [ht, call_ar, h _ (.inr rfl) top (by rw [hv]; cases c.recv <;> nofun), hv]
    cases c.recv <;> rfl

/-! ## a packet and a template -/

/-- A link point with two links in the space `/a/b`. -/
def demoContent : LinkContent := ⟨List.replicate 32 1, List.replicate 12 0 ++ ascii "demo", 77,
  [⟨List.replicate 15 0 ++ [0x78], List.replicate 32 2⟩, ⟨List.replicate 16 0x79, List.replicate 32 3⟩], rootedOf [ascii "a", ascii "b"], ascii "hi"⟩

def demoShown : Shown where
  nh := List.replicate 32 7
  hash := List.replicate 32 9
  c := .link demoContent
  cs := [ascii "a", ascii "b"]
  nhLen := by simp
  hashLen := by simp
  valid := ⟨by decide +kernel, by decide +kernel, by decide +kernel, by decide +kernel, by unfold LinksSized; decide +kernel, by decide +kernel⟩
  space := ⟨rfl, ⟨by unfold ValidComps; decide +kernel, rfl, by decide +kernel⟩, by decide +kernel⟩

/-- `<[domain:str]>[/links:[i:str]=[ptr:abe]]`, and more. -/
def demoTemplate : Template := ⟨[(ascii "<", .ref (ascii "domain") .str), (ascii ">", .links ⟨[([], .idx, .str), (ascii "=", .ptr, .abe), ([], .field (ascii "create"), .raw)],
  ascii ";\n"⟩), ([], .ref (ascii "comp1") .abe)], ascii "/end"⟩

example : demoTemplate.Ok := by
  intro p hp
  simp only [demoTemplate, List.mem_cons, List.not_mem_nil, or_false] at hp
  rcases hp with rfl | rfl | rfl
  · show okField _ _; unfold okField; decide +kernel
  · intro q hq n hn
    simp only [List.mem_cons, List.not_mem_nil, or_false] at hq
    rcases hq with rfl | rfl | rfl <;> cases hn
    unfold okField; decide +kernel
  · show okField _ _; unfold okField; decide +kernel

example : demoTemplate.text = ascii "<[domain:str]>[/links:[i:str]=[ptr:abe][create];\\n][comp1:abe]\\/end" := by decide +kernel

end Verif.Props
