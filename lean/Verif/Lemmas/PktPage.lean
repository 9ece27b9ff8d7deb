import Verif.Lemmas.Template
import Verif.Props.Eval
/-!
# Lemmas: packets on a page
-/
namespace Verif.Tpl
open Verif Verif.Ast Verif.Abl Verif.Abe Verif.Abtxt Verif.Num Verif.Fit Verif.Pkt Verif.Eval Verif.Repr Verif.Spec

variable (s : Shown)

/-! ### frames hide nothing else -/

theorem tableFunc_none {fns : List Fn} {id : Bytes} (h : ∀ f ∈ fns, f.id ≠ id) (top : Top) (args : List Bytes) (init : Bool) :
    tableFunc fns top id args init = .noValue := by
  unfold tableFunc
  rw [List.find?_eq_none.2 (by intro f hf; simpa using h f hf)]

def ids (fns : List Fn) : List Bytes := fns.map (·.id)
theorem ids_ne {fns : List Fn} {id : Bytes} (h : id ∉ ids fns) : ∀ f ∈ fns, f.id ≠ id :=
  fun f hf e => h (List.mem_map.2 ⟨f, hf, e⟩)

/-- Every name a frame knows. -/
def frameNames : List Bytes := fieldTable.map (·.1) ++
  (["pkt", "netpkt", "point", "pkt-quick", "html-quick", "netbytes", "links", "link", "recv", "recv_now", "ptr", "tag", "i"].map ascii)

theorem not_sub {l : List Bytes} {id : Bytes} (hl : ∀ x ∈ l, x ∈ frameNames) (h : id ∉ frameNames) : id ∉ l := fun hx => h (hl _ hx)

theorem frame_func (k : PktParams) (ev : Ev) (d : Dyn) (f : Frame) {id : Bytes} (h : id ∉ frameNames) (top : Top) (args : List Bytes) (init : Bool) :
    (frameScope k ev d f).func top id args init = .noValue := by
  cases f with
  | link l i =>
    refine tableFunc_none (ids_ne (not_sub ?_ h)) top args init
    have : ids (linkFns l i) = ids (linkFns ⟨[], []⟩ 0) := rfl
    rw [this]; decide +kernel
  | pkt c =>
    have h1 : tableFunc (fieldFns k c.pkt) top id args init = .noValue := by
      refine tableFunc_none (ids_ne (not_sub ?_ h)) top args init
      have : ids (fieldFns k c.pkt) = fieldTable.map (·.1) := by simp [ids, fieldFns, Function.comp_def]
      rw [this]; exact fun x hx => List.mem_append_left _ hx
    have h2 : tableFunc (printFns k ev d c) top id args init = .noValue := by
      refine tableFunc_none (ids_ne (not_sub ?_ h)) top args init
      have : ids (printFns k ev d c) = ["pkt", "netpkt", "point", "pkt-quick", "html-quick", "netbytes"].map ascii := rfl
      rw [this]; decide +kernel
    have h3 : tableFunc (selectFns c.pkt.getLinks) top id args init = .noValue := by
      refine tableFunc_none (ids_ne (not_sub ?_ h)) top args init
      have : ids (selectFns c.pkt.getLinks) = ["links", "link"].map ascii := rfl
      rw [this]; decide +kernel
    have h4 : tableFunc (recvFns c) top id args init = .noValue := by
      refine tableFunc_none (ids_ne (not_sub ?_ h)) top args init
      have : ids (recvFns c) = ["recv", "recv_now"].map ascii := rfl
      rw [this]; decide +kernel
    show AR.orElse (AR.orElse (tableFunc (fieldFns k c.pkt) top id args init) fun _ => tableFunc (printFns k ev d c) top id args init)
      (fun _ => AR.orElse (tableFunc (selectFns c.pkt.getLinks) top id args init) fun _ => tableFunc (recvFns c) top id args init) = _
    rw [h1, h2, h3, h4]; rfl

theorem frame_mac (k : PktParams) (ev : Ev) (d : Dyn) (f : Frame) {id : Bytes} (h : id ≠ ascii "links") (top : Top) (abe : List ABE) :
    (frameScope k ev d f).mac top id abe = .noValue := by
  cases f with
  | link l i => rfl
  | pkt c =>
    have h1 : tableMac [(ascii "links", fun (_ : Top) abe => linksMac ev d c.pkt.getLinks abe)] top id abe = .noValue := by
      unfold tableMac
      rw [List.find?_eq_none.2 (by intro m hm; simp at hm; subst hm; simpa using fun e => h e.symm)]
    show AR.orElse (tableMac [(ascii "links", fun (_ : Top) abe => linksMac ev d c.pkt.getLinks abe)] top id abe) (fun _ => .noValue) = _
    rw [h1]; rfl

theorem tableEnc_none (fns : List Fn) (h : ∀ f ∈ fns, f.toAbe = none) (id : Bytes) (opts : List ABE) (b : Bytes) : tableEnc fns id opts b = .noValue := by
  unfold tableEnc
  rw [List.find?_eq_none.2 (by intro f hf; simp [h f hf])]

theorem frame_enc (k : PktParams) (ev : Ev) (d : Dyn) (f : Frame) (id : Bytes) (opts : List ABE) (b : Bytes) :
    (frameScope k ev d f).enc id opts b = .noValue := by
  cases f with
  | link l i =>
    show tableEnc (linkFns l i) id opts b = _
    refine tableEnc_none _ ?_ id opts b
    intro f hf
    simp only [linkFns, List.mem_cons, List.not_mem_nil, or_false] at hf
    rcases hf with rfl | rfl | rfl <;> rfl
  | pkt c =>
    have h1 : tableEnc (fieldFns k c.pkt) id opts b = .noValue := by
      refine tableEnc_none _ ?_ id opts b
      intro f hf
      obtain ⟨e, -, rfl⟩ := List.mem_map.1 hf
      rfl
    have h2 : tableEnc (printFns k ev d c) id opts b = .noValue := by
      refine tableEnc_none _ ?_ id opts b
      intro f hf
      simp only [printFns, List.mem_cons, List.not_mem_nil, or_false] at hf
      rcases hf with rfl | rfl | rfl | rfl | rfl | rfl <;> rfl
    have h3 : tableEnc (selectFns c.pkt.getLinks) id opts b = .noValue := by
      refine tableEnc_none _ ?_ id opts b
      intro f hf
      simp only [selectFns, List.mem_cons, List.not_mem_nil, or_false] at hf
      rcases hf with rfl | rfl <;> rfl
    have h4 : tableEnc (recvFns c) id opts b = .noValue := by
      refine tableEnc_none _ ?_ id opts b
      intro f hf
      simp only [recvFns, List.mem_cons, List.not_mem_nil, or_false] at hf
      rcases hf with rfl | rfl <;> rfl
    show AR.orElse (AR.orElse (tableEnc (fieldFns k c.pkt) id opts b) fun _ => tableEnc (printFns k ev d c) id opts b)
      (fun _ => AR.orElse (tableEnc (selectFns c.pkt.getLinks) id opts b) fun _ => tableEnc (recvFns c) id opts b) = _
    rw [h1, h2, h3, h4]; rfl

theorem denote_ind (k : PktParams) (base : Ev → Dyn → Scope) (ev : Ev) (d : Dyn) {α : Type} (q : Scope → AR α)
    (hq : ∀ a b, q (a.pair b) = (q a).orElse fun _ => q b) (hf : ∀ f, q (frameScope k ev d f) = .noValue) :
    q (denote k base ev d) = q (base ev d) := by
  have h1 : ∀ (fs : List Frame) (b : Scope), q (fs.foldl (fun s f => s.pair (frameScope k ev d f)) b) = q b := by
    intro fs
    induction fs with
    | nil => intro b; rfl
    | cons f fs ih =>
      intro b
      rw [List.foldl_cons, ih, hq, hf]
      cases q b <;> rfl
  have h2 : ∀ (fs : List Frame) (b : Scope), q (fs.foldr (fun f s => (frameScope k ev d f).pair s) b) = q b := by
    intro fs b
    induction fs with
    | nil => rfl
    | cons f fs ih => rw [List.foldr_cons, hq, hf, ih]; rfl
  rw [denote, h2, h1]

theorem denote_func (k : PktParams) (base : Ev → Dyn → Scope) (ev : Ev) (d : Dyn) {id : Bytes} (h : id ∉ frameNames) (top : Top) (args : List Bytes)
    (init : Bool) : (denote k base ev d).func top id args init = (base ev d).func top id args init :=
  denote_ind k base ev d (fun sc => sc.func top id args init) (fun _ _ => rfl) fun f => frame_func k ev d f h top args init
theorem denote_mac (k : PktParams) (base : Ev → Dyn → Scope) (ev : Ev) (d : Dyn) {id : Bytes} (h : id ≠ ascii "links") (top : Top) (abe : List ABE) :
    (denote k base ev d).mac top id abe = (base ev d).mac top id abe :=
  denote_ind k base ev d (fun sc => sc.mac top id abe) (fun _ _ => rfl) fun f => frame_mac k ev d f h top abe
theorem denote_enc (k : PktParams) (base : Ev → Dyn → Scope) (ev : Ev) (d : Dyn) (id : Bytes) (opts : List ABE) (b : Bytes) :
    (denote k base ev d).enc id opts b = (base ev d).enc id opts b :=
  denote_ind k base ev d (fun sc => sc.enc id opts b) (fun _ _ => rfl) fun f => frame_enc k ev d f id opts b

/-- The scope every expression has is quiet on the names of a packet. -/
theorem core_quiet (p : Params) : Quiet fun _ _ => coreScope p := by
  intro ev d top
  refine ⟨?_, fun abe => rfl⟩
  intro e he args
  have hn : ∀ (fns fns' : List Fn), ids fns = ids fns' → (∀ e ∈ fieldTable, e.1 ∉ ids fns') → tableFunc fns top e.1 args true = .noValue :=
    fun fns fns' h1 h2 => tableFunc_none (ids_ne (by rw [h1]; exact h2 e he)) top args true
  have q : Params := ⟨id, fun _ _ _ => .err, fun _ _ => .err, fun _ _ _ => .err, fun _ _ _ => .err, fun _ _ _ => .err, fun _ _ _ => .err, [], []⟩
  rw [core_func]
  have hb : (basicScope p).func top e.1 args true = .noValue := by
    show AR.orElse (AR.orElse (AR.orElse (tableFunc (bytesFns p.utf8) top e.1 args true) fun _ => tableFunc uintFns top e.1 args true)
      fun _ => tableFunc baseFns top e.1 args true) (fun _ => AR.orElse (AR.orElse (AR.orElse (tableFunc commentFns top e.1 args true)
      fun _ => tableFunc (helpFns p) top e.1 args true) fun _ => tableFunc logicFns top e.1 args true) fun _ => tableFunc encodeFns top e.1 args true) = _
    rw [hn (bytesFns p.utf8) (bytesFns id) rfl (by decide +kernel), hn uintFns _ rfl (by decide +kernel), hn baseFns _ rfl (by decide +kernel),
      hn commentFns _ rfl (by decide +kernel), hn logicFns _ rfl (by decide +kernel), hn encodeFns _ rfl (by decide +kernel),
      tableFunc_none (id := e.1) (fns := helpFns p) (ids_ne (by
        have : ids (helpFns p) = [ascii "help"] := rfl
        rw [this]; clear hn; revert e; decide +kernel))]
    rfl
  rw [hb]
  have hl : tableFunc (lnsFns p) top e.1 args true = .noValue := tableFunc_none (ids_ne (by
    have : ids (lnsFns p) = [ascii "#", ascii "@"] := rfl
    rw [this]; clear hn hb; revert e; decide +kernel)) _ _ _
  have hs : tableFunc (stampFns p) top e.1 args true = .noValue := tableFunc_none (ids_ne (by
    have : ids (stampFns p) = [ascii "us", ascii "now", ascii "epoch", ascii "us++"] := rfl
    rw [this]; clear hn hb hl; revert e; decide +kernel)) _ _ _
  rw [hl, hs, hn spaceFns _ rfl (by decide +kernel)]
  rfl

/-! ### named groups and keys -/

theorem evalD_bracket (dbg : Bool) (k : PktParams) (base : Ev → Dyn → Scope) (m : Nat) (d : Dyn) {name w arg b : Bytes} (hn : name ≠ [] ∧ ∀ c ∈ name, Self c)
    (hf : name ∉ frameNames) (hw : Spells w arg) (h : ∀ ev top, (base ev d).func top name [arg] true = .value b) :
    ∃ abe, parseStrict (bracket name w) = .ok abe ∧ evalD dbg k base (m + 1) d abe = .ok [(none, b)] := by
  have ht : AbeText (bracket name w) [.lst (toAbe (callList name [arg]))] := by
    have := call_text hn.1 (spells_self name hn.2) (s := 0x3a :: (w ++ [])) (args := [arg]) (.colon hw .nil) .nil
    simpa [bracket] using this
  refine ⟨_, parse_of_text ht false, ?_⟩
  show (evalItems (denote k base (evalD dbg k base m) d) _ [_]).map fromItems = _
  rw [evalItems, match_callList _ _ name hn.1 [arg] (by simp), call_value _ _ _ _ b (by rw [denote_func k base _ d hf]; exact h _ _)]
  simp [ER.map, ER.bind, evalItems, fromItems, push, pushBytes]

theorem recheck_bracket (dbg : Bool) (k : PktParams) (base : Ev → Dyn → Scope) (m : Nat) (d : Dyn) (enc : Bytes → List ABE → Bytes → AR Bytes) {name w arg b : Bytes}
    (hn : name ≠ [] ∧ ∀ c ∈ name, Self c) (hf : name ∉ frameNames) (hw : Spells w arg) (h : ∀ ev top, (base ev d).func top name [arg] true = .value b) :
    recheck ⟨evalD dbg k base (m + 1) d, enc, dbg⟩ (bracket name w) b = true := by
  obtain ⟨abe, h1, h2⟩ := evalD_bracket dbg k base m d hn hf hw h
  unfold recheck
  rw [h1]
  simp [h2, asExactBytes]

theorem core_named (p : Params) (id : Bytes) (hid : id = ascii "#" ∨ id = ascii "@") (v : Bytes) (hv : v.length = 32) :
    (coreScope p).enc id [] v = .noValue ∨ ∃ nm, (coreScope p).enc id [] v = .value (bracket id nm) ∧ (∀ c ∈ nm, Self c) ∧
      ∀ top, (coreScope p).func top id [nm] true = .value v := by
  have hfit : fit 32 v = some v := by simp [fit, fitFront, hv]
  rcases hid with rfl | rfl
  · have he : (coreScope p).enc (ascii "#") [] v = AR.orElse (tableEnc (lnsFns p) (ascii "#") [] v) fun _ => .noValue := rfl
    have hf : ∀ top nm, (coreScope p).func top (ascii "#") [nm] true = AR.orElse (tableFunc (lnsFns p) top (ascii "#") [nm] true) fun _ => .noValue :=
      fun _ _ => rfl
    have hf2 : ∀ top nm, tableFunc (lnsFns p) top (ascii "#") [nm] true = if nm = ascii "0" then .value zeros32 else if nm = ascii "pub" then .value p.publicGrp
      else if nm = ascii "test" then .value p.testGrp else .noValue := fun _ _ => rfl
    have he2 : tableEnc (lnsFns p) (ascii "#") [] v = match fit 32 v with
      | none => .noValue
      | some g =>
        if g = zeros32 then .value (bracket (ascii "#") (ascii "0"))
        else if g = p.publicGrp then .value (bracket (ascii "#") (ascii "pub"))
        else if g = p.testGrp then .value (bracket (ascii "#") (ascii "test")) else .noValue := rfl
    rw [hfit] at he2
    simp only at he2
    rw [he, he2]
    by_cases h0 : v = zeros32
    · rw [if_pos h0]
      exact .inr ⟨ascii "0", rfl, by decide +kernel, fun top => by rw [hf, hf2, if_pos rfl, h0]; rfl⟩
    · rw [if_neg h0]
      by_cases h1 : v = p.publicGrp
      · rw [if_pos h1]
        exact .inr ⟨ascii "pub", rfl, by decide +kernel, fun top => by rw [hf, hf2, if_neg (by decide +kernel), if_pos rfl, h1]; rfl⟩
      · rw [if_neg h1]
        by_cases h2 : v = p.testGrp
        · rw [if_pos h2]
          exact .inr ⟨ascii "test", rfl, by decide +kernel, fun top => by
            rw [hf, hf2, if_neg (by decide +kernel), if_neg (by decide +kernel), if_pos rfl, h2]; rfl⟩
        · rw [if_neg h2]; exact .inl rfl
  · have he : (coreScope p).enc (ascii "@") [] v = AR.orElse (tableEnc (lnsFns p) (ascii "@") [] v) fun _ => .noValue := rfl
    have hf : ∀ top nm, (coreScope p).func top (ascii "@") [nm] true = AR.orElse (tableFunc (lnsFns p) top (ascii "@") [nm] true) fun _ => .noValue :=
      fun _ _ => rfl
    have hf2 : ∀ top nm, tableFunc (lnsFns p) top (ascii "@") [nm] true = if nm = ascii "none" then .value zeros32 else .noValue := fun _ _ => rfl
    have he2 : tableEnc (lnsFns p) (ascii "@") [] v = if v = zeros32 then .value (bracket (ascii "@") (ascii "none")) else .noValue := rfl
    rw [he, he2]
    by_cases h0 : v = zeros32
    · rw [if_pos h0]
      exact .inr ⟨ascii "none", rfl, by decide +kernel, fun top => by rw [hf, hf2, if_pos rfl, h0]; rfl⟩
    · rw [if_neg h0]; exact .inl rfl

theorem core_enc_b (p : Params) (v : Bytes) : (coreScope p).enc (ascii "b") [] v = .value (bracket (ascii "b") (base64 v)) := rfl

def asNode (name : Bytes) (e : Bytes) : ABE :=
  .lst [.ctr .fslash, .bytes (ascii "~?"), .ctr .colon, refNode name .raw, .ctr .fslash, .bytes e, .ctr .fslash, .bytes (ascii "b")]

def coreBase (p : Params) : Ev → Dyn → Scope := fun _ _ => coreScope p

theorem encLoop_no (top : Top) (b id : Bytes) (r : List (List ABE)) (h : top.enc id [] b = .noValue) :
    encLoop top b true ([.bytes id] :: r) = encLoop top b true r := by
  rw [encLoop.eq_def]; simp only [optOf, h]
theorem encLoop_value (top : Top) (b id : Bytes) {st : Bytes} (r : List (List ABE)) (h : top.enc id [] b = .value st) (hr : recheck top st b = true) :
    encLoop top b true ([.bytes id] :: r) = .ok st := by
  rw [encLoop.eq_def]; simp only [optOf, h, hr]; simp

/-- Bytes by name if they have one, else in base64. -/
theorem as_text (dbg : Bool) (k : PktParams) (p : Params) (m : Nat) (d : Dyn) (id : Bytes) (hid : id = ascii "#" ∨ id = ascii "@") (v : Bytes) (hv : v.length = 32) :
    ∃ t, encodeAbe ⟨evalD dbg k (coreBase p) (m + 1) d, (denote k (coreBase p) (evalD dbg k (coreBase p) (m + 1)) d).enc, dbg⟩ v
        [.bytes id, .ctr .fslash, .bytes (ascii "b")] true = .ok t ∧ ∀ n, EvalsTo dbg (coreScope p) (n + 1) t v := by
  have hen := denote_enc k (coreBase p) (evalD dbg k (coreBase p) (m + 1)) d
  have hin : id ≠ [] ∧ ∀ c ∈ id, Self c := by rcases hid with rfl | rfl <;> exact ⟨by decide +kernel, by decide +kernel⟩
  have hif : id ∉ frameNames := by rcases hid with rfl | rfl <;> decide +kernel
  have hsplit : splitBy isFslash [ABE.bytes id, .ctr .fslash, .bytes (ascii "b")] = [[.bytes id], [.bytes (ascii "b")]] := rfl
  have hb : recheck ⟨evalD dbg k (coreBase p) (m + 1) d, (denote k (coreBase p) (evalD dbg k (coreBase p) (m + 1)) d).enc, dbg⟩
      (bracket (ascii "b") (base64 v)) v = true :=
    recheck_bracket dbg k (coreBase p) m d _ (by exact ⟨by decide +kernel, by decide +kernel⟩) (by decide +kernel)
      (spells_self _ (urlSafe_self v)) (fun _ top => by
        show (coreScope p).func top _ _ true = _
        rw [(core_hasText p).b, Props.b64_roundtrip]; rfl)
  unfold encodeAbe
  rw [if_neg (by simp), hsplit]
  rcases core_named p id hid v hv with h | ⟨nm, h, hs, hf⟩
  · refine ⟨bracket (ascii "b") (base64 v), ?_, fun n => b_evals dbg _ (core_hasText p) n v⟩
    rw [encLoop_no _ _ _ _ (by rw [← h]; exact hen id [] v)]
    exact encLoop_value _ _ _ _ (by rw [← core_enc_b]; exact hen (ascii "b") [] v) hb
  · have hr := recheck_bracket dbg k (coreBase p) m d (denote k (coreBase p) (evalD dbg k (coreBase p) (m + 1)) d).enc hin hif (spells_self nm hs) (fun _ top => hf top)
    exact ⟨bracket id nm, encLoop_value _ _ _ _ (by rw [← h]; exact hen id [] v) hr, fun n => evalsTo_bracket dbg _ n hin.1 hin.2 (spells_self nm hs) (hf _)⟩

/-! ### the page -/

def pageRow : Row := ⟨[(ascii "\t", .tag, .str), (ascii " ", .ptr, .str)], ascii "\n"⟩

def defNodes : List ABE :=
  [.bytes (ascii "type\t"), refNode (ascii "type") .str, .bytes (ascii "\nhash\t"), refNode (ascii "hash") .str,
   .bytes (ascii "\ngroup\t"), asNode (ascii "group") (ascii "#"), .bytes (ascii "\ndomain\t"), refNode (ascii "domain") .str,
   .bytes (ascii "\nspace\t"), refNode (ascii "spacename") .str, .bytes (ascii "\npubkey\t"), asNode (ascii "pubkey") (ascii "@"),
   .bytes (ascii "\ncreate\t"), refNode (ascii "create") .str, .bytes (ascii "\nlinks\t"), refNode (ascii "links_len") .str, .bytes (ascii "\n"),
   pieceNode (.links pageRow), .bytes (ascii "\ndata\t"), refNode (ascii "data_size") .str, .bytes (ascii "\n"),
   .lst [.bytes (ascii "data"), .ctr .fslash, .bytes (ascii "~utf8")], .bytes (ascii "\n")]

theorem print_def : printAbe defNodes = defaultPkt := by decide +kernel
theorem parse_def : parseStrict defaultPkt = .ok defNodes := by
  rw [← print_def]
  refine parse_of_text (text_of_norm _ ?_) false
  simp [defNodes, Norm, NormOne, refNode, asNode, pieceNode, pageRow, rowParts, lit, toAbe, items, callList, formArgs, NoBytesHead, ascii, ABItem.toAbe, Ref.name]

theorem Yields.cons {sc : Scope} {top : Top} {e : ABE} {es : List ABE} {a b : Bytes} (h : matchExpr sc top e = .ok (.bytes a)) (h2 : Yields sc top es b) :
    Yields sc top (e :: es) (a ++ b) := (Yields.one h).append h2
theorem Yields.text {sc : Scope} {top : Top} {es : List ABE} (a : Bytes) {b : Bytes} (h2 : Yields sc top es b) :
    Yields sc top (.bytes a :: es) (a ++ b) := (Yields.one (e := .bytes a) (b := a) rfl).append h2
theorem Yields.nil (sc : Scope) (top : Top) : Yields sc top [] [] := ⟨[], rfl, rfl⟩

theorem seen_field {k : PktParams} {base : Ev → Dyn → Scope} {c : Ctx} {d : Dyn} (hs : Seen k base c d) (ev : Ev) (top : Top) (name : Bytes) (f : Fd)
    (he : (name, f) ∈ fieldTable) (hn : name ≠ []) (fm : Form) {b : Bytes} (hb : fieldApply k c.pkt f (formArgs fm) = .value b) :
    matchExpr (denote k base ev d) top (refNode name fm) = .ok (.bytes b) := by
  refine match_ref _ top hn fm ?_
  rw [(hs ev top).1 (name, f) he, fields_func k c.pkt top he _ (by cases fm <;> simp [formArgs])]
  exact hb

theorem apply_raw (k : PktParams) (p : NetParts) (f : Fd) {b : Bytes} (h : f.bytes p = .ok b) : fieldApply k p f (formArgs .raw) = .value b := by
  show fieldApply k p f [] = _
  unfold fieldApply
  rw [if_neg nofun, if_neg nofun, if_pos (.inl rfl), h]; rfl
theorem apply_str (k : PktParams) (p : NetParts) (f : Fd) {b : Bytes} (h : f.display k.flags p = .ok b) : fieldApply k p f (formArgs .str) = .value b := by
  show fieldApply k p f [ascii "str"] = _
  unfold fieldApply
  rw [if_neg (by decide +kernel), if_pos rfl, h]; rfl

theorem match_as (dbg : Bool) (k : PktParams) (p : Params) (c : Ctx) (m : Nat) (d : Dyn) (hs : Seen k (coreBase p) c d) (name : Bytes) (f : Fd)
    (he : (name, f) ∈ fieldTable) (hn : name ≠ []) {b : Bytes} (hb : f.bytes c.pkt = .ok b) (hl : b.length = 32) (id : Bytes) (hid : id = ascii "#" ∨ id = ascii "@") :
    ∃ t, matchExpr (denote k (coreBase p) (evalD dbg k (coreBase p) (m + 1)) d)
        ⟨evalD dbg k (coreBase p) (m + 1) d, (denote k (coreBase p) (evalD dbg k (coreBase p) (m + 1)) d).enc, dbg⟩ (asNode name id) = .ok (.bytes t) ∧
      ∀ n, EvalsTo dbg (coreScope p) (n + 1) t b := by
  obtain ⟨t, ht, hr⟩ := as_text dbg k p m d id hid b hl
  refine ⟨t, ?_, hr⟩
  rw [asNode, matchExpr]
  show (macroCall.run _ _ (ascii "~?") _).map _ = _
  unfold macroCall.run
  rw [denote_mac k (coreBase p) _ d (by decide +kernel)]
  have hm : ∀ top abe, encMac true top abe = .value t → (coreScope p).mac top (ascii "~?") abe = .value t := fun top abe h => by
    show AR.orElse (AR.orElse (encMac true top abe) _) _ = _
    rw [h]; rfl
  show ER.map _ (match (coreScope p).mac _ (ascii "~?") _ with | .noValue => _ | .value b => _ | .err => _ | .abort => _) = _
  have hev : evalD dbg k (coreBase p) (m + 1) d [refNode name .raw] = .ok [(none, b)] := by
    show (evalItems _ _ [_]).map fromItems = _
    rw [evalItems, seen_field hs _ _ name f he hn .raw (apply_raw k c.pkt f hb)]
    simp [ER.map, ER.bind, evalItems, fromItems, push, pushBytes]
  have he2 : encMac true ⟨evalD dbg k (coreBase p) (m + 1) d, (denote k (coreBase p) (evalD dbg k (coreBase p) (m + 1)) d).enc, dbg⟩
      [.ctr .colon, refNode name .raw, .ctr .fslash, .bytes id, .ctr .fslash, .bytes (ascii "b")] = .value t := by
    show ((evalD dbg k (coreBase p) (m + 1) d [refNode name .raw]).bind fun l => encodeAbe _ (concat l) [.bytes id, .ctr .fslash, .bytes (ascii "b")] true).toAR = _
    rw [hev]
    show (encodeAbe _ (concat [(none, b)]) _ true).toAR = _
    have : concat [((none : Option Ctr), b)] = b := by simp [concat, asStr]
    rw [this, ht]; rfl
  rw [hm _ _ he2]; rfl

theorem match_utf8 (k : PktParams) (p : Params) (c : Ctx) (d : Dyn) (hs : Seen k (coreBase p) c d) (ev : Ev) (top : Top) :
    matchExpr (denote k (coreBase p) ev d) top (.lst [.bytes (ascii "data"), .ctr .fslash, .bytes (ascii "~utf8")]) = .ok (.bytes (p.utf8 c.pkt.data)) := by
  rw [matchExpr]
  show ER.map _ (applySegs _ top [] (splitFslash [(none, ascii "data"), (some .fslash, ascii "~utf8")])) = _
  have h1 : splitFslash [((none : Option Ctr), ascii "data"), (some .fslash, ascii "~utf8")] = [[(none, ascii "data")], [(some .fslash, ascii "~utf8")]] := by
    simp [splitFslash, segRest]
  have h2 : (denote k (coreBase p) ev d).func top (ascii "data") [] true = .value c.pkt.data := by
    rw [(hs ev top).1 (ascii "data", .data) (by decide +kernel), fields_func k c.pkt top (e := (ascii "data", .data)) (by decide +kernel) _ (by simp)]
    exact apply_raw k c.pkt .data rfl
  have h3 : (denote k (coreBase p) ev d).func top (ascii "~utf8") [c.pkt.data] false = .value (p.utf8 c.pkt.data) := by
    rw [denote_func k (coreBase p) ev d (by decide +kernel)]; rfl
  rw [h1, applySegs.eq_def]
  simp only [List.length_cons, List.length_nil, List.map_nil, Option.isNone]
  rw [if_neg (by omega)]
  rw [call_value _ _ _ [] _ h2]
  simp only [ER.bind]
  rw [applySegs.eq_def]
  simp only [List.length_cons, List.length_nil, List.map_nil, Option.isNone]
  rw [if_neg (by omega)]
  have h4 : call (denote k (coreBase p) ev d) top (ascii "~utf8") [c.pkt.data] false = .ok (p.utf8 c.pkt.data) := by
    simp only [call, Bool.false_eq_true, if_false, h3]
  rw [h4]
  simp [ER.bind, ER.map, applySegs]

theorem rows_lines {i : Nat} {ls : List Link} {o : Bytes} (h : s.RowsAre pageRow i ls o) :
    o = ls.flatMap fun l => ascii "\t" ++ asAbtxt (bare l.tag) ++ ascii " " ++ base64 l.ptr ++ ascii "\n" := by
  induction h with
  | nil => rfl
  | cons hr _ ih =>
    obtain ⟨x, hx, rfl⟩ := hr
    cases hx with
    | cons h1 hx =>
      cases hx with
      | cons h2 hx =>
        cases hx
        have e1 := h1
        have e2 := h2
        simp only [Shown.RefIs, InForm] at e1 e2
        subst e1; subst e2
        rw [ih, List.flatMap_cons]
        simp [pageRow]

theorem key_lens : s.c.linked.group.length = 32 ∧ s.c.pubkey.length = 32 := by
  have h := s.valid
  revert h
  cases s.c with
  | link l => exact fun h => ⟨h.2.group, by simp [Content.pubkey]⟩
  | key l pk sg => exact fun h => ⟨h.2.1.group, h.2.2.1⟩
  | data b => exact fun _ => ⟨by simp [Content.linked], by simp [Content.pubkey]⟩
  | error b => exact fun _ => ⟨by simp [Content.linked], by simp [Content.pubkey]⟩

theorem space_reads : ∃ t, displaySpace (getSpace s.pkt) = .ok t ∧ ReadsSpace t s.cs := by
  have h := sh_cs s
  rw [sh_space]
  refine ⟨displayComps s.cs, ?_, fun dbg p n => ?_⟩
  · rw [displaySpace, Props.space_iter _ _ h.1]; rfl
  · obtain ⟨t, h1, h2⟩ := Props.space_text_roundtrip dbg _ (core_hasText p) n _ _ h.1 h.2
    rw [displaySpace, Props.space_iter _ _ h.1] at h1
    cases h1
    exact h2

theorem pktFn_of (dbg : Bool) (k : PktParams) (base : Ev → Dyn → Scope) (n : Nat) (d : Dyn) (c : Ctx) {b : Bytes}
    (h : Yields (denote k base (evalD dbg k base n) ⟨.pkt c :: d.pre, d.post⟩) ⟨evalD dbg k base n ⟨.pkt c :: d.pre, d.post⟩,
      (denote k base (evalD dbg k base n) ⟨.pkt c :: d.pre, d.post⟩).enc, dbg⟩ defNodes b) :
    pktFn (evalD dbg k base (n + 1)) d c = .value b := by
  obtain ⟨l, hl, -, hcc⟩ := h.exact
  have hev : evalD dbg k base (n + 1) { d with pre := .pkt c :: d.pre } defNodes = .ok l := hl
  unfold pktFn
  rw [parse_def]
  simp only [hev, hcc]

def rawPage (p : NetParts) (g sp pk links data : Bytes) : Bytes :=
  ascii "type\t" ++ (typeName p.parts.header.ptype ++ (ascii "\nhash\t" ++ (base64 p.hash ++ (ascii "\ngroup\t" ++ (g ++
  (ascii "\ndomain\t" ++ (abStr p.getDomain ++ (ascii "\nspace\t" ++ (sp ++ (ascii "\npubkey\t" ++ (pk ++
  (ascii "\ncreate\t" ++ (dec p.getCreate ++ (ascii "\nlinks\t" ++ (dec p.getLinks.length ++ (ascii "\n" ++ (links ++
  (ascii "\ndata\t" ++ (dec p.data.length ++ (ascii "\n" ++ (data ++ (ascii "\n" ++ []))))))))))))))))))))))

theorem rawPage_eq (g sp pk data : Bytes) : rawPage s.pkt g sp pk s.linkLines data = s.page g sp pk data (ascii "\n") (ascii "\n") := by
  have h1 : typeName s.pkt.parts.header.ptype = s.c.typeText := typeName_content s.c
  have h2 : s.pkt.hash = s.hash := rfl
  have h3 : ∀ b, abStr b = asAbtxt (bare b) := fun b => rfl
  have h4 : ascii "\ndata\t" = ascii "\n" ++ ascii "data\t" := by decide +kernel
  unfold rawPage Shown.page
  have e1 := sh_links s
  have e2 := sh_data s
  have e3 := sh_domain s
  have e4 := sh_create s
  generalize s.pkt = P at *
  rw [e1, e2, e3, e4, h1, h2, h3]
  generalize ascii "\ndata\t" = X at *
  subst h4
  simp only [List.append_assoc, List.append_nil]

theorem page_yields (k : PktParams) (p : Params) (c : Ctx) (d : Dyn) (hs : Seen k (coreBase p) c d) (ev : Ev) (top : Top) {g sp pk o : Bytes}
    (hg : matchExpr (denote k (coreBase p) ev d) top (asNode (ascii "group") (ascii "#")) = .ok (.bytes g))
    (hp : matchExpr (denote k (coreBase p) ev d) top (asNode (ascii "pubkey") (ascii "@")) = .ok (.bytes pk))
    (hsp : displaySpace (getSpace c.pkt) = .ok sp)
    (hlk : matchExpr (denote k (coreBase p) ev d) top (pieceNode (.links pageRow)) = .ok (.bytes o)) :
    Yields (denote k (coreBase p) ev d) top defNodes (rawPage c.pkt g sp pk o (p.utf8 c.pkt.data)) := by
  have hst := fun name f he hn b hb => seen_field hs ev top name f he hn .str (apply_str k c.pkt f (b := b) hb)
  refine .text _ (.cons (hst _ .type (by decide +kernel) (by decide +kernel) _ rfl) ?_)
  refine .text _ (.cons (hst _ .hash (by decide +kernel) (by decide +kernel) _ rfl) ?_)
  refine .text _ (.cons hg ?_)
  refine .text _ (.cons (hst _ .domain (by decide +kernel) (by decide +kernel) _ rfl) ?_)
  refine .text _ (.cons (hst _ .spacename (by decide +kernel) (by decide +kernel) sp (by show ofComp _ = _; rw [hsp]; rfl)) ?_)
  refine .text _ (.cons hp ?_)
  refine .text _ (.cons (hst _ .create (by decide +kernel) (by decide +kernel) _ rfl) ?_)
  refine .text _ (.cons (hst _ .linksLen (by decide +kernel) (by decide +kernel) _ rfl) ?_)
  refine .text _ (.cons hlk ?_)
  refine .text _ (.cons (hst _ .dataSize (by decide +kernel) (by decide +kernel) _ rfl) ?_)
  exact .text _ (.cons (match_utf8 k p c _ hs _ _) (.text _ (.nil _ _)))

/-- The page printed for a packet, in any stack. -/
theorem page_text (dbg : Bool) (k : PktParams) (p : Params) (c : Ctx) (hc : c.pkt = s.pkt) (n : Nat) (d : Dyn) :
    ∃ g sp pk, pktFn (evalD dbg k (coreBase p) (n + 2)) d c = .value (s.page g sp pk (p.utf8 s.c.linked.data) (ascii "\n") (ascii "\n")) ∧
      (∀ m, EvalsTo dbg (coreScope p) (m + 1) g s.c.linked.group) ∧ ReadsSpace sp s.cs ∧ ∀ m, EvalsTo dbg (coreScope p) (m + 1) pk s.c.pubkey := by
  obtain ⟨sp, hsp, hsr⟩ := space_reads s
  have hs := seen_front k (coreBase p) c d.pre d.post
  obtain ⟨g, hg, hgr⟩ := match_as dbg k p c n ⟨.pkt c :: d.pre, d.post⟩ hs (ascii "group") .group (by decide +kernel) (by decide +kernel)
    (b := s.c.linked.group) (by rw [hc]; show ER.ok _ = _; rw [sh_group]) (key_lens s).1 (ascii "#") (.inl rfl)
  obtain ⟨pk, hp, hpr⟩ := match_as dbg k p c n ⟨.pkt c :: d.pre, d.post⟩ hs (ascii "pubkey") .pubkey (by decide +kernel) (by decide +kernel)
    (b := s.c.pubkey) (by rw [hc]; show ER.ok _ = _; rw [sh_pubkey]) (key_lens s).2 (ascii "@") (.inr rfl)
  obtain ⟨o, ho, hr⟩ := rows_are s dbg k (coreBase p) c hc n ⟨.pkt c :: d.pre, d.post⟩ (fun l i => seen_front_row k (coreBase p) c d.pre d.post l i) pageRow
    (by intro q hq m hm; simp only [pageRow, List.mem_cons, List.not_mem_nil, or_false] at hq; rcases hq with rfl | rfl <;> cases hm)
    s.pkt.getLinks 0 (links_small s).2 (by have := (links_small s).1; omega)
  have hol := rows_lines s hr
  refine ⟨g, sp, pk, ?_, hgr, hsr, hpr⟩
  have hlk : matchExpr (denote k (coreBase p) (evalD dbg k (coreBase p) (n + 1)) ⟨.pkt c :: d.pre, d.post⟩)
      ⟨evalD dbg k (coreBase p) (n + 1) ⟨.pkt c :: d.pre, d.post⟩, (denote k (coreBase p) (evalD dbg k (coreBase p) (n + 1)) ⟨.pkt c :: d.pre, d.post⟩).enc, dbg⟩
      (pieceNode (.links pageRow)) = .ok (.bytes o) := by
    show matchExpr _ _ (.lst (.ctr .fslash :: .bytes (ascii "links") :: .ctr .colon :: rowParts pageRow.parts pageRow.fin)) = _
    rw [matchExpr]
    show (macroCall.run _ _ (ascii "links") _).map _ = _
    unfold macroCall.run
    rw [(hs _ _).2, hc]
    show ER.map _ (match (linksLoop _ _ _ 0 s.pkt.getLinks).toAR with | .noValue => _ | .value b => _ | .err => _ | .abort => _) = _
    rw [ho]; rfl
  rw [pktFn_of dbg k (coreBase p) (n + 1) d c (page_yields k p c _ hs _ _ hg hp (by rw [hc]; exact hsp) hlk), hc, hol, sh_links, sh_data]
  exact congrArg AR.value (rawPage_eq s g sp pk _)

end Verif.Tpl
