import Verif.Lemmas.Html
import Verif.Props.Template
/-!
# Packets as a fragment of a web page
-/
namespace Verif.Props
open Verif Verif.Abe Verif.Abtxt Verif.Num Verif.Fit Verif.Pkt Verif.Eval Verif.Repr Verif.Spec Verif.Tpl

/-! ## text -/

theorem nameAt_of {tbl : List (Bytes × Bytes)} {r m v : Bytes} (hm : m ≠ []) (hl : tbl.lookup m = some v) (hp : m <+: r)
    (ho : ∀ n, m.length < n → n ≤ r.length → tbl.lookup (r.take n) = none) :
    ∀ n, m.length ≤ n → n ≤ r.length → nameAt tbl r n = some (m.length, v)
  | 0, h, _ => absurd (List.length_eq_zero_iff.1 (Nat.le_zero.1 h)) hm
  | n + 1, h, h' => by
    rw [nameAt]
    by_cases e : m.length = n + 1
    · have : r.take (n + 1) = m := by rw [← e]; exact (List.prefix_iff_eq_take.1 hp).symm
      rw [this, hl, e]
    · rw [ho (n + 1) (by omega) h']
      exact nameAt_of hm hl hp ho n (by omega) (by omega)

theorem escape_no_semicolon {b : Bytes} (h : 0x3b ∉ b) : 0x3b ∉ escapeHtml b := by
  unfold escapeHtml
  intro hm
  obtain ⟨c, hc, hx⟩ := List.mem_flatMap.1 hm
  split at hx
  · revert hx; decide +kernel
  · split at hx
    · revert hx; decide +kernel
    · split at hx
      · revert hx; decide +kernel
      · exact h ((List.mem_singleton.1 hx) ▸ hc)

theorem decode_ref {tbl : List (Bytes × Bytes)} (ht : RefTable tbl) {m v r : Bytes} (hm : m ∈ [ascii "amp", ascii "lt", ascii "gt"])
    (hl : tbl.lookup m = some v) (hr : 0x3b ∉ r) : decodeRefs tbl (0x26 :: (m ++ r)) = v ++ decodeRefs tbl r := by
  have hne : m ≠ [] ∧ 0x3b ∉ m := by clear hl; revert m; decide +kernel
  rw [decodeRefs, if_pos rfl, nameAt_of hne.1 hl (List.prefix_append m r) ?_ (m ++ r).length (by simp) (by simp)]
  · simp
  · intro n h1 h2
    cases hk : tbl.lookup ((m ++ r).take n) with
    | none => rfl
    | some w =>
      exfalso
      have hpre : m <+: (m ++ r).take n := List.prefix_of_prefix_length_le (List.prefix_append m r) (List.take_prefix n _) (by
        rw [List.length_take]; omega)
      rcases ht.longer _ w hk m hm hpre with h | h
      · have := congrArg List.length h
        rw [List.length_take] at this
        omega
      · rcases List.mem_append.1 (List.mem_of_mem_take h) with h | h
        · exact hne.2 h
        · exact hr h

/-- Text without semicolons is shown as it is. -/
theorem html_text_partial (tbl : List (Bytes × Bytes)) (ht : RefTable tbl) (b : Bytes) (h : 0x3b ∉ b) : decodeRefs tbl (escapeHtml b) = b := by
  induction b with
  | nil => simp [escapeHtml, decodeRefs]
  | cons c b ih =>
    have hb : 0x3b ∉ b := fun hc => h (List.mem_cons_of_mem _ hc)
    have he := escape_no_semicolon hb
    have hcons : escapeHtml (c :: b) = (if c = 0x26 then ascii "&amp" else if c = 0x3c then ascii "&lt" else if c = 0x3e then ascii "&gt" else [c]) ++ escapeHtml b := rfl
    rw [hcons]
    by_cases h1 : c = 0x26
    · rw [if_pos h1, h1]
      have := decode_ref ht (m := ascii "amp") (by simp) ht.amp he
      rw [ih hb] at this
      exact this
    · rw [if_neg h1]
      by_cases h2 : c = 0x3c
      · rw [if_pos h2, h2]
        have := decode_ref ht (m := ascii "lt") (by simp) ht.lt he
        rw [ih hb] at this
        exact this
      · rw [if_neg h2]
        by_cases h3 : c = 0x3e
        · rw [if_pos h3, h3]
          have := decode_ref ht (m := ascii "gt") (by simp) ht.gt he
          rw [ih hb] at this
          exact this
        · rw [if_neg h3, List.singleton_append, decodeRefs, if_neg h1, ih hb]

/-- Some of the names of the standard. -/
def someNames : List (Bytes × Bytes) := [(ascii "amp;", ascii "&"), (ascii "amp", ascii "&"), (ascii "lt;", ascii "<"), (ascii "lt", ascii "<"),
  (ascii "gt;", ascii ">"), (ascii "gt", ascii ">"), (ascii "ltcc;", [0xe2, 0xaa, 0xa6]), (ascii "copy", [0xc2, 0xa9])]

theorem lookup_mem {tbl : List (Bytes × Bytes)} {n v : Bytes} (h : tbl.lookup n = some v) : (n, v) ∈ tbl := by
  induction tbl with
  | nil => cases h
  | cons e tbl ih =>
    obtain ⟨a, b⟩ := e
    rw [List.lookup_cons] at h
    split at h
    · rename_i hab
      cases h
      rw [eq_of_beq hab]
      exact List.mem_cons_self
    · exact List.mem_cons_of_mem _ (ih h)

theorem someNames_meets : RefTable someNames where
  amp := by decide +kernel
  lt := by decide +kernel
  gt := by decide +kernel
  longer := by
    intro n v h
    have hm := lookup_mem h
    have key : ∀ e ∈ someNames, ∀ m ∈ [ascii "amp", ascii "lt", ascii "gt"], m <+: e.1 → e.1 = m ∨ 0x3b ∈ e.1 := by decide +kernel
    exact key _ hm

example : decodeRefs someNames (escapeHtml (ascii "a<b & c>d &amp")) = ascii "a<b & c>d &amp" := by decide +kernel

/-- The escapes end without a semicolon, so one that follows is taken for their end: `<;` is shown as `<`. -/
theorem html_semicolon_lost : decodeRefs someNames (escapeHtml (ascii "<;")) = ascii "<" := by decide +kernel
/-- It may also make the name of something else: `<cc;` is shown as one other character. -/
theorem html_other_char : decodeRefs someNames (escapeHtml (ascii "<cc;")) = [0xe2, 0xaa, 0xa6] := by decide +kernel

/-! ## the fragment -/

/-- `[html-quick]` never fails, and read as markup it is the fragment of the packet: no content of the packet makes or ends a
tag or an attribute. -/
theorem html_marks (dbg : Bool) (k : PktParams) (base : Ev → Dyn → Scope) (n : Nat) :
    ∃ short txt : Bytes → Bytes, (∀ tbl, RefTable tbl → ∀ b, 0x3b ∉ b → decodeRefs tbl (txt b) = b) ∧ ∀ (s : Shown) recv now, ∃ out,
      lkEvalPkt dbg k base (n + 1) ⟨s.pkt, recv, now⟩ (callText (ascii "html-quick") []) = .ok out ∧
      marks .text out = some (s.html short txt (k.lossy s.c.linked.data)) := by
  refine ⟨shortOf k.toConsts, escapeHtml, html_text_partial, fun s recv now => ?_⟩
  obtain ⟨out, h1, h2⟩ := html_emit k.toConsts s
  refine ⟨out, ?_, h2.marks⟩
  obtain ⟨top, ht⟩ := pkt_call dbg k base n ⟨s.pkt, recv, now⟩ (id := ascii "html-quick") ⟨by decide +kernel, by decide +kernel⟩ [] (by simp)
  have hv : tableFunc (printFns k (evalD dbg k base n) ⟨[.pkt ⟨s.pkt, recv, now⟩], []⟩ ⟨s.pkt, recv, now⟩) top (ascii "html-quick") [] true = .value out := by
    show (toHtml k.toConsts s.pkt true).toAR = _
    rw [h1]; rfl
  rw [ht, call_ar, print_func k _ _ _ top _ (by decide +kernel) _ (by rw [hv]; nofun), hv]

/-- The tags with the names of their attributes. -/
def shape (ms : List Mark) : List Mark := ms.filterMap fun
  | .opening n as => some (.opening n (as.map fun a => (a.1, [])))
  | .closing n => some (.closing n)
  | .char _ => none

theorem shape_append (a b : List Mark) : shape (a ++ b) = shape a ++ shape b := List.filterMap_append
theorem shape_chars (t : Bytes) : shape (chars t) = [] := by
  unfold shape chars
  induction t with
  | nil => rfl
  | cons c t ih => simpa using ih
theorem shape_elem (name : String) (as : List (Bytes × Bytes)) (ms : List Mark) :
    shape (elem name as ms) = elem name (as.map fun a => (a.1, [])) (shape ms) := by
  show shape ([.opening (ascii name) as] ++ (ms ++ [.closing (ascii name)])) = _
  rw [shape_append, shape_append]; rfl

theorem shape_comps (txt : Bytes → Bytes) (i : Nat) (cs cs' : List Bytes) (h : cs.length = cs'.length) :
    shape (compMarks txt i cs) = shape (compMarks txt i cs') := by
  induction cs generalizing i cs' with
  | nil =>
    cases cs' with
    | nil => rfl
    | cons => cases h
  | cons c cs ih =>
    cases cs' with
    | nil => cases h
    | cons c' cs' =>
      simp only [compMarks, shape_append, shape_elem, shape_chars, List.map]
      rw [ih (i + 1) cs' (by simpa using h)]

theorem shape_links (short txt : Bytes → Bytes) (ls ls' : List Link) (h : ls.length = ls'.length) :
    shape (linkMarks short txt ls) = shape (linkMarks short txt ls') := by
  unfold linkMarks
  induction ls generalizing ls' with
  | nil =>
    cases ls' with
    | nil => rfl
    | cons => cases h
  | cons c cs ih =>
    cases ls' with
    | nil => cases h
    | cons c' cs' =>
      rw [List.flatMap_cons, List.flatMap_cons, shape_append, shape_append, ih cs' (by simpa using h)]
      simp only [shape_append, shape_elem, shape_chars, coded, List.map]

/-- The tags depend on nothing but the type, the number of components and the number of links. -/
theorem html_shape (short txt : Bytes → Bytes) (s s' : Shown) (d d' : Bytes) (h1 : s.c.type = s'.c.type) (h2 : s.cs.length = s'.cs.length)
    (h3 : s.c.linked.links.length = s'.c.linked.links.length) : shape (s.html short txt d) = shape (s'.html short txt d') := by
  have hcomps := shape_comps txt 0 _ _ h2
  have hlinks := shape_links short txt _ _ h3
  have hf : shape (fieldMarks short txt s.c.linked s.cs) = shape (fieldMarks short txt s'.c.linked s'.cs) := by
    simp only [fieldMarks, shape_append, shape_elem, shape_chars, coded, List.map, hcomps, hlinks]
  unfold Shown.html
  cases hc : s.c with
  | data b =>
    cases hc' : s'.c <;> rw [hc, hc'] at h1 <;> simp only [Content.type] at h1
    all_goals first | (exact absurd h1 (by decide)) | skip
    simp only [shape_append, shape_elem, shape_chars, coded, List.map, List.map_append]
  | error b =>
    cases hc' : s'.c <;> rw [hc, hc'] at h1 <;> simp only [Content.type] at h1
    all_goals first | (exact absurd h1 (by decide)) | skip
    simp only [shape_append, shape_elem, shape_chars, coded, List.map, List.map_append]
  | link l =>
    cases hc' : s'.c <;> rw [hc, hc'] at h1 hf <;> simp only [Content.type] at h1
    all_goals first | (exact absurd h1 (by decide)) | skip
    simp only [Content.linked] at hf
    simp only [shape_append, shape_elem, shape_chars, coded, List.map, List.map_append, hf]
  | key l pk sg =>
    cases hc' : s'.c <;> rw [hc, hc'] at h1 hf <;> simp only [Content.type] at h1
    all_goals first | (exact absurd h1 (by decide)) | skip
    simp only [Content.linked] at hf
    simp only [shape_append, shape_elem, shape_chars, coded, List.map, List.map_append, hf]

/-! ## what the fragment tells -/

/-- The attributes of the tags. -/
def tagAttrs (ms : List Mark) : List (List (Bytes × Bytes)) := ms.filterMap fun
  | .opening _ as => some as
  | _ => none

theorem tagAttrs_append (a b : List Mark) : tagAttrs (a ++ b) = tagAttrs a ++ tagAttrs b := List.filterMap_append
theorem tagAttrs_chars (t : Bytes) : tagAttrs (chars t) = [] := by
  unfold tagAttrs chars
  induction t with
  | nil => rfl
  | cons c t ih => simpa using ih
theorem tagAttrs_elem (name : String) (as : List (Bytes × Bytes)) (ms : List Mark) : tagAttrs (elem name as ms) = as :: tagAttrs ms := by
  show tagAttrs ([.opening (ascii name) as] ++ (ms ++ [.closing (ascii name)])) = _
  rw [tagAttrs_append, tagAttrs_append]
  simp [tagAttrs]

theorem base64_inj {a b : Bytes} (h : base64 a = base64 b) : a = b := by
  have h1 := b64_roundtrip a
  rw [h, b64_roundtrip b] at h1
  cases h1; rfl

theorem dec_inj' {a b : Nat} (h : dec a = dec b) : a = b := by
  have h1 := parseU_dec (a + b + 1) a
  rw [h, parseU_dec, if_pos (by omega), if_pos (by omega)] at h1
  cases h1; rfl

theorem links_tell (short txt : Bytes → Bytes) {ls ls' : List Link} {x x' : List (List (Bytes × Bytes))} (hl : ls.length = ls'.length)
    (h : tagAttrs (linkMarks short txt ls) ++ x = tagAttrs (linkMarks short txt ls') ++ x') : ls = ls' := by
  induction ls generalizing ls' with
  | nil =>
    cases ls' with
    | nil => rfl
    | cons => cases hl
  | cons l ls ih =>
    cases ls' with
    | nil => cases hl
    | cons l' ls' =>
      have he : ∀ l ls, tagAttrs (linkMarks short txt (l :: ls)) = [(ascii "lk-link-tag", base64 l.tag)] :: [(ascii "lk-tag", base64 l.tag)] ::
          [(ascii "lk-ptr", base64 l.ptr), (ascii "class", ascii "lk-b64 lk-c" ++ colour l.ptr 14 ++ ascii " lk-d" ++ colour l.ptr 15)] ::
            tagAttrs (linkMarks short txt ls) := by
        intro l ls
        unfold linkMarks
        rw [List.flatMap_cons, tagAttrs_append]
        simp only [tagAttrs_append, tagAttrs_elem, tagAttrs_chars, coded]
        rfl
      rw [he, he] at h
      simp only [List.cons_append, List.cons.injEq, Prod.mk.injEq, true_and, and_true] at h
      obtain ⟨h1, -, ⟨h2, -⟩, h3⟩ := h
      rw [ih (by simpa using hl) h3]
      have e1 := base64_inj h1
      have e2 := base64_inj h2
      cases l; cases l'
      simp only at e1 e2
      rw [e1, e2]

/-- Two packets with the same fragment have the same hash, type, key, group, domain, space, stamp and links. -/
theorem html_tells (short txt : Bytes → Bytes) (s s' : Shown) (d d' : Bytes) (h : s.html short txt d = s'.html short txt d') :
    s.hash = s'.hash ∧ s.c.type = s'.c.type ∧ s.c.pubkey = s'.c.pubkey ∧ s.c.linked.group = s'.c.linked.group ∧ s.c.linked.domain = s'.c.linked.domain ∧
    s.cs = s'.cs ∧ s.c.linked.stamp = s'.c.linked.stamp ∧ s.c.linked.links = s'.c.linked.links := by
  have hf : ∀ (l l' : LinkContent) (x x' : List (List (Bytes × Bytes))),
      tagAttrs (fieldMarks short txt l s.cs) ++ x = tagAttrs (fieldMarks short txt l' s'.cs) ++ x' →
      l.group = l'.group ∧ l.domain = l'.domain ∧ s.cs = s'.cs ∧ l.stamp = l'.stamp ∧ l.links = l'.links := by
    intro l l' x x' h
    simp only [fieldMarks, tagAttrs_append, tagAttrs_elem, tagAttrs_chars, coded, List.cons_append, List.nil_append, List.append_assoc, List.append_nil,
      List.cons.injEq, Prod.mk.injEq, true_and, and_true] at h
    obtain ⟨h1, ⟨h2, -⟩, h3, -, ⟨h4, -⟩, h5⟩ := h
    have hcs : s.cs = s'.cs := Space.encode_inj (sh_cs s).1.comps (sh_cs s').1.comps (base64_inj h4)
    rw [hcs] at h5
    have h6 := List.append_cancel_left h5
    simp only [List.cons.injEq, Prod.mk.injEq, true_and, and_true] at h6
    obtain ⟨h7, -, h8⟩ := h6
    exact ⟨base64_inj h2, base64_inj h1, hcs, dec_inj' h3, links_tell short txt (dec_inj' h7) h8⟩
  have h0 := congrArg tagAttrs h
  unfold Shown.html at h0
  simp only [tagAttrs_append, tagAttrs_elem, tagAttrs_chars, coded, List.cons_append, List.nil_append, List.append_assoc, List.append_nil,
    List.cons.injEq, Prod.mk.injEq, true_and, and_true] at h0
  obtain ⟨⟨h1, h2, -, h3⟩, -, h4⟩ := h0
  have hh : s.hash = s'.hash := base64_inj h1
  have ht : s.c.type = s'.c.type := UInt8.toNat_inj.1 (dec_inj' h2)
  refine ⟨hh, ht, ?_⟩
  have hcs := s.space
  have hcs' := s'.space
  cases hc : s.c with
  | data b =>
    cases hc' : s'.c <;> rw [hc, hc'] at ht <;> simp only [Content.type] at ht
    all_goals first | (exact absurd ht (by decide)) | skip
    rw [hc] at hcs
    rw [hc'] at hcs'
    exact ⟨rfl, rfl, rfl, hcs.trans hcs'.symm, rfl, rfl⟩
  | error b =>
    cases hc' : s'.c <;> rw [hc, hc'] at ht <;> simp only [Content.type] at ht
    all_goals first | (exact absurd ht (by decide)) | skip
    rw [hc] at hcs
    rw [hc'] at hcs'
    exact ⟨rfl, rfl, rfl, hcs.trans hcs'.symm, rfl, rfl⟩
  | link l =>
    cases hc' : s'.c <;> rw [hc, hc'] at ht h4 <;> simp only [Content.type] at ht
    all_goals first | (exact absurd ht (by decide)) | skip
    exact ⟨rfl, hf _ _ _ _ h4⟩
  | key l pk sg =>
    cases hc' : s'.c <;> rw [hc, hc'] at ht h4 h3 <;> simp only [Content.type] at ht
    all_goals first | (exact absurd ht (by decide)) | skip
    simp only [tagAttrs_append, tagAttrs_elem, tagAttrs_chars, List.cons_append, List.nil_append, List.append_assoc,
      List.cons.injEq, Prod.mk.injEq, true_and, and_true] at h4 h3
    exact ⟨base64_inj h3.1, hf _ _ _ _ h4.2⟩

/-- The same of the texts. -/
theorem html_same (dbg : Bool) (k : PktParams) (base : Ev → Dyn → Scope) (n : Nat) (s s' : Shown) (r r' : Option Nat) (t t' : Nat)
    (h : lkEvalPkt dbg k base (n + 1) ⟨s.pkt, r, t⟩ (callText (ascii "html-quick") []) =
      lkEvalPkt dbg k base (n + 1) ⟨s'.pkt, r', t'⟩ (callText (ascii "html-quick") [])) :
    s.hash = s'.hash ∧ s.c.type = s'.c.type ∧ s.c.pubkey = s'.c.pubkey ∧ s.c.linked.group = s'.c.linked.group ∧ s.c.linked.domain = s'.c.linked.domain ∧
    s.cs = s'.cs ∧ s.c.linked.stamp = s'.c.linked.stamp ∧ s.c.linked.links = s'.c.linked.links := by
  obtain ⟨short, txt, -, hm⟩ := html_marks dbg k base n
  obtain ⟨o, h1, h2⟩ := hm s r t
  obtain ⟨o', h1', h2'⟩ := hm s' r' t'
  rw [h1, h1'] at h
  cases h
  rw [h2] at h2'
  exact html_tells short txt s s' _ _ (Option.some.inj h2')

/-- A packet with markup in its domain, tag, space and data. -/
def evilContent : LinkContent := ⟨List.replicate 32 1, List.replicate 3 0 ++ ascii "'><script>//&", 77,
  [⟨List.replicate 7 0 ++ ascii "</li><b>x", List.replicate 32 2⟩, ⟨List.replicate 16 0x79, List.replicate 32 3⟩],
  rootedOf [ascii "<a href='x'>", ascii "b"], ascii "</pre></div><script>"⟩

def evilShown : Shown where
  nh := List.replicate 32 7
  hash := List.replicate 32 9
  c := .link evilContent
  cs := [ascii "<a href='x'>", ascii "b"]
  nhLen := by simp
  hashLen := by simp
  valid := ⟨by decide +kernel, by decide +kernel, by decide +kernel, by decide +kernel, by unfold LinksSized; decide +kernel, by decide +kernel⟩
  space := ⟨rfl, ⟨by unfold ValidComps; decide +kernel, rfl, by decide +kernel⟩, by decide +kernel⟩

example (short txt : Bytes → Bytes) (d d' : Bytes) : shape (evilShown.html short txt d) = shape (demoShown.html short txt d') :=
  html_shape short txt _ _ d d' rfl rfl rfl

/-- Not every text reads as markup, and a reading tells tags from text. -/
example : marks .text (ascii "<b a='1' >x</b>") = some [.opening (ascii "b") [(ascii "a", ascii "1")], .char 0x78, .closing (ascii "b")] ∧
    marks .text (ascii "a<script") = none := by decide +kernel

end Verif.Props
