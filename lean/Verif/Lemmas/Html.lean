import Verif.Spec.Html
import Verif.Lemmas.Template
import Verif.Props.Logic
/-! # Reading the fragment of a packet -/
namespace Verif.Props
open Verif Verif.Abe Verif.Abtxt Verif.Num Verif.Fit Verif.Pkt Verif.Eval Verif.Repr Verif.Spec Verif.Tpl

theorem marks_cons {a a' : Spot} {c : UInt8} {o : List Mark} (h : a.step c = some (a', o)) (r : Bytes) :
    marks a (c :: r) = (marks a' r).map (o ++ ·) := by
  rw [marks, h]

theorem marks_cons' {a a' : Spot} {c : UInt8} (h : a.step c = some (a', [])) (r : Bytes) : marks a (c :: r) = marks a' r := by
  rw [marks_cons h]; simp

/-- The text is read as these marks, whatever follows. -/
def Emits (t : Bytes) (ms : List Mark) : Prop := ∀ rest, marks .text (t ++ rest) = (marks .text rest).map (ms ++ ·)

theorem Emits.marks {t ms} (h : Emits t ms) : Spec.marks .text t = some ms := by
  have := h []
  simpa [Spec.marks] using this

theorem Emits.append {t u ms ns} (h : Emits t ms) (h' : Emits u ns) : Emits (t ++ u) (ms ++ ns) := by
  intro rest
  rw [List.append_assoc, h, h', Option.map_map]
  congr 1
  funext x
  simp

theorem Emits.nil : Emits [] [] := by intro rest; simp

theorem Emits.chars {t : Bytes} (h : 0x3c ∉ t) : Emits t (chars t) := by
  induction t with
  | nil => exact Emits.nil
  | cons c t ih =>
    intro rest
    rw [List.cons_append, marks_cons (a' := .text) (o := [.char c]) (by
      rw [Spot.step]; exact if_neg (fun e => h (by simp [e]))), ih (fun hc => h (List.mem_cons_of_mem _ hc)) rest, Option.map_map]
    rfl

/-- Characters of values. -/
def Plain (v : Bytes) : Prop := ∀ c ∈ v, c ≠ 0x27 ∧ c ≠ 0x26 ∧ c ≠ 0x3c ∧ c ≠ 0x3b

theorem read_value (n as a) (v : Bytes) (hv : Plain v) (acc r : Bytes) :
    marks (.value n as a acc) (v ++ 0x27 :: r) = marks (.after n (as ++ [(a, acc ++ v)])) r := by
  induction v generalizing acc with
  | nil => rw [List.nil_append, marks_cons' (by rw [Spot.step]; exact if_pos rfl)]; simp
  | cons c v ih =>
    have hc := hv c List.mem_cons_self
    rw [List.cons_append, marks_cons' (a' := .value n as a (acc ++ [c])) (by rw [Spot.step, if_neg hc.1, if_neg hc.2.1]),
      ih (fun x hx => hv x (List.mem_cons_of_mem _ hx))]
    simp

theorem read_attr_rest (n as) (w : Bytes) (hw : ∀ c ∈ w, isAttrChar c = true) (acc r : Bytes) :
    marks (.attr n as acc) (w ++ 0x3d :: r) = marks (.eq n as (acc ++ w)) r := by
  induction w generalizing acc with
  | nil => rw [List.nil_append, marks_cons' (by rw [Spot.step]; exact if_pos rfl)]; simp
  | cons c w ih =>
    have hc := hw c List.mem_cons_self
    have hn : c ≠ 0x3d := by rintro rfl; cases hc
    rw [List.cons_append, marks_cons' (a' := .attr n as (acc ++ [c])) (by rw [Spot.step, if_neg hn, if_pos hc]),
      ih (fun x hx => hw x (List.mem_cons_of_mem _ hx))]
    simp

/-- A name of an attribute. -/
def AttrName (a : Bytes) : Prop := ∃ c w, a = c :: w ∧ isLower c = true ∧ ∀ x ∈ w, isAttrChar x = true

theorem lower_facts {c : UInt8} (h : isLower c = true) : c ≠ 0x3e ∧ isBlank c = false := by
  revert c; apply Abtxt.all_u8; decide +kernel

theorem read_attr (n as) {a v : Bytes} (ha : AttrName a) (hv : Plain v) (r : Bytes) :
    marks (.gap n as) (attr a v ++ r) = marks (.after n (as ++ [(a, v)])) r := by
  obtain ⟨c, w, rfl, hc, hw⟩ := ha
  have h0 : attr (c :: w) v ++ r = c :: (w ++ 0x3d :: (0x27 :: (v ++ 0x27 :: r))) := by simp [attr, ascii]
  have hl := lower_facts hc
  rw [h0, marks_cons' (a' := .attr n as [c]) (by rw [Spot.step, if_neg hl.1, hl.2, if_pos hc]; rfl), read_attr_rest n as w hw,
    marks_cons' (a' := .value n as ([c] ++ w) []) (by rw [Spot.step, if_pos rfl]), read_value n as _ v hv]
  rfl

/-- `t` leads from one place to another without a mark. -/
def Leads (a : Spot) (t : Bytes) (b : Spot) : Prop := ∀ r, marks a (t ++ r) = marks b r

theorem Leads.trans {a b c t u} (h : Leads a t b) (h' : Leads b u c) : Leads a (t ++ u) c := by
  intro r; rw [List.append_assoc, h, h']

theorem Leads.attr (n as) {a v : Bytes} (ha : AttrName a) (hv : Plain v) : Leads (.gap n as) (Repr.attr a v) (.after n (as ++ [(a, v)])) :=
  fun r => read_attr n as ha hv r

theorem Leads.blank (n as) : Leads (.after n as) (ascii " ") (.gap n as) := fun _ => marks_cons' rfl _
theorem Leads.line (n as) : Leads (.after n as) (ascii "\n") (.gap n as) := fun _ => marks_cons' rfl _
theorem Leads.blank' (n as) : Leads (.gap n as) (ascii " ") (.gap n as) := fun _ => marks_cons' rfl _
theorem Leads.line' (n as) : Leads (.gap n as) (ascii "\n") (.gap n as) := fun _ => marks_cons' rfl _

theorem end_after {t : Bytes} {n as} (h : Leads .text t (.after n as)) : Emits (t ++ ascii ">") [.opening n as] := by
  intro r; rw [List.append_assoc, h]; exact marks_cons rfl _
theorem end_gap {t : Bytes} {n as} (h : Leads .text t (.gap n as)) : Emits (t ++ ascii ">") [.opening n as] := by
  intro r; rw [List.append_assoc, h]; exact marks_cons rfl _

/-- The place after characters that make no marks. -/
def quiet : Spot → Bytes → Option Spot
  | a, [] => some a
  | a, c :: r =>
    match a.step c with
    | some (a', []) => quiet a' r
    | _ => none

theorem leads_quiet {a b : Spot} {t : Bytes} (h : quiet a t = some b) : Leads a t b := by
  intro r
  induction t generalizing a with
  | nil => cases h; rfl
  | cons c t ih =>
    rw [quiet] at h
    split at h
    · rename_i a' hs
      rw [List.cons_append, marks_cons' hs]
      exact ih h
    · cases h

theorem open_span : Leads .text (ascii "<span ") (.gap (ascii "span") []) := leads_quiet rfl
theorem open_div : Leads .text (ascii "<div ") (.gap (ascii "div") []) := leads_quiet rfl
theorem open_li : Leads .text (ascii "<li ") (.gap (ascii "li") []) := leads_quiet rfl
theorem open_ol : Leads .text (ascii "<ol ") (.gap (ascii "ol") []) := leads_quiet rfl
theorem open_pre : Leads .text (ascii "<pre ") (.gap (ascii "pre") []) := leads_quiet rfl

theorem close_of {n t : Bytes} (h : Leads .text t (.close n)) : Emits (t ++ ascii ">") [.closing n] := by
  intro r; rw [List.append_assoc, h]; exact marks_cons rfl _
theorem close_span : Emits (ascii "</span>") [.closing (ascii "span")] := close_of (t := ascii "</span") (leads_quiet rfl)
theorem close_div : Emits (ascii "</div>") [.closing (ascii "div")] := close_of (t := ascii "</div") (leads_quiet rfl)
theorem close_li : Emits (ascii "</li>") [.closing (ascii "li")] := close_of (t := ascii "</li") (leads_quiet rfl)
theorem close_ol : Emits (ascii "</ol>") [.closing (ascii "ol")] := close_of (t := ascii "</ol") (leads_quiet rfl)
theorem close_pre : Emits (ascii "</pre>") [.closing (ascii "pre")] := close_of (t := ascii "</pre") (leads_quiet rfl)
theorem emits_line : Emits (ascii "\n") (chars (ascii "\n")) := Emits.chars (by decide +kernel)

/-! ## values -/

theorem base64_plain (b : Bytes) : Plain (base64 b) := by
  intro c hc
  rw [base64, b64Enc_sext] at hc
  obtain ⟨d, hd, rfl⟩ := List.mem_map.1 hc
  have key : ∀ d : Fin 64, urlSafe.char d.1 ≠ 0x27 ∧ urlSafe.char d.1 ≠ 0x26 ∧ urlSafe.char d.1 ≠ 0x3c ∧ urlSafe.char d.1 ≠ 0x3b := by decide +kernel
  exact key ⟨d, sext_lt b d hd⟩

theorem dec_digit (n : Nat) : ∀ c ∈ dec n, isAttrChar c = true ∧ (c ≠ 0x27 ∧ c ≠ 0x26 ∧ c ≠ 0x3c ∧ c ≠ 0x3b) := by
  intro c hc
  have h := mem_dec hc
  have key : ∀ c : UInt8, 0x30 ≤ c.toNat ∧ c.toNat ≤ 0x39 → isAttrChar c = true ∧ (c ≠ 0x27 ∧ c ≠ 0x26 ∧ c ≠ 0x3c ∧ c ≠ 0x3b) := by
    apply Abtxt.all_u8; decide +kernel
  exact key c h
theorem dec_plain (n : Nat) : Plain (dec n) := fun c hc => (dec_digit n c hc).2
theorem Plain.append {v w : Bytes} (h : Plain v) (h' : Plain w) : Plain (v ++ w) := fun c hc => by
  rcases List.mem_append.1 hc with hc | hc
  · exact h c hc
  · exact h' c hc
theorem Plain.chars {v : Bytes} (h : Plain v) : Emits v (chars v) := Emits.chars fun hc => (h _ hc).2.2.1 rfl

theorem html_escape_plain (b : Bytes) : 0x3c ∉ escapeHtml b := by
  unfold escapeHtml
  intro h
  obtain ⟨c, _, hc⟩ := List.mem_flatMap.1 h
  split at hc
  · revert hc; decide +kernel
  · split at hc
    · revert hc; decide +kernel
    · split at hc
      · revert hc; decide +kernel
      · rename_i h1 _
        exact h1 (List.mem_singleton.1 hc).symm

/-- The abbreviation. -/
def shortOf (k : Consts) (b : Bytes) : Bytes := (groupName k b).getD (miniB64 b)

theorem mini_plain (b : Bytes) : Plain (miniB64 b) := by
  have h := mini_b64 b
  by_cases hl : b.length ≤ 12
  · rw [h.1 hl]; exact base64_plain b
  · obtain ⟨m, he, -, hm⟩ := h.2 (by omega)
    rw [he]
    refine Plain.append (Plain.append ?_ ?_) ?_
    · exact fun c hc => base64_plain b c (List.mem_of_mem_take hc)
    · intro c hc
      rcases hm c hc with rfl | rfl <;> decide
    · exact fun c hc => base64_plain b c (List.mem_of_mem_drop hc)

theorem short_plain (k : Consts) (b : Bytes) : Plain (shortOf k b) := by
  unfold shortOf groupName
  have h1 : Plain (ascii "[#:0]") := by unfold Plain; decide +kernel
  have h2 : Plain (ascii "[#:pub]") := by unfold Plain; decide +kernel
  have h3 : Plain (ascii "[#:test]") := by unfold Plain; decide +kernel
  split
  · exact h1
  · split
    · exact h2
    · split
      · exact h3
      · exact mini_plain b

theorem attrName_of {a : Bytes} (h : (match a with | [] => false | c :: w => isLower c && w.all isAttrChar) = true) : AttrName a := by
  cases a with
  | nil => cases h
  | cons c w =>
    simp only [Bool.and_eq_true, List.all_eq_true] at h
    exact ⟨c, w, rfl, h.1, h.2⟩

/-- One element with one attribute. -/
theorem emits_elem1 {tag : String} {a v t u : Bytes} {ms : List Mark} (ho : Leads .text (ascii "<" ++ ascii tag ++ ascii " ") (.gap (ascii tag) []))
    (hc : Emits (ascii "</" ++ ascii tag ++ ascii ">") [.closing (ascii tag)]) (ha : AttrName a) (hv : Plain v) (hu : u = [] ∨ u = ascii " ") (ht : Emits t ms) :
    Emits ((ascii "<" ++ ascii tag ++ ascii " ") ++ attr a v ++ (u ++ ascii ">") ++ t ++ (ascii "</" ++ ascii tag ++ ascii ">")) (elem tag [(a, v)] ms) := by
  have h1 : Emits ((ascii "<" ++ ascii tag ++ ascii " ") ++ attr a v ++ (u ++ ascii ">")) [.opening (ascii tag) [(a, v)]] := by
    rcases hu with rfl | rfl
    · exact end_after (ho.trans (.attr _ _ ha hv))
    · have := end_gap ((ho.trans (.attr _ _ ha hv)).trans (.blank _ _))
      rw [List.append_assoc] at this
      exact this
  exact (h1.append ht).append hc

theorem fmtB64_emits (k : Consts) (b cls : Bytes) (full : String) (hn : ascii full = ascii "lk-" ++ cls) (hcls : AttrName (ascii full)) :
    Emits (fmtB64 k b cls) (coded (shortOf k) full b) := by
  rw [hn] at hcls
  have hval : Plain (ascii "lk-b64 lk-c" ++ colour b 14 ++ ascii " lk-d" ++ colour b 15) :=
    ((Plain.append (by unfold Plain; decide +kernel) (dec_plain _)).append (by unfold Plain; decide +kernel)).append (dec_plain _)
  have h1 := end_after (((open_span.trans (.attr _ _ hcls (base64_plain b))).trans (.blank _ _)).trans (.attr _ _ (a := ascii "class") (attrName_of (by decide +kernel)) hval))
  have h2 := (h1.append (short_plain k b).chars).append close_span
  have e1 : fmtB64 k b cls = ascii "<span " ++ attr (ascii "lk-" ++ cls) (base64 b) ++ ascii " " ++
      attr (ascii "class") (ascii "lk-b64 lk-c" ++ colour b 14 ++ ascii " lk-d" ++ colour b 15) ++ ascii ">" ++ shortOf k b ++ ascii "</span>" := by
    unfold fmtB64 shortOf
    have a1 : ascii " class='lk-b64 lk-c" = ascii " " ++ ascii "class" ++ ascii "='" ++ ascii "lk-b64 lk-c" := by decide +kernel
    have a2 : ascii "'>" = ascii "'" ++ ascii ">" := by decide +kernel
    rw [a1, a2]
    simp only [attr, colour, List.append_assoc]
  rw [e1]
  unfold coded elem
  rw [hn]
  simpa using h2

theorem comps_emit (i : Nat) (cs : List Bytes) : Emits (htmlComps i cs) (compMarks escapeHtml i cs) := by
  induction cs generalizing i with
  | nil => exact .nil
  | cons c cs ih =>
    have ha : AttrName (ascii "lk-space" ++ dec i) := by
      refine ⟨0x6c, ascii "k-space" ++ dec i, rfl, rfl, ?_⟩
      have h1 : ∀ x ∈ ascii "k-space", isAttrChar x = true := by decide +kernel
      intro x hx
      rcases List.mem_append.1 hx with hx | hx
      · exact h1 x hx
      · exact (dec_digit i x hx).1
    have h := emits_elem1 (tag := "li") (u := []) open_li close_li ha (base64_plain c) (.inl rfl) (Emits.chars (html_escape_plain (asAbtxt c)))
    have := h.append (ih (i + 1))
    exact this

theorem links_emit (k : Consts) (ls : List Link) : Emits (htmlLinks k ls) (linkMarks (shortOf k) escapeHtml ls) := by
  unfold htmlLinks linkMarks
  induction ls with
  | nil => exact .nil
  | cons l ls ih =>
    rw [List.flatMap_cons, List.flatMap_cons]
    refine Emits.append ?_ ih
    have h1 := emits_elem1 (tag := "span") (u := []) open_span close_span (a := ascii "lk-tag") (attrName_of (by decide +kernel)) (base64_plain l.tag) (.inl rfl)
      (Emits.chars (html_escape_plain (abStr l.tag)))
    have h2 := h1.append (fmtB64_emits k l.ptr (ascii "ptr") "lk-ptr" (by decide +kernel) (attrName_of (by decide +kernel)))
    have h3 := (emits_elem1 (tag := "li") (u := []) open_li close_li (a := ascii "lk-link-tag") (attrName_of (by decide +kernel)) (base64_plain l.tag) (.inl rfl) h2).append
      emits_line
    have a1 : ascii "><span " = ascii ">" ++ ascii "<span " := by decide +kernel
    have a2 : ascii "</li>\n" = ascii "</li>" ++ ascii "\n" := by decide +kernel
    have b1 : ascii "<" ++ ascii "span" ++ ascii " " = ascii "<span " := by decide +kernel
    have b2 : ascii "<" ++ ascii "li" ++ ascii " " = ascii "<li " := by decide +kernel
    have b3 : ascii "</" ++ ascii "span" ++ ascii ">" = ascii "</span>" := by decide +kernel
    have b4 : ascii "</" ++ ascii "li" ++ ascii ">" = ascii "</li>" := by decide +kernel
    rw [b1, b2, b3, b4] at h3
    rw [a1, a2]
    simp only [List.append_assoc, List.nil_append] at h3 ⊢
    exact h3

theorem depth_nat (s : Shown) : s.pkt.getDepth.toNat = s.cs.length := by
  rw [sh_depth]
  have := (sh_cs s).2
  simp
  omega

/-- An element of a number. -/
theorem emits_num (a : String) (ha : AttrName (ascii a)) (n : Nat) (u : Bytes) (hu : u = [] ∨ u = ascii " ") :
    Emits (ascii "<span " ++ attr (ascii a) (dec n) ++ (u ++ ascii ">") ++ dec n ++ ascii "</span>") (elem "span" [(ascii a, dec n)] (chars (dec n))) :=
  emits_elem1 (tag := "span") open_span close_span ha (dec_plain n) hu (dec_plain n).chars

def keyMarks (k : Consts) : Option Signed → List Mark
  | some g => coded (shortOf k) "lk-pubkey" g.pubkey
  | none => []

theorem fields_emit (k : Consts) (s : Shown) (h : LinkHead) (hd : h.domain = s.c.linked.domain) (hg : h.group = s.c.linked.group) :
    Emits (htmlFields k s.pkt h s.cs) (keyMarks k s.pkt.parts.fields.signed? ++ fieldMarks (shortOf k) escapeHtml s.c.linked s.cs) := by
  have h0 : Emits (match s.pkt.parts.fields.signed? with
    | some s => fmtB64 k s.pubkey (ascii "pubkey")
    | none => []) (keyMarks k s.pkt.parts.fields.signed?) := by
    cases s.pkt.parts.fields.signed? with
    | none => exact .nil
    | some g => exact fmtB64_emits k g.pubkey (ascii "pubkey") "lk-pubkey" (by decide +kernel) (attrName_of (by decide +kernel))
  have h1 := emits_elem1 (tag := "span") (u := []) open_span close_span (a := ascii "lk-domain") (attrName_of (by decide +kernel)) (base64_plain s.c.linked.domain) (.inl rfl)
      (Emits.chars (html_escape_plain (abStr s.c.linked.domain)))
  have h2 := fmtB64_emits k s.c.linked.group (ascii "group") "lk-group" (by decide +kernel) (attrName_of (by decide +kernel))
  have h3 := emits_num "lk-create" (attrName_of (by decide +kernel)) s.c.linked.stamp [] (.inl rfl)
  have h4 := emits_num "lk-depth" (attrName_of (by decide +kernel)) s.cs.length _ (.inr rfl)
  have h5 := ((end_after (((open_ol.trans (.attr _ _ (a := ascii "lk-space") (attrName_of (by decide +kernel)) (base64_plain (encodeSpace s.cs)))).trans (.blank _ _)).trans
    (.attr _ _ (a := ascii "lk-depth") (attrName_of (by decide +kernel)) (dec_plain s.cs.length)))).append (emits_line.append (comps_emit 0 s.cs))).append close_ol
  have h6 := emits_num "lk-links-len" (attrName_of (by decide +kernel)) s.c.linked.links.length [] (.inl rfl)
  have h7 := emits_elem1 (tag := "ol") (u := []) open_ol close_ol (a := ascii "lk-links") (attrName_of (by decide +kernel)) (dec_plain s.c.linked.links.length) (.inl rfl)
    (emits_line.append (links_emit k s.c.linked.links))
  have hall := h0.append (((((((h1.append h2).append h3).append h4).append h5).append emits_line).append h6).append h7)
  unfold htmlFields
  rw [depth_nat, sh_links, sh_create, sh_space, hd, hg]
  have a1 : ascii " >" = ascii " " ++ ascii ">" := by decide +kernel
  have a2 : ascii ">\n" = ascii ">" ++ ascii "\n" := by decide +kernel
  have a3 : ascii "</ol>\n" = ascii "</ol>" ++ ascii "\n" := by decide +kernel
  have b1 : ascii "<" ++ ascii "span" ++ ascii " " = ascii "<span " := by decide +kernel
  have b2 : ascii "<" ++ ascii "ol" ++ ascii " " = ascii "<ol " := by decide +kernel
  have b3 : ascii "</" ++ ascii "span" ++ ascii ">" = ascii "</span>" := by decide +kernel
  have b4 : ascii "</" ++ ascii "ol" ++ ascii ">" = ascii "</ol>" := by decide +kernel
  rw [b1, b2, b3, b4] at hall
  rw [a1, a2, a3]
  unfold fieldMarks
  simp only [List.append_assoc, List.nil_append] at hall ⊢
  have e : ∀ {t ms ms'}, Emits t ms → ms = ms' → Emits t ms' := fun h e => e ▸ h
  refine e hall ?_
  have hb : ∀ b, abStr b = asAbtxt (bare b) := fun _ => rfl
  simp [elem, hb]

theorem kinds (s : Shown) :
    (s.pkt.parts.fields.head? = none ∧ s.pkt.parts.fields.signed? = none ∧ ((∃ b, s.c = .data b) ∨ ∃ b, s.c = .error b)) ∨
    ∃ h, s.pkt.parts.fields.head? = some h ∧ h.domain = s.c.linked.domain ∧ h.group = s.c.linked.group ∧
      ((s.pkt.parts.fields.signed? = none ∧ ∃ l, s.c = .link l) ∨ ∃ l pk sg g, s.c = .key l pk sg ∧ s.pkt.parts.fields.signed? = some g ∧ g.pubkey = pk) := by
  have hp : s.pkt.parts = s.c.parts := rfl
  rw [hp]
  cases s.c with
  | data b => exact .inl ⟨rfl, rfl, .inl ⟨b, rfl⟩⟩
  | error b => exact .inl ⟨rfl, rfl, .inr ⟨b, rfl⟩⟩
  | link l => exact .inr ⟨_, rfl, rfl, rfl, .inl ⟨rfl, l, rfl⟩⟩
  | key l pk sg => exact .inr ⟨_, rfl, rfl, rfl, .inr ⟨l, pk, sg, _, rfl, rfl, rfl⟩⟩

theorem type_eq (s : Shown) : s.pkt.parts.header.ptype = s.c.type := by
  have hp : s.pkt.parts = s.c.parts := rfl
  rw [hp]; cases s.c <;> rfl

/-- The opening tag, with the text of the attribute of the key. -/
theorem top_emit (k : Consts) (s : Shown) (t : Bytes) (as : List (Bytes × Bytes))
    (ht : (t = [] ∧ as = []) ∨ ∃ pk, t = attr (ascii "lk-pubkey") (base64 pk) ∧ as = [(ascii "lk-pubkey", base64 pk)]) :
    Emits (ascii "<div " ++ attr (ascii "lk-point") (base64 s.hash) ++ ascii " " ++ attr (ascii "lk-ptype") (dec s.c.type.toNat) ++
      ascii " class='lk-c" ++ dec ((s.hash.getD 0 0).toNat / 16) ++ ascii "' " ++ t ++ ascii "\n" ++ attr (ascii "lk-data-size") (dec s.c.linked.data.length) ++
      ascii " " ++ attr (ascii "lk-links-len") (dec s.c.linked.links.length) ++ ascii " " ++ attr (ascii "lk-depth") (dec s.cs.length) ++ ascii ">")
      [.opening (ascii "div") ([(ascii "lk-point", base64 s.hash), (ascii "lk-ptype", dec s.c.type.toNat), (ascii "class", ascii "lk-c" ++ colour s.hash 0)] ++ as ++
        [(ascii "lk-data-size", dec s.c.linked.data.length), (ascii "lk-links-len", dec s.c.linked.links.length), (ascii "lk-depth", dec s.cs.length)])] := by
  have hcl : Plain (ascii "lk-c" ++ colour s.hash 0) := Plain.append (by unfold Plain; decide +kernel) (dec_plain _)
  have h1 := ((((((open_div.trans (.attr _ _ (a := ascii "lk-point") (attrName_of (by decide +kernel)) (base64_plain s.hash))).trans (.blank _ _)).trans
    (.attr _ _ (a := ascii "lk-ptype") (attrName_of (by decide +kernel)) (dec_plain s.c.type.toNat))).trans (.blank _ _)).trans
    (.attr _ _ (a := ascii "class") (attrName_of (by decide +kernel)) hcl)).trans (.blank _ _))
  have h2 : Leads (.gap (ascii "div") ([(ascii "lk-point", base64 s.hash), (ascii "lk-ptype", dec s.c.type.toNat), (ascii "class", ascii "lk-c" ++ colour s.hash 0)])) (t ++ ascii "\n")
      (.gap (ascii "div") ([(ascii "lk-point", base64 s.hash), (ascii "lk-ptype", dec s.c.type.toNat), (ascii "class", ascii "lk-c" ++ colour s.hash 0)] ++ as)) := by
    rcases ht with ⟨rfl, rfl⟩ | ⟨pk, rfl, rfl⟩
    · rw [List.append_nil]; exact .line' _ _
    · exact Leads.trans (.attr _ _ (attrName_of (by decide +kernel)) (base64_plain pk)) (.line _ _)
  have h3 := end_after (((((Leads.trans (b := .gap (ascii "div") _) h1 h2).trans (.attr _ _ (a := ascii "lk-data-size") (attrName_of (by decide +kernel)) (dec_plain s.c.linked.data.length))).trans
    (.blank _ _)).trans (.attr _ _ (a := ascii "lk-links-len") (attrName_of (by decide +kernel)) (dec_plain s.c.linked.links.length))).trans (.blank _ _) |>.trans
    (.attr _ _ (a := ascii "lk-depth") (attrName_of (by decide +kernel)) (dec_plain s.cs.length)))
  have a1 : ascii " class='lk-c" = ascii " " ++ ascii "class" ++ ascii "='" ++ ascii "lk-c" := by decide +kernel
  have a2 : ascii "' " = ascii "'" ++ ascii " " := by decide +kernel
  rw [a1, a2]
  have hc : attr (ascii "class") (ascii "lk-c" ++ colour s.hash 0) = ascii "class" ++ ascii "='" ++ ascii "lk-c" ++ dec ((s.hash.getD 0 0).toNat / 16) ++ ascii "'" := by
    simp only [attr, colour, List.append_assoc]
  rw [hc] at h3
  simp only [List.append_assoc] at h3 ⊢
  exact h3

/-- The whole fragment. -/
theorem html_emit (k : Consts) (s : Shown) : ∃ out, toHtml k s.pkt true = .ok out ∧ Emits out (s.html (shortOf k) escapeHtml (k.lossy s.c.linked.data)) := by
  have hh := fmtB64_emits k s.hash (ascii "hash") "lk-hash" (by decide +kernel) (attrName_of (by decide +kernel))
  have hs := emits_num "lk-data-size" (attrName_of (by decide +kernel)) s.c.linked.data.length [] (.inl rfl)
  have hd := emits_elem1 (tag := "pre") (u := []) open_pre close_pre (a := ascii "lk-data") (attrName_of (by decide +kernel)) (dec_plain s.c.linked.data.length) (.inl rfl)
      (Emits.chars (html_escape_plain (k.lossy s.c.linked.data)))
  have hlast := ((hs.append emits_line).append hd).append close_div
  have a1 : ascii "</span>\n" = ascii "</span>" ++ ascii "\n" := by decide +kernel
  have b1 : ascii "<" ++ ascii "pre" ++ ascii " " = ascii "<pre " := by decide +kernel
  have b2 : ascii "</" ++ ascii "pre" ++ ascii ">" = ascii "</pre>" := by decide +kernel
  rw [b1, b2] at hlast
  have hp : s.pkt.hash = s.hash := rfl
  have hiter : Space.iter (encodeSpace s.cs) = .ok s.cs := Props.space_iter _ _ (sh_cs s).1
  have e : ∀ {t ms ms'}, Emits t ms → ms = ms' → Emits t ms' := fun h e => e ▸ h
  unfold toHtml
  simp only
  rw [hp, type_eq, sh_data, sh_links, depth_nat, sh_space, a1]
  simp only [if_true]
  rcases kinds s with ⟨h1, h2, h3⟩ | ⟨h, h1, h2, h3, h4⟩
  · rw [h1, h2]
    refine ⟨_, rfl, ?_⟩
    have ht := (((top_emit k s [] [] (.inl ⟨rfl, rfl⟩)).append hh).append hlast)
    simp only [List.append_assoc, List.nil_append] at ht ⊢
    refine e ht ?_
    unfold Shown.html
    rcases h3 with ⟨b, hb⟩ | ⟨b, hb⟩ <;> simp [hb, elem]
  · have hf := fields_emit k s h h2 h3
    rw [h1, hiter]
    refine ⟨_, rfl, ?_⟩
    rcases h4 with ⟨h5, l, hl⟩ | ⟨l, pk, sg, g, hl, h5, h6⟩
    · rw [h5] at hf ⊢
      have ht := ((((top_emit k s [] [] (.inl ⟨rfl, rfl⟩)).append hh).append hf).append hlast)
      simp only [List.append_assoc, List.nil_append] at ht ⊢
      refine e ht ?_
      unfold Shown.html
      simp [hl, elem, keyMarks, Content.linked]
    · rw [h5] at hf ⊢
      have ht := ((((top_emit k s _ _ (.inr ⟨pk, rfl, rfl⟩)).append hh).append hf).append hlast)
      simp only [List.append_assoc, List.nil_append, h6] at ht ⊢
      refine e ht ?_
      unfold Shown.html
      simp [hl, elem, keyMarks, Content.linked, h6]

end Verif.Props
