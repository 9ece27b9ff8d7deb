import Verif.Spec.QueryText
import Verif.Model.QueryText
import Verif.Props.Printed
import Verif.Lemmas.Scopes
import Verif.Props.Options
/-!
# Lemmas about the text of queries
-/
namespace Verif.QText
open Verif Verif.Ast Verif.Abl Verif.Abe Verif.Abtxt Verif.Pkt Verif.Pred Verif.Opt Verif.Eval Verif.Num Verif.Fit Verif.Spec Verif.Props

/-! ### lines -/

theorem printBytes_eq (b : Bytes) : printBytes b = asAbtxt b := by rw [asAbtxt_eq]; rfl

theorem abtxt_line (b : Bytes) : ∀ c ∈ asAbtxt b, c ≠ 0x0a := by
  intro c hc h
  have := abtxt_printable b c hc
  rw [h] at this
  exact absurd this.1 (by decide)

mutual
theorem printOne_line : (e : ABE) → ∀ c ∈ printOne e, c ≠ 0x0a
  | .ctr k => by
    intro c hc
    rw [printOne] at hc
    cases k <;> (rw [List.mem_singleton.1 hc]; decide)
  | .bytes b => by
    intro c hc
    rw [printOne, printBytes_eq] at hc
    exact abtxt_line b c hc
  | .lst l => by
    intro c hc
    rw [printOne] at hc
    rcases List.mem_cons.1 hc with rfl | hc
    · decide
    · rcases List.mem_append.1 hc with hc | hc
      · exact printAbe_line l c hc
      · rw [List.mem_singleton.1 hc]; decide
/-- No printed expression contains a newline. -/
theorem printAbe_line : (l : List ABE) → ∀ c ∈ printAbe l, c ≠ 0x0a
  | [] => by rw [printAbe]; exact fun _ h => nomatch h
  | e :: l => by
    intro c hc
    rw [printAbe] at hc
    rcases List.mem_append.1 hc with hc | hc
    · exact printOne_line e c hc
    · exact printAbe_line l c hc
end

/-! ### values -/

/-- The printed value is read back as these items. -/
def Reads (sc : Scope) (top : Top) (v : List ABE) (is : List ABItem) : Prop :=
  ∃ t, AbeText (printAbe v) t ∧ evalItems sc top t = .ok is

theorem reads_raw (sc : Scope) (top : Top) {l : ABList} (h : Delimited l) : Reads sc top (toAbe l) (items l) :=
  ⟨_, text_of_norm _ (norm_toAbe l h), evalItems_items sc top _⟩

theorem call_printed (id x : Bytes) (hs : ∀ c ∈ id, Self c) : printAbe (callAbe id x) = bracket id (asAbtxt x) := by
  have h1 : asAbtxt id = id := by
    rw [asAbtxt_eq]
    induction id with
    | nil => rfl
    | cons c id ih =>
      have key : ∀ c : UInt8, Self c → escapeDefault c = [c] := by apply Abtxt.all_u8; decide +kernel
      rw [List.flatMap_cons, key c (hs c List.mem_cons_self), ih fun d hd => hs d (List.mem_cons_of_mem _ hd)]
      rfl
  simp only [callAbe, printAbe, printOne, printBytes_eq, h1, bracket, List.append_nil, List.append_assoc]
  rfl

theorem reads_call (sc : Scope) (top : Top) {id x b : Bytes} (hid : id ≠ [] ∧ ∀ c ∈ id, Self c)
    (hf : sc.func top id [x] true = .value b) : Reads sc top (callAbe id x) [.bytes b] := by
  have ht := bracket_text hid (spells_abtxt x) .nil
  rw [List.append_nil] at ht
  refine ⟨_, by rw [call_printed id x hid.2]; exact ht, ?_⟩
  rw [evalItems, evalItems, match_callList sc top id hid.1 [x] (by simp), call_value sc top id [x] b hf]
  rfl

theorem plain_escape {t : Bytes} (h : ∀ c ∈ t, PlainChar c) : asAbtxt t = t := by
  rw [asAbtxt_eq]
  induction t with
  | nil => rfl
  | cons c t ih =>
    have key : ∀ c : UInt8, Self c → escapeDefault c = [c] := by apply Abtxt.all_u8; decide +kernel
    rw [List.flatMap_cons, key c (h c List.mem_cons_self), ih fun d hd => h d (List.mem_cons_of_mem _ hd)]
    rfl

theorem cut_plain (x : UInt8) (k : Nat) {t : Bytes} (hx : x = 0 ∨ x = 255) (h : ∀ c ∈ t, PlainChar c) : cutPrefixEq x (List.replicate k x ++ t) = t := by
  rw [cutPrefixEq_replicate]
  apply cutPrefixEq_of_head
  intro hh
  have := h x (List.mem_of_head? hh)
  rcases hx with rfl | rfl
  · exact absurd this.1 (by decide)
  · exact absurd this.2.1 (by decide)

theorem ab_call (sc : Scope) (ht : HasText sc) (top : Top) {b : Bytes} (h16 : b.length = 16) (hp : PlainFilled b) :
    ∃ id x, abToAbe b = callAbe id x ∧ (id ≠ [] ∧ ∀ c ∈ id, Self c) ∧ sc.func top id [x] true = .value b := by
  obtain ⟨k, x, t, hx, hb, hc⟩ := hp
  have he := plain_escape hc
  by_cases h255 : b.headD 0 = 255
  · have hcut : cutPrefixEq 255 b = t := by
      rw [hb]
      rcases hx with rfl | rfl
      · cases k with
        | zero =>
          rw [hb] at h255
          cases t with
          | nil => rfl
          | cons c t =>
            have : c = 255 := h255
            have := hc c List.mem_cons_self
            subst c
            exact absurd this.2.1 (by decide)
        | succ k =>
          rw [hb, List.replicate_succ, List.cons_append, List.headD_cons] at h255
          exact absurd h255 (by decide)
      · exact cut_plain 255 k (.inr rfl) hc
    refine ⟨ascii "f", t, ?_, asc_f, by rw [ht.f, ← hcut, pad_f16 b h16]; rfl⟩
    unfold abToAbe callAbe
    simp only [if_pos h255, if_pos h16, hcut, he]
  · have hcut : cutPrefixNulls b = t := by
      rw [hb, cutPrefixNulls]
      rcases hx with rfl | rfl
      · exact cut_plain 0 k (.inl rfl) hc
      · cases k with
        | zero => exact cut_plain 0 0 (.inl rfl) hc
        | succ k => rw [hb] at h255; exact absurd rfl h255
    refine ⟨ascii "a", t, ?_, asc_a, by rw [ht.a, ← hcut, pad_a16 b h16]; rfl⟩
    unfold abToAbe callAbe
    simp only [if_neg h255, if_pos h16, hcut, he]

theorem reads_ab (sc : Scope) (ht : HasText sc) (top : Top) {b : Bytes} (h16 : b.length = 16) (hp : PlainFilled b) : Reads sc top (abToAbe b) [.bytes b] := by
  obtain ⟨id, x, e, hid, hf⟩ := ab_call sc ht top h16 hp
  rw [e]
  exact reads_call sc top hid hf

theorem reads_b64 (sc : Scope) (ht : HasText sc) (top : Top) (b : Bytes) : Reads sc top (b64ToAbe b) [.bytes b] := by
  have : b64ToAbe b = callAbe (ascii "b") (base64 b) := rfl
  rw [this]
  exact reads_call sc top asc_b (by rw [ht.b, b64_roundtrip]; rfl)

theorem reads_uint (sc : Scope) (top : Top) {name : Bytes} (hn : name ≠ [] ∧ ∀ c ∈ name, Self c) (k : Nat)
    (hf : ∀ x, sc.func top name [x] true = .ofOption (parseUint k x)) {b : Bytes} (hb : b.length = k) : Reads sc top (uintAbe name b) [.bytes b] := by
  obtain ⟨s, hs, hp⟩ := uint_text_roundtrip k b hb
  rw [encUint, if_pos hb] at hs
  cases hs
  exact reads_call sc top hn (by rw [hf, hp]; rfl)

theorem asc_u8 : ascii "u8" ≠ [] ∧ ∀ c ∈ ascii "u8", Self c := by decide +kernel
theorem asc_u16 : ascii "u16" ≠ [] ∧ ∀ c ∈ ascii "u16", Self c := by decide +kernel
theorem asc_u32 : ascii "u32" ≠ [] ∧ ∀ c ∈ ascii "u32", Self c := by decide +kernel
theorem asc_u64 : ascii "u64" ≠ [] ∧ ∀ c ∈ ascii "u64", Self c := by decide +kernel
theorem asc_b2 : ascii "b2" ≠ [] ∧ ∀ c ∈ ascii "b2", Self c := by decide +kernel

theorem reads_bits (p : Params) (top : Top) {b : Bytes} (hb : b.length = 1) : Reads (coreScope p) top (bitsAbe b) [.bytes b] := by
  refine reads_call _ top asc_b2 ?_
  rw [(core_base p top _).1, (bin_enc 2 (.inl rfl) b).2]
  · rfl
  · match b, hb with
    | [x], _ =>
      by_cases hx : x = 0
      · exact .inl (by rw [hx])
      · exact .inr ⟨nofun, by simp, by simpa using hx⟩

/-- What the text of a field's value evaluates to. -/
theorem reads_field (p : Params) (top : Top) (f : VF) {b : Bytes} (hb : b.length = f.bytes) (hp : f = .domain → PlainFilled b) :
    Reads (coreScope p) top (fieldAbe f b) [.bytes b] := by
  have ht := core_hasText p
  have h8 := fun x => (core_uint p top x).1
  have h16 := fun x => (core_uint p top x).2.1
  have h32 := fun x => (core_uint p top x).2.2.1
  have h64 := fun x => (core_uint p top x).2.2.2.1
  cases f with
  | depth => exact reads_uint _ top asc_u8 1 h8 hb
  | type => exact reads_bits p top hb
  | netflags => exact reads_bits p top hb
  | create => exact reads_uint _ top asc_u64 8 h64 hb
  | stamp => exact reads_uint _ top asc_u64 8 h64 hb
  | hop => exact reads_uint _ top asc_u32 4 h32 hb
  | ubits i => exact reads_uint _ top asc_u32 4 h32 hb
  | hash => exact reads_b64 _ ht top b
  | group => exact reads_b64 _ ht top b
  | pubkey => exact reads_b64 _ ht top b
  | linksLen => exact reads_uint _ top asc_u16 2 h16 hb
  | dataSize => exact reads_uint _ top asc_u16 2 h16 hb
  | size => exact reads_uint _ top asc_u16 2 h16 hb
  | domain => exact reads_ab _ ht top hb (hp rfl)

theorem reads_comps (sc : Scope) (ht : HasText sc) (top : Top) {cs : List Bytes} (hne : ∀ c ∈ cs, c ≠ [])
    (hp : ∀ c ∈ cs, c.length = 16 → PlainFilled c) : ∃ t, AbeText (printAbe (compsToAbe cs)) t ∧ NoBytesHead t ∧
      evalItems sc top t = .ok (items (slashed cs)) := by
  induction cs with
  | nil => exact ⟨[], by rw [compsToAbe, List.flatMap_nil, printAbe]; exact .nil, trivial, rfl⟩
  | cons c cs ih =>
    obtain ⟨t, h1, h2, h3⟩ := ih (fun d hd => hne d (List.mem_cons_of_mem _ hd)) (fun d hd => hp d (List.mem_cons_of_mem _ hd))
    have hc := hne c List.mem_cons_self
    have hsplit : items (slashed (c :: cs)) = .ctr .fslash :: .bytes c :: items (slashed cs) := by
      obtain ⟨x, xs, rfl⟩ := List.exists_cons_of_ne_nil hc
      simp [items, slashed]
    have hcons : compsToAbe (c :: cs) = .ctr .fslash :: ((if c.length = 32 then b64ToAbe c else if c.length = 16 then abToAbe c else [.bytes c]) ++ compsToAbe cs) := by
      simp only [compsToAbe, List.flatMap_cons, List.cons_append]
    rw [hcons, printAbe, printAbe_append, hsplit]
    have key : ∃ u, AbeText (printAbe (if c.length = 32 then b64ToAbe c else if c.length = 16 then abToAbe c else [.bytes c]) ++ printAbe (compsToAbe cs)) (u :: t) ∧
        matchExpr sc top u = .ok (.bytes c) := by
      have hcall : ∀ id x, (id ≠ [] ∧ ∀ c ∈ id, Self c) → sc.func top id [x] true = .value c →
          ∃ u, AbeText (printAbe (callAbe id x) ++ printAbe (compsToAbe cs)) (u :: t) ∧ matchExpr sc top u = .ok (.bytes c) := by
        intro id x hid hf
        rw [call_printed id x hid.2]
        refine ⟨_, bracket_text hid (spells_abtxt x) h1, ?_⟩
        rw [match_callList sc top id hid.1 [x] (by simp), call_value sc top id [x] c hf]
        rfl
      split
      · exact hcall _ _ asc_b (by rw [ht.b, b64_roundtrip]; rfl)
      · split
        · rename_i h16
          obtain ⟨id, x, e, hid, hf⟩ := ab_call sc ht top h16 (hp c List.mem_cons_self h16)
          rw [e]
          exact hcall id x hid hf
        · refine ⟨.bytes c, ?_, by rw [matchExpr]⟩
          rw [printAbe, printAbe, printOne, printBytes_eq, List.append_nil]
          exact .bytes (spells_abtxt c) hc h2 h1
    obtain ⟨u, hu1, hu2⟩ := key
    refine ⟨.ctr .fslash :: u :: t, AbeText.fslash hu1, trivial, ?_⟩
    rw [evalItems, evalItems, hu2, h3]
    rfl

/-! ### statements -/

theorem kindName_self (k : Kind) : kindName k ≠ [] ∧ kindName k ∈ [ascii "data", ascii "spacename", ascii "prefix", ascii "recv", ascii "i", ascii "i_db", ascii "i_new",
    ascii "i_branch", ascii "hash", ascii "group", ascii "domain", ascii "pubkey", ascii "create", ascii "depth", ascii "links_len", ascii "data_size",
    ascii "hop", ascii "stamp", ascii "ubits0", ascii "ubits1", ascii "ubits2", ascii "ubits3", ascii "type", ascii "netflags", ascii "size"] := by
  cases k with
  | field f =>
    cases f with
    | ubits i => revert i; decide +kernel
    | _ => decide +kernel
  | limit q => cases q <;> decide +kernel
  | todo n => show ascii "data" ≠ [] ∧ ascii "data" ∈ _; decide +kernel
  | _ => decide +kernel

theorem kindOf_name (k : Kind) (h : ∀ n, k ≠ .todo n) : kindOf (kindName k) = some k := by
  cases k with
  | field f =>
    cases f with
    | ubits i => revert i; decide +kernel
    | _ => decide +kernel
  | limit q => cases q <;> decide +kernel
  | todo n => exact absurd rfl (h n)
  | _ => decide +kernel

theorem extOp_byte (o : TestOp) : extOpOf [opByte o] = some (.op o) := by cases o <;> decide +kernel

theorem line_reads (dbg : Bool) (sc : Scope) (n : Nat) (r : Stmt) {v : List ABE} {is : List ABItem} (h : Reads sc (topAt dbg sc n) v is) :
    evalLine dbg sc (n + 1) (printAbe (stmtAbe r v)) =
      .ok (is.foldl push [(none, kindName r.kind), (some .colon, [opByte r.op]), (some .colon, [])]) := by
  obtain ⟨t, h1, h2⟩ := h
  have ht : AbeText (printAbe (stmtAbe r v)) (.bytes (kindName r.kind) :: .ctr .colon :: .bytes [opByte r.op] :: .ctr .colon :: t) := by
    simp only [stmtAbe, printAbe, printOne, printBytes_eq]
    refine .bytes (spells_abtxt _) (kindName_self r.kind).1 trivial ?_
    refine AbeText.colon (s := asAbtxt [opByte r.op] ++ ([Ctr.colon.asChar] ++ printAbe v)) ?_
    refine .bytes (spells_abtxt _) nofun trivial ?_
    exact AbeText.colon h1
  have hp : parseStrict (printAbe (stmtAbe r v)) = .ok _ := parse_of_text ht false
  have he : evalItems sc (topAt dbg sc n) (.bytes (kindName r.kind) :: .ctr .colon :: .bytes [opByte r.op] :: .ctr .colon :: t) =
      .ok (.bytes (kindName r.kind) :: .ctr .colon :: .bytes [opByte r.op] :: .ctr .colon :: is) := by
    simp only [evalItems, matchExpr, h2]
    rfl
  unfold evalLine
  rw [hp]
  simp only
  rw [eval]
  have : (⟨eval dbg sc n, sc.enc, dbg⟩ : Top) = topAt dbg sc n := rfl
  rw [this, he]
  rfl

theorem ext_reads {k : Kind} (hk : ∀ n, k ≠ .todo n) (o : TestOp) (b : Bytes) (r : ABList) :
    extOf ((none, kindName k) :: (some .colon, [opByte o]) :: (some .colon, b) :: r) = .ok ⟨k, .op o, (none, b) :: r⟩ := by
  unfold extOf
  have : Abl.isEmpty ((some Ctr.colon, b) :: r) = false := by
    unfold Abl.isEmpty
    cases r <;> rfl
  simp only [this, kindOf_name k hk, extOp_byte]
  rfl

theorem addStmt_reads (dbg : Bool) (q : Query) {k : Kind} (hk : ∀ n, k ≠ .todo n) (o : TestOp) (b : Bytes) (r : ABList) :
    q.addStmt dbg ((none, kindName k) :: (some .colon, [opByte o]) :: (some .colon, b) :: r) =
      match q.preds.and dbg ⟨k, o, (none, b) :: r⟩ with
      | .ok p => .ok { q with preds := p }
      | .error e => .error e := by
  unfold Query.addStmt
  simp only [ext_reads hk, Preds.addExt, ExtStmt.stmts, Preds.run]
  cases q.preds.and dbg ⟨k, o, (none, b) :: r⟩ <;> rfl

theorem push_bytes (k : Bytes) (o b : Bytes) : [ABItem.bytes b].foldl push [(none, k), (some .colon, o), (some .colon, [])] =
    [(none, k), (some .colon, o), (some .colon, b)] := rfl
theorem push_items (k : Bytes) (o : Bytes) {l : ABList} (h : ∀ e ∈ l, e.1 ≠ none) : (items l).foldl push [(none, k), (some .colon, o), (some .colon, [])] =
    (none, k) :: (some .colon, o) :: (some .colon, []) :: l := foldl_items_some l _ h

/-- A statement as `iter` yields it: one value of the right size, or the components of a prefix. -/
inductive Yielded : Stmt → Prop
  | value {k : Kind} {b : Bytes} (o : TestOp) : k.fixedSize = some b.length → b ≠ [] → (∀ n, k ≠ .todo n) → Yielded ⟨k, o, [(none, b)]⟩
  | pre {cs : List Bytes} : cs ≠ [] → IsSpace (encodeSpace cs) cs → cs.length ≤ 8 → Yielded ⟨.pre, .equal, ablistOf cs⟩

theorem prefix_silent (dbg : Bool) (s : Preds) {cs : List Bytes} (h : cs ≠ []) :
    s.and dbg ⟨.pre, .equal, (none, []) :: slashed cs⟩ = s.and dbg ⟨.pre, .equal, slashed cs⟩ := by
  cases cs with
  | nil => exact absurd rfl h
  | cons c cs => rfl

/-- The result of adding a statement, with the options kept. -/
def withPreds (q : Query) : PRes Preds → PRes Query
  | .ok p => .ok { q with preds := p }
  | .error e => .error e

/-- A line that adds the statement when it is read. -/
def LineOf (dbg : Bool) (sc : Scope) (n : Nat) (r : Stmt) (t : Bytes) : Prop :=
  t ≠ [] ∧ (∀ c ∈ t, c ≠ 0x0a) ∧ ∃ l, evalLine dbg sc (n + 1) t = .ok l ∧ ∀ q : Query, q.addStmt dbg l = withPreds q (q.preds.and dbg r)

theorem printed_ne (r : Stmt) (v : List ABE) : printAbe (stmtAbe r v) ≠ [] := by
  simp only [stmtAbe, printAbe, printOne]
  intro h
  have h1 := (List.append_eq_nil_iff.1 ((List.append_eq_nil_iff.1 h).2)).1
  exact absurd h1 nofun

theorem value_line (dbg : Bool) (sc : Scope) (n : Nat) {k : Kind} (o : TestOp) {b : Bytes} (hk : ∀ n, k ≠ .todo n) {v : List ABE}
    (h : Reads sc (topAt dbg sc n) v [.bytes b]) : LineOf dbg sc n ⟨k, o, [(none, b)]⟩ (printAbe (stmtAbe ⟨k, o, [(none, b)]⟩ v)) := by
  refine ⟨printed_ne _ _, printAbe_line _, _, line_reads dbg sc n _ h, fun q => ?_⟩
  rw [push_bytes, addStmt_reads dbg q hk]
  rfl

theorem prefix_line (dbg : Bool) (sc : Scope) (n : Nat) {cs : List Bytes} (hc : cs ≠ []) {v : List ABE}
    (h : Reads sc (topAt dbg sc n) v (items (slashed cs))) : LineOf dbg sc n ⟨.pre, .equal, ablistOf cs⟩ (printAbe (stmtAbe ⟨.pre, .equal, ablistOf cs⟩ v)) := by
  refine ⟨printed_ne _ _, printAbe_line _, _, line_reads dbg sc n _ h, fun q => ?_⟩
  rw [push_items _ _ (by intro e he; obtain ⟨_, _, rfl⟩ := List.mem_map.1 he; nofun), addStmt_reads dbg q (fun _ h => by cases h), prefix_silent _ _ hc, ablistOf_eq]
  rfl

theorem slashed_delimited (cs : List Bytes) : Delimited (slashed cs) := by
  intro e he
  obtain ⟨_, _, rfl⟩ := List.mem_map.1 (List.mem_of_mem_tail he)
  nofun

theorem raw_line (dbg : Bool) (sc : Scope) (n : Nat) {r : Stmt} (h : Yielded r) : ∃ t, stmtText false r = .ok t ∧ LineOf dbg sc n r t := by
  refine ⟨_, rfl, ?_⟩
  cases h with
  | @value k b o hs hb hk =>
    have : items [((none : Option Ctr), b)] = [.bytes b] := by
      obtain ⟨x, xs, rfl⟩ := List.exists_cons_of_ne_nil hb
      rfl
    have hr := reads_raw sc (topAt dbg sc n) (l := [(none, b)]) (fun _ h => nomatch h)
    rw [this] at hr
    exact value_line dbg sc n o hk hr
  | @pre cs hc hs h8 =>
    refine prefix_line dbg sc n hc ?_
    have := reads_raw sc (topAt dbg sc n) (slashed_delimited cs)
    rw [ablistOf_eq]
    exact this

def valueAbe (k : Kind) (b : Bytes) : List ABE :=
  match k with
  | .field f => fieldAbe f b
  | .recv => uintAbe (ascii "u64") b
  | _ => uintAbe (ascii "u32") b

theorem canonical_value {k : Kind} {b : Bytes} (hs : k.fixedSize = some b.length) (hk : ∀ n, k ≠ .todo n) :
    canonical k [(none, b)] = .ok (valueAbe k b) := by
  have hex : ∀ n, b.length = n → Pred.readExact n [(none, b)] = .ok b := by
    intro n hn
    unfold Pred.readExact exactOr asExactBytes
    simp only [Option.bind_some, fit, hn, ne_eq, not_true, if_false, fitFront]
    simp [hn]
  cases k with
  | field f =>
    have hb : b.length = f.bytes := (Option.some.inj hs).symm
    have : f.read [(none, b)] = .ok b := by
      have h64 : b.length = 32 → readB64 [(none, b)] = .ok b := by
        intro h
        unfold readB64 exactOr
        simp only [asExactBytes, Option.bind_some]
        have := (b64_fit_both b).2
        rw [h] at this
        rw [this]
      cases f with
      | domain =>
        unfold VF.read readDomain exactOr
        have hb : b.length = 16 := hb
        simp [asExactBytes, fitBack, hb]
      | hash => exact h64 hb
      | group => exact h64 hb
      | pubkey => exact h64 hb
      | _ => exact hex _ hb
    unfold canonical orRaw
    simp only [this, valueAbe]
  | recv =>
    unfold canonical orRaw
    simp only [hex 8 (Option.some.inj hs).symm, valueAbe]
  | limit q =>
    unfold canonical orRaw
    simp only [hex 4 (Option.some.inj hs).symm, valueAbe]
  | todo n => exact absurd rfl (hk n)
  | spacename => cases hs
  | pre => cases hs

theorem canonical_prefix {cs : List Bytes} (h : IsSpace (encodeSpace cs) cs) (h8 : cs.length ≤ 8) :
    canonical .pre (ablistOf cs) = .ok (compsToAbe cs) := by
  have hne : ∀ c ∈ cs, c ≠ [] := by
    intro c hc he
    have := (h.comps c hc).1
    rw [he] at this
    cases this
  have : readSpace (ablistOf cs) = .ok (encodeSpace cs) := by
    unfold readSpace
    have h1 : ablistOf cs = slashed cs := ablistOf_eq cs
    rw [h1, spaceOf_slashed cs hne, (space_build_iff cs _).2 ⟨h, h8⟩]
    rfl
  unfold canonical orRaw
  simp only [this, spaceAbe, space_iter _ _ h]

theorem canonical_line (dbg : Bool) (p : Params) (n : Nat) {r : Stmt} (h : Yielded r) (hp : PlainValues r) :
    ∃ t, stmtText true r = .ok t ∧ LineOf dbg (coreScope p) n r t := by
  cases h with
  | @value k b o hs hb hk =>
    refine ⟨printAbe (stmtAbe ⟨k, o, [(none, b)]⟩ (valueAbe k b)), by unfold stmtText; simp only [if_true, canonical_value hs hk], value_line dbg _ n o hk ?_⟩
    cases k with
    | field f => exact reads_field p _ f (Option.some.inj hs).symm fun hf => hp _ List.mem_cons_self (.inl (by rw [hf]))
    | recv => exact reads_uint _ _ asc_u64 8 (fun x => (core_uint p _ x).2.2.2.1) (Option.some.inj hs).symm
    | limit q => exact reads_uint _ _ asc_u32 4 (fun x => (core_uint p _ x).2.2.1) (Option.some.inj hs).symm
    | todo n => exact absurd rfl (hk n)
    | spacename => cases hs
    | pre => cases hs
  | @pre cs hc hs h8 =>
    refine ⟨printAbe (stmtAbe ⟨.pre, .equal, ablistOf cs⟩ (compsToAbe cs)), by unfold stmtText; simp only [if_true, canonical_prefix hs h8], prefix_line dbg _ n hc ?_⟩
    obtain ⟨t, h1, _, h2⟩ := reads_comps (coreScope p) (core_hasText p) (topAt dbg (coreScope p) n) (cs := cs)
      (by
        intro c hc he
        have := (hs.comps c hc).1
        rw [he] at this
        cases this)
      (by
        intro c hc h16
        refine hp (some .fslash, c) ?_ (.inr ⟨rfl, h16⟩)
        show _ ∈ ablistOf cs
        rw [ablistOf_eq]
        exact List.mem_map.2 ⟨c, hc, rfl⟩)
    exact ⟨t, h1, h2⟩

/-! ### whole texts -/

theorem addLines_cons (dbg : Bool) (sc : Scope) (n : Nat) (q : Query) {r : Stmt} {t : Bytes} (h : LineOf dbg sc n r t) (ls : List Bytes) :
    q.addLines dbg sc (n + 1) (t :: ls) = match q.preds.and dbg r with
      | .ok p => Query.addLines dbg sc (n + 1) { q with preds := p } ls
      | .error e => .error e := by
  obtain ⟨h1, _, l, h3, h4⟩ := h
  rw [Query.addLines, if_neg h1, h3]
  simp only [h4]
  cases q.preds.and dbg r <;> rfl

theorem lines_run (dbg canon : Bool) (sc : Scope) (n : Nat) {rs : List Stmt} (h : ∀ r ∈ rs, ∃ t, stmtText canon r = .ok t ∧ LineOf dbg sc n r t) :
    ∃ t, stmtLines canon rs = .ok t ∧ ∀ q : Query, q.addLines dbg sc (n + 1) (splitLines t) = withPreds q (q.preds.run dbg rs) := by
  induction rs with
  | nil => exact ⟨[], rfl, fun q => rfl⟩
  | cons r rs ih =>
    obtain ⟨t, h1, h2⟩ := h r List.mem_cons_self
    obtain ⟨ts, h3, h4⟩ := ih fun x hx => h x (List.mem_cons_of_mem _ hx)
    refine ⟨t ++ 0x0a :: ts, by simp only [stmtLines, h1, h3], fun q => ?_⟩
    rw [splitLines_append _ _ h2.2.1, addLines_cons dbg sc n q h2, Preds.run]
    cases q.preds.and dbg r with
    | error e => rfl
    | ok p => exact h4 _

theorem options_run (dbg : Bool) (sc : Scope) (n : Nat) {c : List ABList} (hc : ∀ l ∈ c, IsOption l) (hd : ∀ l ∈ c, Delimited l) (q : Query) (ls : List Bytes) :
    q.addLines dbg sc (n + 1) (c.map display ++ ls) = Query.addLines dbg sc (n + 1) { q with conf := q.conf ++ c } ls := by
  induction c generalizing q with
  | nil => simp
  | cons l c ih =>
    obtain ⟨k, b, r, rfl⟩ := hc l List.mem_cons_self
    have hne : display ((some k, b) :: r) ≠ [] := by
      rw [display, List.flatMap_cons]
      cases k <;> nofun
    have he : evalLine dbg sc (n + 1) (display ((some k, b) :: r)) = .ok ((some k, b) :: r) := by
      unfold evalLine
      rw [display_eq, (parse_print _).2 (norm_toAbe _ (hd _ List.mem_cons_self))]
      simp only
      rw [eval_toAbe dbg sc n _ (hd _ List.mem_cons_self), dropLead_of_not (by intro h; cases h)]
    rw [List.map_cons, List.cons_append, Query.addLines, if_neg hne, he]
    simp only [Query.addStmt, addOptionAbl]
    rw [ih (fun x hx => hc x (List.mem_cons_of_mem _ hx)) (fun x hx => hd x (List.mem_cons_of_mem _ hx))]
    simp

/-- The statements of a query that was built by adding statements. -/
theorem iter_yields {rs out : List Stmt} {s : Preds} (h : Preds.default.run true rs = .ok s) (ho : s.iter true = .ok out) : ∀ r ∈ out, Yielded r := by
  obtain ⟨es, a, he, ha, hl, rfl⟩ := run_default.1 h
  have hg := Abs.effs_good default_good (effsOf_ok he) ha
  have key : ∀ {l : List (PRes (List Stmt))} {out}, concatRules l = .ok out → ∀ r ∈ out, ∃ b, (.ok b : PRes (List Stmt)) ∈ l ∧ r ∈ b := by
    intro l
    induction l with
    | nil => intro out h r hr; cases h; cases hr
    | cons p l ih =>
      intro out h r hr
      cases p with
      | error e => cases h
      | ok b =>
        rw [concatRules] at h
        cases hl : concatRules l with
        | error e => rw [hl] at h; cases h
        | ok d =>
          rw [hl] at h
          cases h
          rcases List.mem_append.1 hr with hr | hr
          · exact ⟨b, List.mem_cons_self, hr⟩
          · obtain ⟨b', h1, h2⟩ := ih hl r hr
            exact ⟨b', List.mem_cons_of_mem _ h1, h2⟩
  have hbytes : ∀ f : VF, f.bytes ≠ 0 := by intro f; cases f <;> first | decide | (intro h; cases h)
  have hval : ∀ (k : Kind) (m : Nat) {w} (rl : List (TestOp × BitVec w)), k.fixedSize = some m → m ≠ 0 → (∀ n, k ≠ .todo n) →
      ∀ r ∈ ruleStmts k m rl, Yielded r := by
    intro k m w rl h1 h2 h3 r hr
    obtain ⟨x, _, rfl⟩ := List.mem_map.1 hr
    refine .value x.1 (by rw [beBytes_length]; exact h1) ?_ h3
    intro h0
    have := congrArg List.length h0
    rw [beBytes_length] at this
    exact h2 this
  have hfield : ∀ f b, a.preds.fieldRules true f = .ok b → ∀ r ∈ b, Yielded r := by
    intro f b hb
    unfold Preds.fieldRules at hb
    split at hb
    · cases hb; exact hval _ _ _ rfl (hbytes f) (fun _ h => by cases h)
    · cases hb
  intro r hr
  obtain ⟨b, hb, hr⟩ := key ho r hr
  simp only [List.mem_append, List.mem_map, List.mem_cons (a := (Except.ok b : PRes (List Stmt))), List.not_mem_nil, or_false] at hb
  rcases hb with (((⟨f, _, h⟩ | h) | ⟨f, _, h⟩) | (h | h)) | ⟨q, _, h⟩
  · exact hfield f b h r hr
  · unfold Preds.prefixRules at h
    rw [spaceOf_pc, space_iter _ _ hg.space] at h
    simp only at h
    split at h
    · cases h; cases hr
    · rename_i hz
      cases h
      rw [List.mem_singleton.1 hr]
      refine .pre (fun h0 => hz ((preDepth_zero a hg.depth).2 (by rw [h0]; rfl))) hg.space hg.depth
  · exact hfield f b h r hr
  · cases h; exact hval _ _ _ rfl (by decide) (fun _ h => by cases h) r hr
  · exact hfield _ b h.symm r hr
  · unfold Preds.limitRules at h
    split at h
    · cases h; exact hval _ _ _ rfl (by decide) (fun _ h => by cases h) r hr
    · cases h

end Verif.QText
