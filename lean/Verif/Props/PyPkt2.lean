import Verif.Props.PyPkt
import Verif.Lemmas.Abtxt
/-!
# C94 and C95: header attributes and links of packet objects
-/
namespace Verif.Props
open Verif Verif.Pkt Verif.Spec Verif.Tree Verif.Ffi Verif.Space
open Verif.Pred (PRes)

/-! ### C94 -/

/-- **C94**: an assignment is taken exactly if the value has the size of the attribute and, for flags, has none of the three unused bits; a value of another size
is an exception, flags with an unused bit are a panic. -/
theorem set_iff (f : RouteField) (v : Bytes) (p : PyPkt) :
    ((∃ p', setAttr f v p = .ok p') ↔ v.length = f.range.2 ∧ (f = .flags → ∀ x ∈ v, x &&& 0x70 = 0)) ∧
    (v.length ≠ f.range.2 → setAttr f v p = .error (.err ())) ∧
    (v.length = f.range.2 → f = .flags → (∃ x ∈ v, x &&& 0x70 ≠ 0) → setAttr f v p = .error .panic) := by
  have hx : ∀ x : UInt8, (x &&& flagBits != x) = decide (x &&& 0x70 ≠ 0) := by
    intro x; revert x; apply Abtxt.all_u8; decide +kernel
  unfold setAttr
  by_cases hl : v.length = f.range.2
  · rw [if_neg (fun h => h hl)]
    refine ⟨?_, fun h => absurd hl h, fun _ hf ⟨x, hm, hb⟩ => ?_⟩
    · by_cases hf : f = .flags ∧ v.any (fun x => x &&& flagBits != x)
      · rw [if_pos hf]
        refine ⟨(fun ⟨p', h⟩ => nomatch h), fun ⟨_, h⟩ => ?_⟩
        obtain ⟨x, hm, hb⟩ := List.any_eq_true.1 hf.2
        rw [hx, decide_eq_true_eq] at hb
        exact absurd (h hf.1 x hm) hb
      · rw [if_neg hf]
        refine ⟨fun _ => ⟨hl, fun hf' x hm => ?_⟩, fun _ => ⟨_, rfl⟩⟩
        apply Classical.byContradiction
        intro hb
        exact hf ⟨hf', List.any_eq_true.2 ⟨x, hm, by rw [hx, decide_eq_true_eq]; exact hb⟩⟩
    · rw [if_pos ⟨hf, List.any_eq_true.2 ⟨x, hm, by rw [hx, decide_eq_true_eq]; exact hb⟩⟩]
  · rw [if_pos hl]
    refine ⟨⟨(fun ⟨_, h⟩ => nomatch h), fun h => absurd h.1 hl⟩, fun _ => rfl, fun h => absurd h hl⟩

theorem get_set_same {f : RouteField} {v : Bytes} {p p' : PyPkt} (h : setAttr f v p = .ok p') (hn : p.netHeader.length = 32) : getAttr f p' = v := by
  unfold setAttr at h
  split at h
  · cases h
  · rename_i hl
    have hl' : v.length = f.range.2 := Classical.byContradiction hl
    split at h
    · cases h
    · cases h
      unfold getAttr
      have := range_le f
      rw [← hl']
      exact overwrite_slice_same _ _ _ (by omega)

theorem get_set_other {f g : RouteField} {v : Bytes} {p p' : PyPkt} (h : setAttr f v p = .ok p') (hn : p.netHeader.length = 32) (hne : g ≠ f) :
    getAttr g p' = getAttr g p := by
  unfold setAttr at h
  split at h
  · cases h
  · rename_i hl
    have hl' : v.length = f.range.2 := Classical.byContradiction hl
    split at h
    · cases h
    · cases h
      unfold getAttr
      have hr := range_le f
      apply List.ext_getElem?
      intro i
      rw [List.getElem?_take, List.getElem?_take]
      split
      · rename_i hi
        rw [List.getElem?_drop, List.getElem?_drop]
        show (overwrite p.netHeader f.range.1 v)[_]? = _
        rw [overwrite_getElem? _ _ _ _ (by omega), hl']
        have hd : g.range.1 + i < f.range.1 ∨ f.range.1 + f.range.2 ≤ g.range.1 + i := by
          revert hi hne
          cases f <;> cases g <;> simp [RouteField.range] <;> omega
        rcases hd with hd | hd
        · rw [if_pos hd]
        · rw [if_neg (by omega), if_neg (by omega)]
      · rfl

theorem set_frame {f : RouteField} {v : Bytes} {p p' : PyPkt} (h : setAttr f v p = .ok p') (hn : p.netHeader.length = 32) :
    p'.netHeader.length = 32 ∧ p'.pkt = p.pkt ∧ p'.recv = p.recv ∧ p'.netHeader.take 3 = p.netHeader.take 3 := by
  unfold setAttr at h
  split at h
  · cases h
  · rename_i hl
    have hl' : v.length = f.range.2 := Classical.byContradiction hl
    split at h
    · cases h
    · cases h
      have hr := range_le f
      refine ⟨by rw [← hn]; exact overwrite_length _ _ _ (by omega), rfl, rfl, ?_⟩
      have h3 : 3 ≤ f.range.1 := by cases f <;> decide
      show (overwrite p.netHeader f.range.1 v).take 3 = _
      unfold overwrite
      rw [List.append_assoc, List.take_append_of_le_length (by simp; omega), List.take_take]
      congr 1; omega

/-- All assignments of a program, one after the other. -/
def assign (es : List (RouteField × Bytes)) (p : PyPkt) : PRes PyPkt := es.foldlM (fun p e => setAttr e.1 e.2 p) p

theorem lastAssigned_cons (f : RouteField) (e : RouteField × Bytes) (es : List (RouteField × Bytes)) :
    lastAssigned f (e :: es) = (lastAssigned f es).or (if e.1 = f then some e.2 else none) := by
  unfold lastAssigned
  by_cases h : e.1 = f
  · rw [List.filter_cons_of_pos (by simpa using h), if_pos h]
    cases hl : es.filter (fun e => e.1 = f) with
    | nil => simp
    | cons a l =>
      rw [List.getLast?_cons_cons]
      have : (a :: l).getLast? = some ((a :: l).getLast (by simp)) := List.getLast?_eq_some_getLast _
      rw [this]; simp
  · rw [List.filter_cons_of_neg (by simpa using h), if_neg h]; simp

/-- **C94**: after any assignments that are taken, an attribute has the value it was last assigned, or the one it had; the first three bytes of the header, the
stamp of receipt and the packet inside are what they were. -/
theorem assigned {es : List (RouteField × Bytes)} {p p' : PyPkt} (hn : p.netHeader.length = 32) (h : assign es p = .ok p') :
    (∀ f, getAttr f p' = (lastAssigned f es).getD (getAttr f p)) ∧ p'.netHeader.length = 32 ∧ p'.pkt = p.pkt ∧ p'.recv = p.recv ∧
    p'.netHeader.take 3 = p.netHeader.take 3 := by
  induction es generalizing p with
  | nil => cases h; exact ⟨fun _ => rfl, hn, rfl, rfl, rfl⟩
  | cons e es ih =>
    unfold assign at h
    rw [List.foldlM_cons] at h
    cases hs : setAttr e.1 e.2 p with
    | error x => rw [hs] at h; cases h
    | ok p1 =>
      rw [hs] at h
      obtain ⟨f1, f2, f3, f4⟩ := set_frame hs hn
      obtain ⟨i1, i2, i3, i4, i5⟩ := ih f1 h
      refine ⟨fun f => ?_, i2, i3.trans f2, i4.trans f3, i5.trans f4⟩
      rw [i1 f, lastAssigned_cons]
      cases hl : lastAssigned f es with
      | some v => rfl
      | none =>
        by_cases he : e.1 = f
        · subst he; rw [if_pos rfl]; exact get_set_same hs hn
        · rw [if_neg he]; exact get_set_other hs hn (fun h => he h.symm)

/-- The header is its seven attributes behind the three bytes. -/
theorem header_attrs (p : PyPkt) (hn : p.netHeader.length = 32) :
    p.netHeader = p.netHeader.take 3 ++ getAttr .flags p ++ getAttr .hop p ++ getAttr .stamp p ++ getAttr .ubits0 p ++ getAttr .ubits1 p ++ getAttr .ubits2 p ++
      getAttr .ubits3 p := by
  have step : ∀ a b : Nat, p.netHeader.take a ++ (p.netHeader.drop a).take b = p.netHeader.take (a + b) := by
    intro a b
    rw [List.take_add]
  show _ = p.netHeader.take 3 ++ (p.netHeader.drop 3).take 1 ++ (p.netHeader.drop 4).take 4 ++ (p.netHeader.drop 8).take 8 ++ (p.netHeader.drop 16).take 4 ++
    (p.netHeader.drop 20).take 4 ++ (p.netHeader.drop 24).take 4 ++ (p.netHeader.drop 28).take 4
  rw [step 3 1, step 4 4, step 8 8, step 16 4, step 20 4, step 24 4, step 28 4, List.take_of_length_le (by omega)]

/-- **C94**: `lk_write` writes the header as it now is, the hash and the point; what a reader then reads has that header and the same hash and content.  A point in
the private group is refused unless allowed. -/
theorem write_edited {C : Crypto} (dbg : Bool) {p : PyPkt} {c : Content} (h : Holds C p.pkt c) (hn : p.netHeader.length = 32) :
    pyWrite dbg p true = .ok (p.netHeader ++ p.pkt.hash ++ p.pkt.point) ∧
    pyWrite dbg p false = (if c.group? = some zeroGroup then .error (.err ()) else .ok (p.netHeader ++ p.pkt.hash ++ p.pkt.point)) ∧
    ∀ dbg' rest, lkRead C dbg' (p.netHeader ++ p.pkt.hash ++ p.pkt.point ++ rest) true = .ok (⟨p.netHeader, p.pkt.hash, p.pkt.point⟩, rest) := by
  obtain ⟨s, hs, hb⟩ := reroute_bytes dbg p.pkt p.netHeader h.header
  have hsz : s.bytes.length = p.pkt.size := by
    rw [(holds_size h).1, hb]; simp [NetPkt.bytes, h.header, hn]
  have main : pyWrite dbg p true = .ok (p.netHeader ++ p.pkt.hash ++ p.pkt.point) := by
    unfold pyWrite
    simp only [if_true, forget, hs, hsz, Nat.le_refl, Nat.sub_self, List.replicate_zero, List.append_nil]
    rw [hb]
  refine ⟨main, ?_, fun dbg' rest => ?_⟩
  · rw [← main]
    unfold pyWrite
    simp only [Bool.false_eq_true, if_false, if_true, h.point, checkPrivate_layout h.valid]
    by_cases hg : c.group? = some zeroGroup
    · rw [if_pos hg, if_pos hg]; rfl
    · rw [if_neg hg, if_neg hg]
  · exact (read_iff C dbg' _ _ _).2 ⟨c, h.valid, h.sealed, h.point, hn, h.hash32, h.hash, rfl⟩

/-- **C94 is false** of `pkt[name]`, which is what `str(pkt)` and expressions over a packet read as well: it never shows an assigned value. -/
theorem item_ignores {es : List (RouteField × Bytes)} {p p' : PyPkt} (hn : p.netHeader.length = 32) (h : assign es p = .ok p') (dbg : Bool) (name : Bytes) :
    pyItem dbg p' name = pyItem dbg p name := by
  unfold pyItem; rw [(assigned hn h).2.2.1]

/-- **C94 is false** of `lk_save`: the packets that are saved are those without the assignments. -/
theorem save_ignores {es : List (RouteField × Bytes)} {p p' : PyPkt} (hn : p.netHeader.length = 32) (h : assign es p = .ok p') (dbg : Bool) (io : Nat → Env.Call)
    (now : Nat) (disk : Env.Db) (before after : List PyPkt) :
    pySaveAll dbg io now disk (before ++ p' :: after) = pySaveAll dbg io now disk (before ++ p :: after) := by
  unfold pySaveAll
  rw [List.mapM_append, List.mapM_append, List.mapM_cons, List.mapM_cons, (assigned hn h).2.2.1]

/-- Assigning a hop and twice a user field; the flag byte 0x10 panics. -/
example : ∃ p', assign [(.hop, [0, 0, 0, 9]), (.ubits1, [1, 1, 1, 1]), (.ubits1, [2, 2, 2, 2]), (.flags, [0x81])] (PyPkt.new 3 (exQ [[98]] 7)) = .ok p' ∧
    getAttr .ubits1 p' = [2, 2, 2, 2] ∧ getAttr .hop p' = [0, 0, 0, 9] ∧ getAttr .hop p' ≠ getAttr .hop (PyPkt.new 3 (exQ [[98]] 7)) ∧
    setAttr .flags [0x10] p' = .error .panic := ⟨_, rfl, by decide, by decide, by decide, rfl⟩

/-! ### C95 -/

/-- **C95**: indexing gives the link at the index from the front, or at a negative index from the back, and `None` for every index that is not in the list. -/
theorem link_index (ls : List Link) (idx : Int) (hl : ls.length < 2 ^ 63) (h1 : -2 ^ 63 ≤ idx) (_h2 : idx < 2 ^ 63) :
    linkAt ls idx = if 0 ≤ idx then ls[idx.toNat]? else if -(ls.length : Int) ≤ idx then ls[(ls.length + idx).toNat]? else none := by
  unfold linkAt
  by_cases h : 0 ≤ idx
  · rw [if_pos h, if_neg (by omega)]
  · rw [if_neg h, if_pos (by omega)]
    by_cases hb : -(ls.length : Int) ≤ idx
    · rw [if_pos hb, Int.emod_eq_of_lt (by omega) (by omega)]
    · rw [if_neg hb]
      have : ((ls.length : Int) + idx) % 2 ^ 64 = ls.length + idx + 2 ^ 64 := by
        rw [← Int.add_emod_right, Int.emod_eq_of_lt (by omega) (by omega)]
      rw [this]
      exact List.getElem?_eq_none (by omega)

/-- **C95**: a loop over the links gives those from the index on, once, in order, and leaves the index one behind the end. -/
theorem link_loop (ls : List Link) (i : Nat) (out : List Link) (j : Nat) (hl : max ls.length i + 1 < 2 ^ 64) :
    Loop (linkNext ls) i out j ↔ out = ls.drop i ∧ j = max ls.length i + 1 := by
  have main : ∀ n i out j, ls.length - i = n → max ls.length i + 1 < 2 ^ 64 → (Loop (linkNext ls) i out j ↔ out = ls.drop i ∧ j = max ls.length i + 1) := by
    intro n
    induction n with
    | zero =>
      intro i out j hn hl
      have hnone : ls[i]? = none := List.getElem?_eq_none (by omega)
      have hnx : linkNext ls i = .ok (none, i + 1) := by unfold linkNext; rw [if_pos (by omega), hnone]
      rw [List.drop_eq_nil_of_le (by omega)]
      constructor
      · intro h
        cases h with
        | stop h => rw [hnx] at h; cases h; exact ⟨rfl, by omega⟩
        | step h _ => rw [hnx] at h; cases h
      · rintro ⟨rfl, rfl⟩
        rw [show max ls.length i = i from by omega]
        exact .stop hnx
    | succ n ih =>
      intro i out j hn hl
      have hlt : i < ls.length := by omega
      have hnx : linkNext ls i = .ok (some ls[i], i + 1) := by
        unfold linkNext; rw [if_pos (by omega), List.getElem?_eq_getElem hlt]
      rw [List.drop_eq_getElem_cons hlt]
      constructor
      · intro h
        cases h with
        | stop h => rw [hnx] at h; cases h
        | step h hrest =>
          rw [hnx] at h; cases h
          obtain ⟨rfl, hj⟩ := (ih (i + 1) _ j (by omega) (by omega)).1 hrest
          exact ⟨rfl, by omega⟩
      · rintro ⟨rfl, rfl⟩
        exact .step hnx ((ih (i + 1) _ _ (by omega) (by omega)).2 ⟨rfl, by omega⟩)
  exact main _ i out j rfl hl

/-- **C95 is false** of a second loop over the same object, which gives nothing however many links there are. -/
theorem second_loop (ls : List Link) (out out' : List Link) (j k : Nat) (hl : ls.length + 2 < 2 ^ 64) (h : Loop (linkNext ls) 0 out j)
    (h' : Loop (linkNext ls) j out' k) : out = ls ∧ out' = [] := by
  obtain ⟨e, rfl⟩ := (link_loop ls 0 out j (by omega)).1 h
  have := ((link_loop ls _ out' k (by omega)).1 h').1
  refine ⟨by simpa using e, this.trans (List.drop_eq_nil_of_le (by omega))⟩

theorem linksBytes_slice {ls : List Link} (h : ∀ l ∈ ls, l.tag.length = 16 ∧ l.ptr.length = 32) {i : Nat} (hi : i < ls.length) :
    ((linksBytes ls).drop (48 * i)).take 16 = ls[i].tag ∧ ((linksBytes ls).drop (48 * i + 16)).take 32 = ls[i].ptr := by
  induction ls generalizing i with
  | nil => cases hi
  | cons l ls ih =>
    have hl := h l (by simp)
    have e : linksBytes (l :: ls) = l.tag ++ (l.ptr ++ linksBytes ls) := by simp [linksBytes_eq, linkBytes]
    rw [e]
    cases i with
    | zero =>
      constructor
      · rw [Nat.mul_zero, List.drop_zero, List.take_left' hl.1]; rfl
      · rw [List.drop_left' (by omega), List.take_left' hl.2]; rfl
    | succ i =>
      have ih' := ih (fun l' hl' => h l' (List.mem_cons_of_mem _ hl')) (i := i) (by simpa using hi)
      rw [← List.append_assoc]
      have e2 : (l.tag ++ l.ptr).length = 48 := by simp [hl]
      constructor
      · rw [show 48 * (i + 1) = (l.tag ++ l.ptr).length + 48 * i from by omega, List.drop_append, List.drop_eq_nil_of_le (by omega)]
        simp only [List.nil_append, Nat.add_sub_cancel_left]
        exact ih'.1
      · rw [show 48 * (i + 1) + 16 = (l.tag ++ l.ptr).length + (48 * i + 16) from by omega, List.drop_append, List.drop_eq_nil_of_le (by omega)]
        simp only [List.nil_append, Nat.add_sub_cancel_left]
        exact ih'.2

/-- **C95**: the links of a packet object, in Python as the list that is indexed and looped over, in JavaScript as list, bytes and array of pairs. -/
theorem object_links {C : Crypto} (dbg : Bool) {q : NetPkt} {c : Content} (h : Holds C q c) {l : LinkContent} (hl : c.link? = some l) :
    pyLinks dbg q = .ok (some l.links) ∧ jsLinks dbg q = .ok l.links ∧ jsLinksArray dbg q = .ok (l.links.map fun x => (x.tag, x.ptr)) ∧
    jsLinksBytes dbg q = .ok (some ((l.links.map fun x => x.tag ++ x.ptr).flatten)) ∧ l.links.length + 2 < 2 ^ 63 := by
  have ht := tail_holds dbg h
  rw [hl] at ht
  have hsz : (∀ x ∈ l.links, x.tag.length = 16 ∧ x.ptr.length = 32) ∧ l.links.length + 2 < 2 ^ 63 := by
    have hv := h.valid
    cases c with
    | data b => cases hl
    | error b => cases hl
    | link l' =>
      cases hl
      have h1 := hv.1; have h2 : l.Sized := hv.2
      refine ⟨fun x hx => ?_, by simp only [Content.size, LinkContent.len] at h1; omega⟩
      exact h2.links x hx
    | key l' pk sig =>
      cases hl
      have h1 := hv.1; have h2 : l.Sized := hv.2.1
      refine ⟨fun x hx => ?_, by simp only [Content.size, LinkContent.len] at h1; omega⟩
      exact h2.links x hx
  have hb : jsLinksBytes dbg q = .ok (some (linksBytes l.links)) := by rw [jsLinksBytes, ht]; rfl
  have hj : jsLinks dbg q = .ok l.links := by rw [jsLinks, ht]; rfl
  refine ⟨by rw [pyLinks, ht]; rfl, hj, ?_, by rw [hb, linksBytes_eq, linkBytes], hsz.2⟩
  rw [jsLinksArray, hb, hj]
  show Except.ok _ = Except.ok _
  congr 1
  apply List.ext_getElem
  · simp
  · intro i hi1 hi2
    have hi : i < l.links.length := by simpa using hi1
    obtain ⟨e1, e2⟩ := linksBytes_slice hsz.1 hi
    simp [e1, e2]

/-- Three links: the last one by `-1`, `None` for 3 and for -4. -/
def exLs : List Link := [⟨List.replicate 16 1, List.replicate 32 1⟩, ⟨List.replicate 16 2, List.replicate 32 2⟩, ⟨List.replicate 16 3, List.replicate 32 3⟩]
example : linkAt exLs (-1) = some ⟨List.replicate 16 3, List.replicate 32 3⟩ ∧ linkAt exLs 3 = none ∧ linkAt exLs (-4) = none ∧ linkAt exLs 0 = exLs[0]? := by decide +kernel
example : Loop (linkNext exLs) 0 exLs 4 ∧ Loop (linkNext exLs) 4 [] 5 := ⟨(link_loop _ _ _ _ (by decide)).2 ⟨rfl, rfl⟩, (link_loop _ _ _ _ (by decide)).2 ⟨rfl, rfl⟩⟩

end Verif.Props
