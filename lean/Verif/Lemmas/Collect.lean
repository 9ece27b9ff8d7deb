import Verif.Spec.Collect
import Verif.Lemmas.PktCmd
import Verif.Props.CliData
/-!
Lemmas about `collect`.
-/
namespace Verif.Cmd
open Verif Verif.Pkt Verif.Spec Verif.Props Verif.Pred Verif.Multi Verif.Env Verif.Rd

/-! ### saving -/

theorem clock_less {y : Sys} {w : World} {n m : Nat} (h : Clock y w n) (hm : m ≤ n) : Clock y w m := by
  rcases h with h | ⟨h1, h2, h3, h4⟩
  · exact .inl (by omega)
  · exact .inr ⟨h1, h2, h3, fun i hi => h4 i (by omega)⟩

theorem clock_same {y : Sys} {w w' : World} {n : Nat} (h : Clock y w n) (h1 : w'.db = w.db) (h2 : w'.saves = w.saves) : Clock y w' n := by
  unfold Clock at h ⊢
  rw [h1, h2]; exact h

theorem saves_same {w w' : World} (h : w'.db = w.db) : Saves w w' [] := ⟨[], by rw [h]; simp, rfl⟩

theorem news_append (known : List Bytes) (a b : List NetParts) : news known (a ++ b) = news known a ++ news (hashesOf ((news known a).map fun p => (0, p)) ++ known) b := by
  induction a generalizing known with
  | nil => simp [news, hashesOf]
  | cons p a ih =>
    rw [List.cons_append, news, news]
    split
    · exact ih known
    · rw [List.cons_append, ih]
      congr 2
      exact news_same (fun x => by simp [hashesOf]; constructor <;> (intro h; rcases h with h | h | h <;> simp [h])) b

theorem saves_trans {w w' w'' : World} {a b : List Sent} (h : Saves w w' a) (h' : Saves w' w'' b) : Saves w w'' (a ++ b) := by
  obtain ⟨L, h1, h2⟩ := h
  obtain ⟨L', h3, h4⟩ := h'
  refine ⟨L ++ L', by rw [h3, h1, List.append_assoc], ?_⟩
  rw [List.map_append, List.map_append, news_append, ← h2, h4, h1]
  congr 1
  refine news_same (fun x => ?_) _
  simp only [hashesOf, List.map_append, List.mem_append, List.map_map, Function.comp_def]
  exact or_comm

theorem save_clock {y : Sys} {w : World} {n : Nat} (h : Clock y w (n + 1)) (s : Sent) :
    ∃ db b, saveOne y w s.parts = ({ w with db, saves := w.saves + 1 }, .ok b) ∧ Clock y { w with db, saves := w.saves + 1 } n ∧
      Saves w { w with db, saves := w.saves + 1 } [s] := by
  rcases h with h | ⟨h1, h2, h3, h4⟩
  · omega
  · obtain ⟨db, e1, e2, e3⟩ := saveOne_ok h1 h2 s h3 (h4 0 (by omega)).2
    refine ⟨db, _, e1, .inr ⟨h1, e2, ?_, fun i hi => ?_⟩, _, e3, ?_⟩
    · intro e he
      simp only at he ⊢
      rw [e3] at he
      have := (h4 0 (by omega)).1
      simp only [Nat.add_zero] at this
      rcases List.mem_append.1 he with he | he
      · exact Nat.lt_trans (h3 e he) this
      · split at he
        · cases he
        · obtain rfl : e = _ := by simpa using he
          exact this
    · have := h4 (i + 1) (by omega)
      simp only
      rw [show w.saves + 1 + i = w.saves + (i + 1) by omega]
      exact this
    · simp only [List.map_cons, List.map_nil, news]
      by_cases hm : s.hash ∈ hashesOf w.db.log
      · rw [if_pos hm, if_pos (show s.parts.hash ∈ _ from hm)]; rfl
      · rw [if_neg hm, if_neg (show ¬ s.parts.hash ∈ _ from hm)]; rfl

/-! ### destinations -/

theorem dbCount_cons (d : Dest) (ds : List Dest) : dbCount (d :: ds) = (if d.out = .db then 1 else 0) + dbCount ds := by
  unfold dbCount
  rw [List.countP_cons]
  by_cases h : d.out = .db <;> simp [h]; omega

theorem doneWith_one (o : IoOpts) (put : Sent → List Put) (s : Sent) : doneWith o put [s] = if goesOut o s then (put s).map (s, ·) else [] := by
  unfold doneWith
  cases h : goesOut o s <;> simp [h]

/-- What destinations do with a packet. -/
theorem writeMulti_puts_any (y : Sys) {o : IoOpts} {ds : List Dest} {s : Sent} {l : List Put} (hl : Puts ds s l)
    (h : s.Secret → ¬ Forbids o) (w : World) (hb : ∀ x, Put.hold x ∈ l → w.buf ≠ none) {n : Nat} (hc : Clock y w (dbCount ds + n)) :
    ∃ w', writeMulti y o ds ⟨s.parts, s.bytes⟩ w = (w', .ok ()) ∧
      w'.outs = w.outs ++ linesOf (if goesOut o s then l.map (s, ·) else []) ∧
      w'.buf = w.buf.map (· ++ heldOf (if goesOut o s then l.map (s, ·) else [])) ∧
      Saves w w' (savedOf (if goesOut o s then l.map (s, ·) else [])) ∧ Clock y w' n := by
  have hp := passPrivate_eq h
  cases hg : goesOut o s with
  | false =>
    have key : ∀ ds : List Dest, writeMulti y o ds ⟨s.parts, s.bytes⟩ w = (w, .ok ()) := by
      intro ds
      induction ds with
      | nil => rfl
      | cons d ds ih =>
        unfold writeMulti writeDest
        simp only [hp, hg, Left.next, ih]
    exact ⟨w, key ds, by simp [linesOf], by simp [heldOf], saves_same rfl, clock_less hc (by omega)⟩
  | true =>
    rw [hg] at hp
    simp only [if_true]
    induction hl generalizing w with
    | nil s => exact ⟨w, rfl, by simp [linesOf], by simp [heldOf], saves_same rfl, clock_less hc (by omega)⟩
    | @file ds s l f hl ih =>
      rw [dbCount_cons, if_neg nofun, Nat.zero_add] at hc
      obtain ⟨w', h1, h2, h3, h4, h5⟩ := ih h { w with outs := w.outs ++ [(f, s.bytes)] } (fun z hz => hb z (List.mem_cons_of_mem _ hz)) (clock_same hc rfl rfl) hp hg
      refine ⟨w', ?_, ?_, ?_, ?_, h5⟩
      · unfold writeMulti writeDest
        simp only [hp, Left.next, Left.get, Dest.text, h1]
      · rw [h2]; simp [linesOf, Put.line?]
      · rw [h3]; simp [heldOf, Put.held]
      · exact h4
    | @fileExpr ds s l f g x hx hl ih =>
      rw [dbCount_cons, if_neg nofun, Nat.zero_add] at hc
      obtain ⟨w', h1, h2, h3, h4, h5⟩ := ih h { w with outs := w.outs ++ [(f, x)] } (fun z hz => hb z (List.mem_cons_of_mem _ hz)) (clock_same hc rfl rfl) hp hg
      refine ⟨w', ?_, ?_, ?_, ?_, h5⟩
      · unfold writeMulti writeDest
        simp only [hp, Left.next, Left.get, Dest.text, hx, h1]
      · rw [h2]; simp [linesOf, Put.line?]
      · rw [h3]; simp [heldOf, Put.held]
      · exact h4
    | @hold ds s l hl ih =>
      rw [dbCount_cons, if_neg nofun, Nat.zero_add] at hc
      obtain ⟨b, hb⟩ := Option.ne_none_iff_exists'.1 (hb _ List.mem_cons_self)
      obtain ⟨w', h1, h2, h3, h4, h5⟩ := ih h { w with buf := some (b ++ s.bytes) } (fun _ _ => nofun) (clock_same hc rfl rfl) hp hg
      refine ⟨w', ?_, ?_, ?_, ?_, h5⟩
      · unfold writeMulti writeDest
        simp only [hp, hb, Left.next, Left.get, Dest.text, h1]
      · rw [h2]; simp [linesOf, Put.line?]
      · rw [h3, hb]; simp [heldOf, Put.held]
      · exact h4
    | @holdExpr ds s l g x hx hl ih =>
      rw [dbCount_cons, if_neg nofun, Nat.zero_add] at hc
      obtain ⟨b, hb⟩ := Option.ne_none_iff_exists'.1 (hb _ List.mem_cons_self)
      obtain ⟨w', h1, h2, h3, h4, h5⟩ := ih h { w with buf := some (b ++ x) } (fun _ _ => nofun) (clock_same hc rfl rfl) hp hg
      refine ⟨w', ?_, ?_, ?_, ?_, h5⟩
      · unfold writeMulti writeDest
        simp only [hp, hb, Left.next, Left.get, Dest.text, hx, h1]
      · rw [h2]; simp [linesOf, Put.line?]
      · rw [h3, hb]; simp [heldOf, Put.held]
      · exact h4
    | @save ds s l prep hl ih =>
      rw [dbCount_cons, if_pos rfl, show 1 + dbCount ds + n = dbCount ds + n + 1 by omega] at hc
      obtain ⟨db, r, e1, e2, e3⟩ := save_clock hc s
      obtain ⟨w', h1, h2, h3, h4, h5⟩ := ih h { w with db, saves := w.saves + 1 } (fun z hz => hb z (List.mem_cons_of_mem _ hz)) e2 hp hg
      refine ⟨w', ?_, ?_, ?_, ?_, h5⟩
      · unfold writeMulti writeDest
        simp only [hp, e1, Left.next, h1]
      · rw [h2]; simp [linesOf, Put.line?]
      · rw [h3]; simp [heldOf, Put.held]
      · have := saves_trans e3 h4
        simpa [savedOf, Put.isSave] using this

/-- What destinations do with a packet. -/
theorem writeMulti_puts (y : Sys) {o : IoOpts} {ds : List Dest} {s : Sent} {l : List Put} (hl : Puts ds s l)
    (h : s.Secret → ¬ Forbids o) (w : World) (b : Bytes) (hb : w.buf = some b) {n : Nat} (hc : Clock y w (dbCount ds + n)) :
    ∃ w', writeMulti y o ds ⟨s.parts, s.bytes⟩ w = (w', .ok ()) ∧
      w'.outs = w.outs ++ linesOf (if goesOut o s then l.map (s, ·) else []) ∧
      w'.buf = some (b ++ heldOf (if goesOut o s then l.map (s, ·) else [])) ∧
      Saves w w' (savedOf (if goesOut o s then l.map (s, ·) else [])) ∧ Clock y w' n := by
  obtain ⟨w', h1, h2, h3, h4, h5⟩ := writeMulti_puts_any y hl h w (fun _ _ => by rw [hb]; nofun) hc
  exact ⟨w', h1, h2, by rw [h3, hb]; rfl, h4, h5⟩

/-! ### points -/

/-- A point that was made is a packet. -/
theorem point_sent {C : Crypto} (L : C.Laws) {nh : Bytes} (hn : nh.length = 32) {c : LinkContent} {key : Option C.Key} {p : NetParts} (h : IsPoint C nh c key p) :
    ∃ s : Sent, p = s.parts ∧ s.Genuine C ∧ linksIn s.c = c.links ∧ s.c.group? = some c.group := by
  obtain ⟨ct, hv, hs, rfl, h1, h2⟩ := h
  refine ⟨⟨nh, C.hash ct.layout, ct, hn, L.hash_len _, hv⟩, rfl, ⟨hs, rfl⟩, ?_, ?_⟩
  all_goals
    cases key with
    | none => obtain rfl := h1 rfl; rfl
    | some k =>
      obtain ⟨sig, rfl⟩ := h2 k rfl
      rfl

theorem ofParts_sent (dbg : Bool) (s : Sent) : Item.ofParts dbg s.parts = .ok ⟨s.parts, s.bytes⟩ := by
  obtain ⟨h7, h8⟩ := segments_take7 s.c
  have : s.parts.segments dbg = .ok ((s.nh ++ s.hash) :: s.c.parts.segments.take 7) := by
    show s.c.parts.segments.pushFront dbg (s.nh ++ s.hash) = _
    unfold Segments.pushFront
    rw [h8]
    simp
  unfold Item.ofParts Sent.bytes
  rw [this]
  simp [Segments.bytes, h7]

theorem taken_append (tag : Nat → Sent → Bytes) (n : Nat) (a b : List Sent) : taken tag n (a ++ b) = taken tag n a ++ taken tag (n + a.length) b := by
  induction a generalizing n with
  | nil => rfl
  | cons s a ih => simp [taken, ih, Nat.add_assoc, Nat.add_comm 1]

theorem taken_length (tag : Nat → Sent → Bytes) (n : Nat) (a : List Sent) : (taken tag n a).length = a.length := by
  induction a generalizing n with
  | nil => rfl
  | cons s a ih => simp [taken, ih]

theorem taken_sized {tag : Nat → Sent → Bytes} (h : ∀ n s, (tag n s).length = 16) (n : Nat) (a : List Sent) : LinksSized (taken tag n a) := by
  induction a generalizing n with
  | nil => intro l hl; cases hl
  | cons s a ih =>
    intro l hl
    rcases List.mem_cons.1 hl with rfl | hl
    · exact ⟨h n s, s.hashLen⟩
    · exact ih _ l hl

theorem linksAfter_length (chain : Option (Nat → Sent → Bytes)) (links : List (Nat → Sent → Link)) (n : Nat) (p : Sent) :
    (linksAfter chain links n p).length = carried chain links := by
  unfold linksAfter carried
  cases chain <;> simp; omega

theorem linkAll_eq {fs : List (Nat → NetParts → PRes Link)} {gs : List (Nat → Sent → Link)} (hl : fs.length = gs.length) (n : Nat) (s : Sent)
    (h : ∀ (i : Nat) f g, fs[i]? = some f → gs[i]? = some g → f n s.parts = .ok (g n s)) : linkAll n s.parts fs = .ok (gs.map fun g => g n s) := by
  induction fs generalizing gs with
  | nil =>
    cases gs with
    | nil => rfl
    | cons g gs => simp at hl
  | cons f fs ih =>
    cases gs with
    | nil => simp at hl
    | cons g gs =>
      rw [linkAll, h 0 f g rfl rfl, ih (by simpa using hl) fun i f g hf hg => h (i + 1) f g (by simpa using hf) (by simpa using hg)]
      rfl

theorem after_eq {C : Crypto} {c : Collect C} {ts : List Sent} {tag : Nat → Sent → Bytes} {chain : Option (Nat → Sent → Bytes)}
    {links : List (Nat → Sent → Link)} (h : Exprs c ts tag chain links) (n : Nat) (s : Sent) : c.after n s.parts = .ok (linksAfter chain links n s) := by
  unfold Collect.after Collect.chain
  have hc := h.chains
  have hla := linkAll_eq h.count n s fun i f g hf hg => (h.extra i f g hf hg n s).1
  unfold linksAfter
  cases h1 : c.chainTag with
  | none =>
    cases h2 : chain with
    | none => simp [hla]
    | some t => rw [h1, h2] at hc; exact hc.elim
  | some f =>
    cases h2 : chain with
    | none => rw [h1, h2] at hc; exact hc.elim
    | some t =>
      rw [h1, h2] at hc
      simp only [(hc n s).1, hla]
      rfl

theorem after_sized {C : Crypto} {c : Collect C} {ts : List Sent} {tag : Nat → Sent → Bytes} {chain : Option (Nat → Sent → Bytes)}
    {links : List (Nat → Sent → Link)} (h : Exprs c ts tag chain links) (n : Nat) (s : Sent) : LinksSized (linksAfter chain links n s) := by
  intro l hl
  unfold linksAfter at hl
  rcases List.mem_append.1 hl with hl | hl
  · have hc := h.chains
    cases h2 : chain with
    | none => rw [h2] at hl; cases hl
    | some t =>
      cases h1 : c.chainTag with
      | none => rw [h1, h2] at hc; exact hc.elim
      | some f =>
        rw [h1, h2] at hc
        rw [h2] at hl
        obtain rfl : l = _ := by simpa using hl
        exact ⟨(hc n s).2, s.hashLen⟩
  · obtain ⟨g, hg, rfl⟩ := List.mem_map.1 hl
    obtain ⟨i, hi, hx⟩ := List.getElem_of_mem hg
    have hi' : i < c.link.length := by rw [h.count]; exact hi
    exact (h.extra i (c.link[i]) g (List.getElem?_eq_getElem hi') (by rw [List.getElem?_eq_getElem hi, hx]) n s).2 _ (by simp)

/-! ### one step -/

/-- What holds between two events: `rounds` were made, `pend` are the packets collected since and `b` the links there were before them. -/
structure Inv (y : Sys) (o : IoOpts) {C : Crypto} (nh : Bytes) (c : Collect C) (tag : Nat → Sent → Bytes) (chain : Option (Nat → Sent → Bytes))
    (links : List (Nat → Sent → Link)) (init : List Link) (fwd wr : Sent → List Put) (w : World) (r : Reader)
    (rounds : List Round) (pend : List Sent) (b : List Link) (n : Nat) (s : Collector) : Prop where
  made : Made nh c.point tag chain links init rounds b
  links : s.links = b ++ taken tag (pktsOf rounds).length pend
  current : s.current = pend.length
  read : s.read = (pktsOf rounds).length + pend.length
  count : s.made = rounds.length
  outs : s.world.outs = w.outs ++ rounds.flatMap (Round.lines o fwd wr) ++ linesOf (doneWith o fwd pend)
  buf : s.world.buf = some (heldOf (doneWith o fwd pend))
  saves : Saves w s.world (rounds.flatMap (fun x => savedOf (x.done o fwd wr)) ++ savedOf (doneWith o fwd pend))
  clock : Clock y s.world n
  reads : ∀ fs, blocks c.ev r (wants c.point rounds ++ fs) = (rounds.map (·.data) ++ (blocks c.ev s.reader fs).1, (blocks c.ev s.reader fs).2)
  nonempty : ∀ x ∈ rounds, c.allowEmpty = true ∨ linksIn x.point.c ≠ []

section
variable {y : Sys} {o : IoOpts} {C : Crypto} {nh : Bytes} {c : Collect C} {ts : List Sent} {tag : Nat → Sent → Bytes} {chain : Option (Nat → Sent → Bytes)}
  {links : List (Nat → Sent → Link)} {init : List Link} {fwd wr : Sent → List Put} {w : World} {r : Reader} {rounds : List Round} {pend : List Sent}
  {b : List Link} {n : Nat} {s : Collector}

theorem doneWith_append (o : IoOpts) (put : Sent → List Put) (a b : List Sent) : doneWith o put (a ++ b) = doneWith o put a ++ doneWith o put b := by
  simp [doneWith]
theorem linesOf_append (a b : List (Sent × Put)) : linesOf (a ++ b) = linesOf a ++ linesOf b := by simp [linesOf]
theorem heldOf_append (a b : List (Sent × Put)) : heldOf (a ++ b) = heldOf a ++ heldOf b := by simp [heldOf]
theorem savedOf_append (a b : List (Sent × Put)) : savedOf (a ++ b) = savedOf a ++ savedOf b := by simp [savedOf]

/-- A packet arrives. -/
theorem newPkt_inv (h : CollectOk C o nh c ts tag chain links init fwd wr) (dbg : Bool)
    (hi : Inv y o nh c tag chain links init fwd wr w r rounds pend b (dbCount c.forward + n) s) {t : Sent} (ht : t ∈ ts) :
    ∃ s', newPkt dbg y o c s (net t) = (s', .ok (decide (c.maxLinks ≤ pend.length + 1))) ∧
      Inv y o nh c tag chain links init fwd wr w r rounds (pend ++ [t]) b n s' := by
  obtain ⟨w', h1, h2, h3, h4, h5⟩ := writeMulti_puts y (h.fwds t ht) (h.private_ t ht) s.world _ hi.buf hi.clock
  rw [← doneWith_one] at h2 h3 h4
  refine ⟨{ s with links := s.links ++ [⟨tag s.read t, t.hash⟩], current := s.current + 1, read := s.read + 1, world := w' }, ?_, ?_⟩
  · unfold newPkt
    rw [ofPkt_net]
    simp only [h.exprs.collects s.read t ht, h1, hi.current]
    rfl
  · constructor
    · exact hi.made
    · simp only [hi.links, taken_append, taken, hi.read, List.append_assoc]
    · simp [hi.current]
    · simp [hi.read]; omega
    · exact hi.count
    · simp only [h2, hi.outs, doneWith_append, linesOf_append, List.append_assoc]
    · simp only [h3, doneWith_append, heldOf_append]
    · have := saves_trans hi.saves h4
      simpa only [doneWith_append, savedOf_append, List.append_assoc] using this
    · exact h5
    · exact hi.reads
    · exact hi.nonempty

theorem made_bound (hm : Made nh c.point tag chain links init rounds b) : b.length ≤ max init.length (carried chain links) := by
  cases hm with
  | nil => omega
  | snoc _ _ => rw [linksAfter_length]; omega

theorem made_sized (h : CollectOk C o nh c ts tag chain links init fwd wr) (hm : Made nh c.point tag chain links init rounds b) : LinksSized b := by
  cases hm with
  | nil => exact h.initSized
  | snoc _ _ => exact after_sized h.exprs _ _

theorem room_less {p : PointCmd C} {m k : Nat} (h : Room p m) (hk : k ≤ m) : Room p k := by
  unfold Room at h ⊢; omega

theorem flush_some {v : World} {x : Bytes} (h : v.buf = some x) :
    v.flush.outs = v.outs ++ (if x = [] then [] else [(stdout, x)]) ∧ v.flush.buf = some [] ∧ v.flush.db = v.db ∧ v.flush.saves = v.saves := by
  unfold World.flush
  rw [h]
  by_cases hx : x = []
  · simp [hx, h]
  · simp [hx]

/-- A point is made. -/
theorem collectOnce_inv (h : CollectOk C o nh c ts tag chain links init fwd wr) (dbg : Bool)
    (hi : Inv y o nh c tag chain links init fwd wr w r rounds pend b (dbCount c.write + n) s) (hp : pend.length ≤ fullRound c)
    (hne : c.allowEmpty = true ∨ s.links ≠ []) :
    (∃ d p s', collectOnce dbg y o nh c s = (s', .ok true) ∧
      Inv y o nh c tag chain links init fwd wr w r (rounds ++ [⟨pend, d, p⟩]) [] (linksAfter chain links rounds.length p) n s') ∨
    (∃ s', collectOnce dbg y o nh c s = (s', .ok false) ∧ s'.world = s.world ∧
      Halts c.ev r (wants c.point rounds) (askedFor c.point (b.length + pend.length)) (freeFor c.point (b.length + pend.length)) (.ok ())) ∨
    (∃ s' e, collectOnce dbg y o nh c s = (s', .error e) ∧ s'.world = s.world ∧
      Halts c.ev r (wants c.point rounds) (askedFor c.point (b.length + pend.length)) (freeFor c.point (b.length + pend.length)) (.error e)) := by
  obtain ⟨cs, hcs⟩ := h.sized
  have hlen : s.links.length = b.length + pend.length := by rw [hi.links, List.length_append, taken_length]
  have hsz : LinksSized s.links := by
    rw [hi.links]
    intro l hl
    rcases List.mem_append.1 hl with hl | hl
    · exact made_sized h hi.made l hl
    · exact taken_sized h.exprs.sized _ _ l hl
  have hroom : Room c.point s.links.length := room_less h.room (by
    have := made_bound hi.made
    unfold carried at *
    omega)
  have hemp : (!c.allowEmpty && s.links.isEmpty) = false := by
    rcases hne with he | he
    · rw [he]; rfl
    · cases hl : s.links with
      | nil => exact absurd hl he
      | cons x l => simp
  obtain ⟨b1, b2, b3⟩ := buildRead_eq c.ev h.laws nh hcs hsz hroom s.made s.reader
  rw [hlen] at b1 b2 b3
  have hblk := hi.reads [askedFor c.point (b.length + pend.length)]
  unfold collectOnce
  rw [if_neg (by rw [hemp]; simp)]
  cases hr : readNext c.ev s.reader (askedFor c.point (b.length + pend.length)) [] with
  | error e =>
    right; right
    rw [b1 e hr]
    exact ⟨_, e, rfl, rfl, .failed _ e (hblk.trans (by simp [blocks, hr]; rfl))⟩
  | ok v =>
    obtain ⟨v, r', d⟩ := v
    cases v with
    | false =>
      right; left
      rw [b2 r' d hr]
      exact ⟨_, rfl, rfl, .ended _ (hblk.trans (by simp [blocks, hr]; rfl))⟩
    | true =>
      obtain ⟨c1, c2⟩ := b3 r' d hr
      by_cases hd : d.length ≤ freeFor c.point (b.length + pend.length)
      · left
        obtain ⟨p, e1, e2, e3⟩ := c1 hd
        obtain ⟨q, rfl, hq1, hq2, hq3⟩ := point_sent h.laws h.nhLen e3
        obtain ⟨w', h1, h2, h3, h4, h5⟩ := writeMulti_puts y (h.writes q) (fun hs => h.privatePoint (by
          unfold Sent.Secret at hs
          rw [hq3] at hs
          exact Option.some.inj hs)) s.world _ hi.buf hi.clock
        rw [← doneWith_one] at h2 h3 h4
        obtain ⟨f1, f2, f3, f4⟩ := flush_some h3
        refine ⟨d, q, { s with links := linksAfter chain links s.made q, current := 0, reader := r', made := s.made + 1, world := w'.flush }, ?_, ?_⟩
        · rw [e1]
          simp only [ofParts_sent, h1, after_eq h.exprs]
        · rw [hi.links, hi.count] at e3
          constructor
          · exact .snoc (x := ⟨pend, d, q⟩) hi.made e3
          · simp [taken, hi.count]
          · rfl
          · simp [pktsOf, hi.read]
          · simp [hi.count]
          · simp only [f1, h2, hi.outs]
            simp [Round.lines, Round.done, linesOf_append, heldOf_append, doneWith, linesOf]
          · simp [f2, doneWith, heldOf]
          · have := saves_trans hi.saves h4
            obtain ⟨L, x1, x2⟩ := this
            refine ⟨L, by simp only [f3]; exact x1, ?_⟩
            rw [x2]
            simp [Round.done, savedOf_append, doneWith, savedOf]
          · exact clock_same h5 f3 f4
          · intro fs
            have := hi.reads (askedFor c.point (b.length + pend.length) :: fs)
            simp only [wants, List.map_append, List.map_cons, List.map_nil, List.append_assoc, List.singleton_append, hq2]
            simp only [hlen]
            unfold wants at this
            rw [this]
            simp [blocks, hr]
          · intro x hx
            rcases List.mem_append.1 hx with hx | hx
            · exact hi.nonempty x hx
            · obtain rfl : x = _ := by simpa using hx
              rcases hne with he | he
              · exact .inl he
              · refine .inr fun h0 => he (List.length_eq_zero_iff.1 ?_)
                rw [hq2] at h0
                simpa using congrArg List.length h0
      · right; right
        rw [c2 (by omega)]
        refine ⟨_, .panic, rfl, rfl, .long (rounds.map (·.data)) d (hblk.trans ?_) (by omega)⟩
        simp [blocks, hr]

/-! ### all events -/

theorem eachEnds_snoc {Q : Nat → Nat → Prop} {xs : List Round} {x : Round} (h : EachEnds Q xs) (hx : Q (pktsOf (xs ++ [x])).length x.pkts.length) :
    EachEnds Q (xs ++ [x]) := by
  intro a z b he
  rcases List.eq_nil_or_concat b with rfl | ⟨b, l, rfl⟩
  · obtain ⟨rfl, e⟩ := List.append_inj' he rfl
    obtain rfl : x = z := by simpa using e
    exact hx
  · have he' : xs ++ [x] = (a ++ z :: b) ++ [l] := by simpa using he
    exact h a z b (List.append_inj' he' rfl).1

theorem cutAt_more {xs : List Round} {m : Nat} (h : CutAt xs m) (ys : List Round) : CutAt (xs ++ ys) m := by
  obtain ⟨a, b, rfl, hm⟩ := h
  exact ⟨a, b ++ ys, by simp, hm⟩

/-- The packets that arrive. -/
def arrivals : List CEvent → List NetPkt
  | [] => []
  | .pkt q :: es => q :: arrivals es
  | .tick _ :: es => arrivals es

/-- An interval that counts is over when `m` packets have arrived, `base` of them before the events. -/
def TickAt (evs : List CEvent) (base m : Nat) : Prop := ∃ es fs, evs = es ++ .tick true :: fs ∧ m = base + (arrivals es).length

/-- How a run over some events ended that had `old` rounds and `base` packets before, before its last point. -/
def Ran (y : Sys) (o : IoOpts) {C : Crypto} (nh : Bytes) (c : Collect C) (tag : Nat → Sent → Bytes) (chain : Option (Nat → Sent → Bytes))
    (links : List (Nat → Sent → Link)) (init : List Link) (fwd wr : Sent → List Put) (w : World) (r : Reader) (ts : List Sent) (Q : Nat → Nat → Prop) (n : Nat)
    (old : List Round) (evs : List CEvent) (base : Nat) (x : Collector × PRes Bool) : Prop :=
  ∃ rounds pend b, EachEnds Q rounds ∧ (∃ more, rounds = old ++ more) ∧ (∀ m, TickAt evs base m → m ≤ (pktsOf rounds).length → CutAt rounds m) ∧
    ((x.2 = .ok true ∧ ts = pktsOf rounds ++ pend ∧ pend.length < fullRound c ∧ (∀ m, TickAt evs base m → m ≤ (pktsOf rounds).length) ∧
        Inv y o nh c tag chain links init fwd wr w r rounds pend b n x.1) ∨
     (∃ res s unread, x.2 = res.map (fun _ => false) ∧ ts = pktsOf rounds ++ pend ++ unread ∧ x.1.world = s.world ∧ pend.length ≤ fullRound c ∧
        Inv y o nh c tag chain links init fwd wr w r rounds pend b n s ∧
        Halts c.ev r (wants c.point rounds) (askedFor c.point (b.length + pend.length)) (freeFor c.point (b.length + pend.length)) res))

theorem tickAt_cons {e : CEvent} {evs : List CEvent} {base m : Nat} (h : TickAt (e :: evs) base m) :
    (e = .tick true ∧ m = base) ∨ TickAt evs (base + (arrivals [e]).length) m := by
  obtain ⟨es, fs, he, hm⟩ := h
  cases es with
  | nil =>
    obtain ⟨rfl, rfl⟩ := List.cons.inj he
    exact .inl ⟨rfl, by simpa [arrivals] using hm⟩
  | cons x es =>
    obtain ⟨rfl, rfl⟩ := List.cons.inj he
    refine .inr ⟨es, fs, rfl, ?_⟩
    cases e <;> simp [arrivals] at hm ⊢ <;> omega
theorem tickAt_mk {e : CEvent} {evs : List CEvent} {base m : Nat} (h : TickAt evs (base + (arrivals [e]).length) m) : TickAt (e :: evs) base m := by
  obtain ⟨es, fs, rfl, hm⟩ := h
  refine ⟨e :: es, fs, rfl, ?_⟩
  cases e <;> simp [arrivals] at hm ⊢ <;> omega
theorem tickAt_ge {evs : List CEvent} {base m : Nat} (h : TickAt evs base m) : base ≤ m := by
  obtain ⟨_, _, _, rfl⟩ := h
  omega

theorem inv_less (hi : Inv y o nh c tag chain links init fwd wr w r rounds pend b n s) {m : Nat} (hm : m ≤ n) :
    Inv y o nh c tag chain links init fwd wr w r rounds pend b m s := { hi with clock := clock_less hi.clock hm }

/-- A step that tries to make a point. -/
theorem try_collect (h : CollectOk C o nh c ts tag chain links init fwd wr) (dbg : Bool)
    (hi : Inv y o nh c tag chain links init fwd wr w r rounds pend b (dbCount c.write + n) s) (hp : pend.length ≤ fullRound c) :
    (c.allowEmpty = false ∧ s.links = [] ∧ collectOnce dbg y o nh c s = (s, .ok true)) ∨
    (∃ d p s', collectOnce dbg y o nh c s = (s', .ok true) ∧
      Inv y o nh c tag chain links init fwd wr w r (rounds ++ [⟨pend, d, p⟩]) [] (linksAfter chain links rounds.length p) n s') ∨
    (∃ s' res, collectOnce dbg y o nh c s = (s', res.map fun _ => false) ∧ s'.world = s.world ∧
      Halts c.ev r (wants c.point rounds) (askedFor c.point (b.length + pend.length)) (freeFor c.point (b.length + pend.length)) res) := by
  by_cases hne : c.allowEmpty = true ∨ s.links ≠ []
  · rcases collectOnce_inv h dbg hi hp hne with h | ⟨s', h1, h2, h3⟩ | ⟨s', e, h1, h2, h3⟩
    · exact .inr (.inl h)
    · exact .inr (.inr ⟨s', .ok (), h1, h2, h3⟩)
    · exact .inr (.inr ⟨s', .error e, h1, h2, h3⟩)
  · have ha : c.allowEmpty = false := by
      cases hx : c.allowEmpty with
      | false => rfl
      | true => exact absurd (.inl hx) hne
    have hl : s.links = [] := Classical.byContradiction fun hx => hne (.inr hx)
    refine .inl ⟨ha, hl, ?_⟩
    unfold collectOnce
    rw [ha, hl]
    rfl

theorem links_nil (hi : Inv y o nh c tag chain links init fwd wr w r rounds pend b n s) (h : s.links = []) : b = [] ∧ pend = [] := by
  rw [hi.links] at h
  obtain ⟨h1, h2⟩ := List.append_eq_nil_iff.1 h
  refine ⟨h1, ?_⟩
  cases pend with
  | nil => rfl
  | cons t p => cases h2

theorem events_run (h : CollectOk C o nh c ts tag chain links init fwd wr) (dbg : Bool) (Q : Nat → Nat → Prop) (hQ : ∀ m, Q m (fullRound c)) (evs : List CEvent)
    (us : List Sent) (hus : arrivals evs = us.map net) (hsub : ∀ t ∈ us, t ∈ ts)
    (hticks : ∀ m, TickAt evs ((pktsOf rounds).length + pend.length) m → ∀ k, k < fullRound c → Q m k)
    (hpend : pend.length < fullRound c) (hQr : EachEnds Q rounds)
    (hi : Inv y o nh c tag chain links init fwd wr w r rounds pend b (dbCount c.forward * us.length + dbCount c.write * evs.length + n) s) :
    Ran y o nh c tag chain links init fwd wr w r (pktsOf rounds ++ pend ++ us) Q n rounds evs ((pktsOf rounds).length + pend.length) (collectEvents dbg y o nh c s evs) := by
  induction evs generalizing us rounds pend b s with
  | nil =>
    have hno : ∀ {m k : Nat}, ¬ TickAt [] k m := by
      rintro m k ⟨es, fs, he, -⟩
      simp at he
    cases us with
    | cons u us => cases hus
    | nil => exact ⟨rounds, pend, b, hQr, ⟨[], by simp⟩, fun m hm => absurd hm hno, .inl ⟨rfl, by simp, hpend, fun m hm => absurd hm hno, inv_less hi (by omega)⟩⟩
  | cons e evs ih =>
    -- making a point with `pend'` collected
    have fin : ∀ (pend' : List Sent) (us' : List Sent) (s1 : Collector), pend ++ us = pend' ++ us' → arrivals evs = us'.map net → (∀ t ∈ us', t ∈ ts) →
        pend'.length ≤ fullRound c → pend'.length = pend.length + (arrivals [e]).length → Q ((pktsOf rounds).length + pend'.length) pend'.length → (pend' = [] → pend'.length < fullRound c) →
        Inv y o nh c tag chain links init fwd wr w r rounds pend' b (dbCount c.write + (dbCount c.forward * us'.length + dbCount c.write * evs.length + n)) s1 →
        ∀ x, collectOnce dbg y o nh c s1 = x →
        Ran y o nh c tag chain links init fwd wr w r (pktsOf rounds ++ pend ++ us) Q n rounds (e :: evs) ((pktsOf rounds).length + pend.length)
          (match x with
            | (s, .ok true) => collectEvents dbg y o nh c s evs
            | (s, .ok false) => (s, .ok false)
            | (s, .error x) => (s, .error x)) := by
      intro pend' us' s1 heq harr hsub' hle hlen hQp hlt hi1 x hx
      rw [List.append_assoc, heq, ← List.append_assoc]
      rcases try_collect h dbg hi1 hle with ⟨_, hl, hc⟩ | ⟨d, p, s', hc, hi2⟩ | ⟨s', res, hc, hw, hh⟩
      · rw [hc] at hx
        subst hx
        simp only
        have hp' := (links_nil hi1 hl).2
        subst hp'
        have hpe : pend.length = 0 := by simp at hlen; omega
        have hae : (arrivals [e]).length = 0 := by simp at hlen; omega
        obtain ⟨rs, p2, b2, q1, ⟨more, q2⟩, q3, q4⟩ := ih us' harr hsub' (fun m ht => hticks m (tickAt_mk (by
          rw [hae, hpe]; simpa using ht))) (hlt rfl) hQr (inv_less hi1 (by omega))
        have hcut : ∀ m, TickAt (e :: evs) ((pktsOf rounds).length + pend.length) m → m ≤ (pktsOf rs).length → CutAt rs m := by
          intro m hm hle
          rcases tickAt_cons hm with ⟨-, rfl⟩ | hm
          · rw [q2, hpe]
            exact ⟨rounds, more, rfl, by simp⟩
          · rw [hae, hpe] at hm
            exact q3 m (by simpa using hm) hle
        refine ⟨rs, p2, b2, q1, ⟨more, q2⟩, hcut, ?_⟩
        rcases q4 with ⟨a1, a2, a3, a4, a5⟩ | q4
        · refine .inl ⟨a1, a2, a3, fun m hm => ?_, a5⟩
          rcases tickAt_cons hm with ⟨-, rfl⟩ | hm
          · rw [q2, hpe]
            simp [pktsOf]
          · rw [hae, hpe] at hm
            exact a4 m (by simpa using hm)
        · exact .inr q4
      · rw [hc] at hx
        subst hx
        simp only
        have hbase : (pktsOf (rounds ++ [⟨pend', d, p⟩])).length + ([] : List Sent).length = (pktsOf rounds).length + pend.length + (arrivals [e]).length := by
          simp [pktsOf] at hlen ⊢; omega
        have := ih us' harr hsub' (fun m ht => hticks m (tickAt_mk (by rw [← hbase]; exact ht))) (by simp [fullRound]; omega)
          (eachEnds_snoc hQr (by simpa [pktsOf] using hQp)) hi2
        rw [show pktsOf (rounds ++ [⟨pend', d, p⟩]) ++ [] ++ us' = pktsOf rounds ++ pend' ++ us' by simp [pktsOf], hbase] at this
        obtain ⟨rs, p2, b2, q1, ⟨more, q2⟩, q3, q4⟩ := this
        have hb : ∀ m, TickAt (e :: evs) ((pktsOf rounds).length + pend.length) m → CutAt (rounds ++ [⟨pend', d, p⟩]) m ∨ TickAt evs ((pktsOf rounds).length + pend.length + (arrivals [e]).length) m := by
          intro m hm
          rcases tickAt_cons hm with ⟨rfl, rfl⟩ | hm
          · refine .inl ⟨rounds ++ [⟨pend', d, p⟩], [], by simp, ?_⟩
            simp [pktsOf, arrivals] at hlen ⊢; omega
          · exact .inr hm
        have hcut : ∀ m, CutAt (rounds ++ [⟨pend', d, p⟩]) m → m ≤ (pktsOf rs).length := by
          rintro m ⟨a, b', he, rfl⟩
          rw [q2, he]
          simp [pktsOf]
        refine ⟨rs, p2, b2, q1, ⟨⟨pend', d, p⟩ :: more, by rw [q2]; simp⟩, ?_, ?_⟩
        · intro m hm hle
          rcases hb m hm with h | h
          · rw [q2]
            exact cutAt_more h more
          · exact q3 m h hle
        · rcases q4 with ⟨a1, a2, a3, a4, a5⟩ | q4
          · refine .inl ⟨a1, a2, a3, fun m hm => ?_, a5⟩
            rcases hb m hm with h | h
            · exact hcut m h
            · exact a4 m h
          · exact .inr q4
      · rw [hc] at hx
        subst hx
        refine ⟨rounds, pend', b, hQr, ⟨[], by simp⟩, ?_, .inr ⟨res, s1, us', ?_, rfl, ?_, hle, inv_less hi1 (by omega), hh⟩⟩
        · intro m hm hle
          have := tickAt_ge hm
          exact ⟨rounds, [], by simp, by omega⟩
        · cases res <;> rfl
        · cases res <;> exact hw
    rw [collectEvents]
    cases e with
    | tick seen =>
      have harr : arrivals evs = us.map net := hus
      cases seen with
      | false =>
        simp only [collectStep]
        obtain ⟨rs, p2, b2, q1, q2, q3, q4⟩ := ih us harr hsub (fun m ht => hticks m (tickAt_mk ht)) hpend hQr
          (inv_less hi (by rw [List.length_cons, Nat.mul_succ]; omega))
        have hb : ∀ m, TickAt (.tick false :: evs) ((pktsOf rounds).length + pend.length) m → TickAt evs ((pktsOf rounds).length + pend.length) m := by
          intro m hm
          rcases tickAt_cons hm with ⟨h, -⟩ | hm
          · cases h
          · exact hm
        refine ⟨rs, p2, b2, q1, q2, fun m hm => q3 m (hb m hm), ?_⟩
        rcases q4 with ⟨a1, a2, a3, a4, a5⟩ | q4
        · exact .inl ⟨a1, a2, a3, fun m hm => a4 m (hb m hm), a5⟩
        · exact .inr q4
      | true =>
        simp only [collectStep]
        exact fin pend us s rfl harr hsub (Nat.le_of_lt hpend) (by simp [arrivals]) (hticks _ ⟨[], evs, rfl, by simp [arrivals]⟩ _ hpend) (fun _ => hpend)
          (inv_less hi (by rw [List.length_cons, Nat.mul_succ]; omega)) _ rfl
    | pkt q =>
      cases us with
      | nil => cases hus
      | cons u us =>
        have hu : q = net u ∧ arrivals evs = us.map net := by simpa [arrivals] using hus
        obtain ⟨rfl, harr⟩ := hu
        obtain ⟨s1, hn, hi1⟩ := newPkt_inv h dbg (n := dbCount c.write + (dbCount c.forward * us.length + dbCount c.write * evs.length + n))
          (inv_less hi (by rw [List.length_cons, List.length_cons, Nat.mul_succ, Nat.mul_succ]; omega)) (hsub u (by simp))
        simp only [collectStep, hn]
        by_cases hm : c.maxLinks ≤ pend.length + 1
        · rw [decide_eq_true hm]
          have hfull : (pend ++ [u]).length = fullRound c := by
            unfold fullRound at hpend ⊢
            rw [List.length_append, List.length_singleton]
            omega
          exact fin (pend ++ [u]) us s1 (by simp) harr (fun t ht => hsub t (by simp [ht])) (Nat.le_of_eq hfull) (by simp [arrivals]) (by rw [hfull]; exact hQ _)
            (fun hx => by simp at hx) hi1 _ rfl
        · rw [decide_eq_false hm]
          have hbase : (pktsOf rounds).length + (pend ++ [u]).length = (pktsOf rounds).length + pend.length + (arrivals [.pkt (net u)]).length := by
            simp [arrivals]; omega
          have := ih us harr (fun t ht => hsub t (by simp [ht])) (fun m ht => hticks m (tickAt_mk (by rw [← hbase]; exact ht)))
            (by unfold fullRound; rw [List.length_append, List.length_singleton]; omega) hQr (inv_less hi1 (by omega))
          rw [hbase] at this
          obtain ⟨rs, p2, b2, q1, q2, q3, q4⟩ := this
          have hb : ∀ m, TickAt (.pkt (net u) :: evs) ((pktsOf rounds).length + pend.length) m →
              TickAt evs ((pktsOf rounds).length + pend.length + (arrivals [.pkt (net u)]).length) m := by
            intro m hm
            rcases tickAt_cons hm with ⟨h, -⟩ | hm
            · cases h
            · exact hm
          refine ⟨rs, p2, b2, q1, q2, fun m hm => q3 m (hb m hm), ?_⟩
          simp only [List.append_assoc, List.singleton_append] at q4 ⊢
          rcases q4 with ⟨a1, a2, a3, a4, a5⟩ | q4
          · exact .inl ⟨a1, a2, a3, fun m hm => a4 m (hb m hm), a5⟩
          · exact .inr q4

theorem arrivals_pkts (qs : List NetPkt) : arrivals (qs.map .pkt) = qs := by
  induction qs with
  | nil => rfl
  | cons q qs ih => simp [arrivals, ih]

theorem arrivals_ticks (l : List Bool) (f : Bool → Bool) (es : List CEvent) : arrivals (l.map (fun b => .tick (f b)) ++ es) = arrivals es := by
  induction l with
  | nil => rfl
  | cons x l ih => simpa [arrivals] using ih

theorem arrivals_weave (ticks : Nat → List Bool) (n : Nat) (qs : List NetPkt) : arrivals (weave ticks n qs) = qs := by
  induction qs generalizing n with
  | nil =>
    have := arrivals_ticks (ticks n) (fun b => b || decide (0 < n)) []
    simpa [weave, arrivals] using this
  | cons q qs ih =>
    rw [weave, arrivals_ticks (ticks n) (fun b => b || decide (0 < n)), arrivals, ih]

/-- Where intervals are over between the packets. -/
theorem weave_tick (ticks : Nat → List Bool) (qs : List NetPkt) (n m : Nat) : TickAt (weave ticks n qs) n m →
    ∃ x ∈ ticks m, (x || decide (0 < m)) = true ∧ n ≤ m ∧ m ≤ n + qs.length := by
  have pre : ∀ (n : Nat) (l : List Bool) (f : Bool → Bool) (evs : List CEvent), TickAt (l.map (fun x => .tick (f x)) ++ evs) n m →
      (∃ x ∈ l, f x = true ∧ m = n) ∨ TickAt evs n m := by
    intro n l f evs
    induction l with
    | nil => exact .inr
    | cons x l ih =>
      intro h
      rcases tickAt_cons h with ⟨h1, h2⟩ | h
      · exact .inl ⟨x, by simp, by simpa using h1, h2⟩
      · rcases ih h with ⟨z, hz, h1, h2⟩ | h
        · exact .inl ⟨z, by simp [hz], h1, h2⟩
        · exact .inr h
  induction qs generalizing n with
  | nil =>
    intro h
    rcases pre n (ticks n) (fun x => x || decide (0 < n)) [] (by simpa [weave] using h) with ⟨x, hx, h1, rfl⟩ | ⟨es, fs, he, -⟩
    · exact ⟨x, hx, h1, Nat.le_refl _, by simp⟩
    · simp at he
  | cons q qs ih =>
    intro h
    rcases pre n (ticks n) (fun x => x || decide (0 < n)) _ h with ⟨x, hx, h1, rfl⟩ | h
    · exact ⟨x, hx, h1, Nat.le_refl _, by simp⟩
    · rcases tickAt_cons h with ⟨h1, -⟩ | h
      · cases h1
      · obtain ⟨x, h1, h2, h3, h4⟩ := ih (n + 1) (by simpa [arrivals] using h)
        exact ⟨x, h1, h2, by omega, by simp; omega⟩

theorem tick_weave (ticks : Nat → List Bool) (qs : List NetPkt) (n m : Nat) (hn : n ≤ m) (hm : m ≤ n + qs.length) {x : Bool} (hx : x ∈ ticks m)
    (hs : (x || decide (0 < m)) = true) : TickAt (weave ticks n qs) n m := by
  have here : ∀ evs, TickAt ((ticks m).map (fun b => CEvent.tick (b || decide (0 < m))) ++ evs) m m := by
    intro evs
    obtain ⟨a, b, e⟩ := List.append_of_mem hx
    refine ⟨a.map (fun b => CEvent.tick (b || decide (0 < m))), b.map (fun b => CEvent.tick (b || decide (0 < m))) ++ evs, ?_, ?_⟩
    · simp [e, hs]
    · have := arrivals_ticks a (fun b => b || decide (0 < m)) []
      simp only [List.append_nil] at this
      rw [this]; rfl
  induction qs generalizing n with
  | nil =>
    obtain rfl : n = m := by simp at hm; omega
    simpa [weave] using here []
  | cons q qs ih =>
    by_cases he : n = m
    · subst he
      exact here _
    · have := ih (n + 1) (by omega) (by simp at hm; omega)
      obtain ⟨es, fs, h1, h2⟩ := this
      refine ⟨(ticks n).map (fun b => .tick (b || decide (0 < n))) ++ .pkt q :: es, fs, by simp [weave, h1], ?_⟩
      rw [arrivals_ticks (ticks n) (fun b => b || decide (0 < n)), arrivals]
      simp; omega

theorem inv_start (h : CollectOk C o nh c ts tag chain links init fwd wr) (hc : Clock y w n) :
    Inv y o nh c tag chain links init fwd wr w r [] [] init n { links := init, reader := r, world := { w with buf := some [] } } := by
  constructor
  · exact .nil
  · simp [taken]
  · rfl
  · rfl
  · rfl
  · simp [doneWith, linesOf]
  · simp [doneWith, heldOf]
  · exact saves_same rfl
  · exact clock_same hc rfl rfl
  · intro fs; simp [wants]
  · intro x hx; cases hx

end

end Verif.Cmd
