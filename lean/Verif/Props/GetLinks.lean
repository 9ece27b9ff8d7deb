import Verif.Lemmas.GetLinks
import Verif.Props.Rewrite
import Verif.Props.Handlers
/-!
# C80: the packets that links lead to
-/
namespace Verif.Props
open Verif Verif.Pkt Verif.Spec Verif.Pred Verif.Multi Verif.Env Verif.Query Verif.Rt Verif.Cmd Verif.Opt Verif.QText

/-- What `lk_watch` takes from the query for a link: its id, which is the number of the link and its hash, and the mode; it does not follow links. -/
theorem link_query_opts {S : Type} (i : Nat) (l : Link) (h : Handler S) : watchQuery (linkQuery i l).conf h = .ok (beBytes 8 i ++ l.ptr, ⟨.hash, true⟩, h) := by
  have h1 : getMode (linkQuery i l).conf = .ok ⟨.hash, true⟩ := rfl
  have h2 : getOption (linkQuery i l).conf (ascii "qid") = .ok (some (some (linkQid i l))) := rfl
  have h3 : getOption (linkQuery i l).conf (ascii "follow") = .ok none := rfl
  unfold watchQuery
  rw [h1, h2, h3]
  rfl

/-- Links are followed as often as `--recursive` says; without it as far as they go with `--rrecursive`, and else only those of the packet itself. -/
theorem link_level : (∀ n b, linkLevel (some n) b = n) ∧ linkLevel none true = 2 ^ 64 - 1 ∧ linkLevel none false = 0 := ⟨fun _ _ => rfl, rfl, rfl⟩

section
variable {C : Crypto} {y : Sys} {o : IoOpts} {g : GetLinks} {db : Db} {ts : List Sent} {fwd wr : Sent → List Put} {clock : Nat → Nat}

/-- **C80**: `get-links` writes for each packet, in order, the packets that its links lead to, and then forwards the packet.  In the mode `error` it ends at the first
packet with a link that is missing, after writing what the links before it lead to, and the packet itself is not forwarded.  For all streams, files, levels and cuts
into pieces, and given enough steps. -/
theorem get_links_cmd (dbg : Bool) {ss : List Sent} (ha : Admits C o ss) {i : PktIn} (hi : Feeds i (streamOf ss))
    (h : GetLinksOk o g db (ss.map (arrive (o.hop.getD false))) fwd wr) :
    ∃ pre rest outs last N, ss.map (arrive (o.hop.getD false)) = pre ++ rest ∧ Fetched db.log (g.mode == .error) g.level pre outs ∧
      ((rest = [] ∧ last = []) ∨ ∃ s rest' out, rest = s :: rest' ∧ Reached db.log (g.mode == .error) g.level (linksIn s.c) out false ∧ TheseFrom out last) ∧
      ∀ fuel, N ≤ fuel → ∀ w : World, w.buf = none → Clock y w (dbCount g.forward * ss.length) →
        ∃ w', getLinksCmd C dbg y o g clock fuel db i w = (w', if rest = [] then .ok () else .error (.err ())) ∧
          w'.outs = w.outs ++ linesOf (fetchDone o fwd wr pre outs ++ doneWith o wr last) ∧
          Saves w w' (savedOf (fetchDone o fwd wr pre outs ++ doneWith o wr last)) := by
  obtain ⟨pre, rest, outs, last, N, h1, h2, h3, h4⟩ := getLinks_each (y := y) (clock := clock) h dbg (ss.map (arrive (o.hop.getD false))) fun _ hs => hs
  refine ⟨pre, rest, outs, last, N, h1, h2, h3, fun fuel hf w hb hc => ?_⟩
  obtain ⟨w', rt', g1, g2, g3⟩ := h4 fuel hf 0 w (start db) hb (by simpa using hc) rfl rfl
  refine ⟨w', ?_, g2, g3⟩
  unfold getLinksCmd runCmd
  rw [input_feeds dbg ha (stream_rest hi) (by simp)]
  simp only
  rw [← List.map_map, g1]
  split
  · rfl
  · rfl

/-- **C80**: a packet that is not admitted or is cut off is an error after what comes before it. -/
theorem get_links_cmd_spoiled (dbg : Bool) {ss : List Sent} (ha : Admits C o ss) {i i' : PktIn} {rest : Bytes} (hi : Feeds i (streamOf ss))
    (hi' : Feeds i' (streamOf ss ++ rest)) (hr : Spoils C o rest) {fuel : Nat} {w w' : World}
    (h : getLinksCmd C dbg y o g clock fuel db i w = (w', .ok ())) : getLinksCmd C dbg y o g clock fuel db i' w = (w', .error (.err ())) := by
  unfold getLinksCmd at h ⊢
  refine runCmd_spoiled (rest' := []) ha (stream_rest hi) (by simp) hi' hr (fun s q => ?_) h
  unfold getLinksStep onward
  repeat' split
  all_goals nofun

/-! ### what is reached -/

variable {log : List (Nat × NetParts)} {n : Nat} {ls : List Link} {out : List (Nat × NetParts)} {ok : Bool}

/-- The log has no hash twice: `log_unique`. -/
def NoTwice (log : List (Nat × NetParts)) : Prop := ∀ e ∈ log, ∀ e' ∈ log, e.2.hash = e'.2.hash → e = e'

theorem noTwice_of (hc : Spec.Consistent db) : NoTwice db.log := by
  intro e he e' he' hh
  obtain ⟨h1, h2⟩ := log_unique hc (i := e.1) (p := e.2) (j := e'.1) (q := e'.2) he he' hh
  exact Prod.ext h1 h2

/-- **C80**: what is written for the links of a packet is determined by the log and the level. -/
theorem reached_unique (hu : NoTwice log) {stops : Bool} (h : Reached log stops n ls out ok) {out' : List (Nat × NetParts)} {ok' : Bool} (h' : Reached log stops n ls out' ok') :
    out = out' ∧ ok = ok' := by
  induction h generalizing out' ok' with
  | nil => cases h'; exact ⟨rfl, rfl⟩
  | skip hs hn _ ih =>
    cases h' with
    | skip _ _ h' => exact ih h'
    | stop hs' _ => rw [hs] at hs'; cases hs'
    | leaf he hh _ => exact absurd hh (hn _ he)
    | inner he hh _ _ => exact absurd hh (hn _ he)
  | stop hs hn =>
    cases h' with
    | skip hs' _ _ => rw [hs] at hs'; cases hs'
    | stop _ _ => exact ⟨rfl, rfl⟩
    | leaf he hh _ => exact absurd hh (hn _ he)
    | inner he hh _ _ => exact absurd hh (hn _ he)
  | leaf he hh _ ih =>
    cases h' with
    | skip _ hn _ => exact absurd hh (hn _ he)
    | stop _ hn => exact absurd hh (hn _ he)
    | leaf he' hh' h' =>
      obtain ⟨rfl, rfl⟩ := ih h'
      rw [hu _ he _ he' (hh.trans hh'.symm)]
      exact ⟨rfl, rfl⟩
  | inner he hh _ _ ih1 ih2 =>
    cases h' with
    | skip _ hn _ => exact absurd hh (hn _ he)
    | stop _ hn => exact absurd hh (hn _ he)
    | inner he' hh' h1 h2 =>
      obtain rfl := hu _ he _ he' (hh.trans hh'.symm)
      obtain ⟨rfl, rfl⟩ := ih1 h1
      obtain ⟨rfl, rfl⟩ := ih2 h2
      exact ⟨rfl, rfl⟩

/-- **C80**: in the mode `skip` links are never an error. -/
theorem reached_skip_ok (h : Reached log false n ls out ok) : ok = true := by
  induction h with
  | nil => rfl
  | skip _ _ _ ih => exact ih
  | stop h _ => cases h
  | leaf _ _ _ ih => exact ih
  | inner _ _ _ _ _ ih => exact ih

/-- **C80**: in the mode `skip` exactly the stored packets are written that a chain of links leads to, one longer than the level, through stored packets. -/
theorem reached_iff (hu : NoTwice log) (h : Reached log false n ls out ok) (x : Nat × NetParts) : x ∈ out ↔ LinkChain log n ls x := by
  induction h generalizing x with
  | nil =>
    refine ⟨fun h => by simp at h, fun h => ?_⟩
    cases h with
    | last hl _ _ => simp at hl
    | more hl _ _ _ => simp at hl
  | stop h _ => cases h
  | @skip n l ls out ok _ hn _ ih =>
    rw [ih]
    constructor
    · intro h
      cases h with
      | last hl he hh => exact .last (List.mem_cons_of_mem _ hl) he hh
      | more hl he hh hp => exact .more (List.mem_cons_of_mem _ hl) he hh hp
    · intro h
      cases h with
      | last hl he hh =>
        rcases List.mem_cons.1 hl with rfl | hl
        · exact absurd hh (hn _ he)
        · exact .last hl he hh
      | more hl he hh hp =>
        rcases List.mem_cons.1 hl with rfl | hl
        · exact absurd hh (hn _ he)
        · exact .more hl he hh hp
  | @leaf l ls e out ok he hh _ ih =>
    rw [List.mem_cons, ih]
    constructor
    · rintro (rfl | h)
      · exact .last (by simp) he hh
      · cases h with
        | last hl he hh => exact .last (List.mem_cons_of_mem _ hl) he hh
    · intro h
      cases h with
      | last hl he' hh' =>
        rcases List.mem_cons.1 hl with rfl | hl
        · exact .inl (hu _ he' _ he (hh'.trans hh.symm))
        · exact .inr (.last hl he' hh')
  | @inner n l ls e mid out ok ok' he hh _ _ ih1 ih2 =>
    rw [List.mem_cons, List.mem_append, ih1, ih2]
    constructor
    · rintro (rfl | h | h)
      · exact .last (by simp) he hh
      · exact .more (by simp) he hh h
      · cases h with
        | last hl he hh => exact .last (List.mem_cons_of_mem _ hl) he hh
        | more hl he hh hp => exact .more (List.mem_cons_of_mem _ hl) he hh hp
    · intro h
      cases h with
      | last hl he' hh' =>
        rcases List.mem_cons.1 hl with rfl | hl
        · exact .inl (hu _ he' _ he (hh'.trans hh.symm))
        · exact .inr (.inr (.last hl he' hh'))
      | more hl he' hh' hp =>
        rcases List.mem_cons.1 hl with rfl | hl
        · obtain rfl := hu _ he' _ he (hh'.trans hh.symm)
          exact .inr (.inl hp)
        · exact .inr (.inr (.more hl he' hh' hp))

/-- **C80**: in the mode `error` there is an error exactly if one of the links of the packet itself is missing. -/
theorem reached_error_iff (h : Reached log true n ls out ok) : ok = true ↔ ∀ l ∈ ls, ∃ e ∈ log, e.2.hash = l.ptr := by
  induction h with
  | nil => simp
  | skip h _ _ _ => cases h
  | stop _ hn =>
    refine ⟨(fun h => nomatch h), fun h => ?_⟩
    obtain ⟨e, he, hh⟩ := h _ (List.mem_cons_self ..)
    exact absurd hh (hn e he)
  | leaf he hh _ ih =>
    rw [ih]
    exact ⟨fun h l hl => (List.mem_cons.1 hl).elim (fun e => e ▸ ⟨_, he, hh⟩) (h l), fun h l hl => h l (List.mem_cons_of_mem _ hl)⟩
  | inner he hh _ _ _ ih =>
    rw [ih]
    exact ⟨fun h l hl => (List.mem_cons.1 hl).elim (fun e => e ▸ ⟨_, he, hh⟩) (h l), fun h l hl => h l (List.mem_cons_of_mem _ hl)⟩

/-- **C80**: without levels, the packets written are those of the links that are stored, in the order of the links and as often. -/
theorem reached_leaf (h : Reached log false 0 ls out ok) : ∃ ks : List Link, ks.Sublist ls ∧ out.map (·.2.hash) = ks.map (·.ptr) ∧ ∀ l ∈ ls, (∃ e ∈ log, e.2.hash = l.ptr) → l ∈ ks := by
  generalize hn : 0 = n at h
  induction h with
  | nil => exact ⟨[], .slnil, rfl, by simp⟩
  | stop h _ => cases h
  | skip _ hno _ ih =>
    obtain ⟨ks, h1, h2, h3⟩ := ih hn
    refine ⟨ks, h1.cons _, h2, fun x hx ⟨e, he, hh⟩ => ?_⟩
    rcases List.mem_cons.1 hx with rfl | hx
    · exact absurd hh (hno e he)
    · exact h3 x hx ⟨e, he, hh⟩
  | leaf he hh _ ih =>
    obtain ⟨ks, h1, h2, h3⟩ := ih hn
    refine ⟨_ :: ks, h1.cons_cons _, by rw [List.map_cons, List.map_cons, h2, hh], fun x hx hex => ?_⟩
    rcases List.mem_cons.1 hx with rfl | hx
    · simp
    · exact List.mem_cons_of_mem _ (h3 x hx hex)
  | inner => cases hn

/-- **C80**: the mode `skip` goes through all packets. -/
theorem get_links_skip (dbg : Bool) {ss : List Sent} (ha : Admits C o ss) {i : PktIn} (hi : Feeds i (streamOf ss))
    (h : GetLinksOk o g db (ss.map (arrive (o.hop.getD false))) fwd wr) (hm : g.mode = .skip) :
    ∃ outs N, Fetched db.log false g.level (ss.map (arrive (o.hop.getD false))) outs ∧
      ∀ fuel, N ≤ fuel → ∀ w : World, w.buf = none → Clock y w (dbCount g.forward * ss.length) →
        ∃ w', getLinksCmd C dbg y o g clock fuel db i w = (w', .ok ()) ∧
          w'.outs = w.outs ++ linesOf (fetchDone o fwd wr (ss.map (arrive (o.hop.getD false))) outs) ∧
          Saves w w' (savedOf (fetchDone o fwd wr (ss.map (arrive (o.hop.getD false))) outs)) := by
  obtain ⟨pre, rest, outs, last, N, h1, h2, h3, h4⟩ := get_links_cmd (y := y) (clock := clock) dbg ha hi h
  have hstop : (g.mode == LinkMode.error) = false := by rw [hm]; rfl
  rw [hstop] at h2 h3
  rcases h3 with ⟨rfl, rfl⟩ | ⟨s, rest', out, -, hr, -⟩
  · rw [List.append_nil] at h1
    subst h1
    refine ⟨outs, N, h2, fun fuel hf w hb hc => ?_⟩
    obtain ⟨w', g1, g2, g3⟩ := h4 fuel hf w hb hc
    refine ⟨w', g1, by simpa [doneWith] using g2, by simpa [doneWith] using g3⟩
  · exact absurd (reached_skip_ok hr) (by simp)

/-- **C80**: the mode `error` fails exactly if one of the packets has a link that is missing. -/
theorem get_links_error_iff (dbg : Bool) {ss : List Sent} (ha : Admits C o ss) {i : PktIn} (hi : Feeds i (streamOf ss))
    (h : GetLinksOk o g db (ss.map (arrive (o.hop.getD false))) fwd wr) (hm : g.mode = .error) :
    ∃ N, ∀ fuel, N ≤ fuel → ∀ w : World, w.buf = none → Clock y w (dbCount g.forward * ss.length) →
      ((getLinksCmd C dbg y o g clock fuel db i w).2 = .error (.err ()) ↔ ∃ s ∈ ss, Lacks db.log s) ∧
      ((getLinksCmd C dbg y o g clock fuel db i w).2 = .ok () ↔ ¬ ∃ s ∈ ss, Lacks db.log s) := by
  obtain ⟨pre, rest, outs, last, N, h1, h2, h3, h4⟩ := get_links_cmd (y := y) (clock := clock) dbg ha hi h
  have hstop : (g.mode == LinkMode.error) = true := by rw [hm]; rfl
  rw [hstop] at h2 h3
  have key : (∃ s ∈ ss, Lacks db.log s) ↔ rest ≠ [] := by
    have e : (∃ s ∈ ss, Lacks db.log s) ↔ ∃ s ∈ pre ++ rest, Lacks db.log s := by
      rw [← h1]
      constructor
      · rintro ⟨s, hs, l, hl⟩
        exact ⟨_, List.mem_map_of_mem hs, l, by rw [arrive_c]; exact hl⟩
      · rintro ⟨s, hs, l, hl⟩
        obtain ⟨s', hs', rfl⟩ := List.mem_map.1 hs
        exact ⟨s', hs', l, by rw [arrive_c] at hl; exact hl⟩
    have hpre : ∀ s ∈ pre, ¬ Lacks db.log s := by
      clear h1 h4 e
      induction h2 with
      | nil => simp
      | cons hr _ _ ih =>
        intro s hs
        rcases List.mem_cons.1 hs with rfl | hs
        · rintro ⟨l, hl, hn⟩
          obtain ⟨e, he, hh⟩ := (reached_error_iff hr).1 rfl l hl
          exact hn e he hh
        · exact ih s hs
    rw [e]
    constructor
    · rintro ⟨s, hs, hlk⟩ rfl
      rw [List.append_nil] at hs
      exact hpre s hs hlk
    · intro hne
      rcases h3 with ⟨h3, -⟩ | ⟨s, rest', out, h3, hr, -⟩
      · exact absurd h3 hne
      · refine ⟨s, by rw [h3]; simp, ?_⟩
        have := mt (reached_error_iff hr).2 (by simp)
        rw [Classical.not_forall] at this
        obtain ⟨l, hl⟩ := this
        rw [Classical.not_imp] at hl
        exact ⟨l, hl.1, fun e he hh => hl.2 ⟨e, he, hh⟩⟩
  refine ⟨N, fun fuel hf w hb hc => ?_⟩
  obtain ⟨w', g1, -⟩ := h4 fuel hf w hb hc
  rw [g1, key]
  by_cases hr : rest = [] <;> simp [hr]

/-! ### where the command fails -/

/-- **C80 fails**: in the mode `error`, that a packet which was found lacks links of its own is not noticed: its links up to the missing one are followed, and the
command goes on. -/
theorem get_links_inner_lost {l : Link} {e : Nat × NetParts} (he : e ∈ log) (hh : e.2.hash = l.ptr) {mid : List (Nat × NetParts)} {ok' : Bool}
    (hm : Reached log true n e.2.getLinks mid ok') : Reached log true (n + 1) [l] (e :: (mid ++ [])) true := .inner he hh hm (.nil _)

/-- **C80 fails**: in the mode `watch` with levels, a packet that was waited for aborts the program when it comes and its first link is missing. -/
theorem watch_arrival_panics {rt : RT Nat} (hl : rt.locked = true) (hn : rt.upto < rt.disk.logHead) (hc : Spec.Consistent rt.snap) (hw : AllShow rt.snap)
    {e : Nat × NetParts} {l : Link} (he : e.2.getLinks = l :: ls) (hp : l.ptr.length = 32) (hno : ∀ x ∈ rt.snap.log, x.2.hash ≠ l.ptr) (level fuel : Nat) :
    Rt.run (linkProg .watch clock) (fuel + 2) rt ((linkProg .watch clock).handle (level + 1) e) = .error .panic := by
  have hr : rt.snap.read l.ptr = none := by
    cases hx : rt.snap.read l.ptr with
    | none => rfl
    | some x => obtain ⟨a, b⟩ := (read_hash_iff hc l.ptr x.1 x.2).1 hx; exact absurd b (hno x a)
  have hq := hash_eq_query hc hw hp
  rw [hr] at hq
  have hwatch : ∀ call, watch (linkProg .watch clock) call rt (linkQid 0 l) ⟨.hash, true⟩ (linkQuery 0 l).preds level = .error .panic ∨
      ∃ rt', watch (linkProg .watch clock) call rt (linkQid 0 l) ⟨.hash, true⟩ (linkQuery 0 l).preds level = .ok (rt', false, false) ∧
        rt'.locked = true ∧ rt'.upto = rt.upto ∧ rt'.disk = rt.disk := by
    intro call
    unfold watch
    rw [show (linkQuery 0 l).preds = (QText.Query.hashEq l.ptr).preds from rfl, link_checkDb]
    simp only [close, if_pos hl, RT.push]
    by_cases hd : rt.draining = true
    · simp only [if_pos hd]; exact .inl trivial
    · obtain ⟨x, hx⟩ := (link_new l.ptr (linkQid 0 l) (rt.next, level)).2
      simp only [if_neg hd, dbPart, if_true, hq, Option.toList_none, dbCalls, Option.isSome_none, Bool.false_eq_true, if_false, hx, insertWatch, RT.note, if_pos hl, RT.push]
      exact .inr ⟨_, rfl, hl, rfl, rfl⟩
  show Rt.run _ _ rt (getLinks .watch level _ 0 e.2.getLinks) = _
  rw [he, getLinks, Rt.run, step]
  rcases hwatch (Rt.run (linkProg .watch clock) (fuel + 1)) with h | ⟨rt', h, h1, h2, h3⟩
  · rw [h]
  · rw [h]
    simp only
    rw [Rt.run, step, process_nested h1 (by rw [h2, h3]; exact hn)]

end
/-! ### witnesses -/

def tiedLinks (to : List UInt8) : LinkContent := { exLink [[65]] 5 with links := to.map fun b => ⟨List.replicate 16 0, List.replicate 32 b⟩ }
theorem tied_sized (to : List UInt8) : (tiedLinks to).Sized := by
  refine ⟨rfl, rfl, (by show 5 < 2 ^ 64; decide), fun l hl => ?_, (by show Rooted.checkComponents (rootedOf [[65]]) = _; decide)⟩
  obtain ⟨b, -, rfl⟩ := List.mem_map.1 hl
  exact ⟨rfl, rfl⟩
/-- A packet with links to the hashes of these bytes. -/
def tiedTo (h : UInt8) (to : List UInt8) (ht : to.length ≤ 100) : Sent :=
  ⟨List.replicate 32 0, List.replicate 32 h, .link (tiedLinks to), rfl, rfl, by
    refine ⟨?_, tied_sized to⟩
    show (tiedLinks to).len ≤ 65024
    have : (tiedLinks to).len = 64 + 48 * to.length + (tiedLinks to).rspace.length + 2 := by unfold LinkContent.len tiedLinks; simp [exLink]
    have h2 : (tiedLinks to).rspace.length ≤ 100 := by show (rootedOf [[65]]).length ≤ 100; decide
    rw [this]
    omega⟩

/-- A packet with a link that is missing, one that has two packets behind it, and one whose link is missing. -/
def tiedDb : Db := runSaves {} [⟨fun _ => .ok, 100, [((tiedTo 1 [2, 9, 3] (by decide)).parts, .pending), ((tiedTo 2 [8, 3] (by decide)).parts, .pending),
  ((tiedTo 3 [] (by decide)).parts, .pending)]⟩]
theorem tiedDb_log : tiedDb.log = [(100, (tiedTo 1 [2, 9, 3] (by decide)).parts), (101, (tiedTo 2 [8, 3] (by decide)).parts), (102, (tiedTo 3 [] (by decide)).parts)] := by
  decide +kernel

theorem tied_shows (h : UInt8) (to : List UInt8) (ht : to.length ≤ 100) : ∃ x, Shows (tiedTo h to ht).parts x :=
  ⟨_, _, [[65]], ⟨rfl, (tiedTo h to ht).valid, (tiedTo h to ht).hashLen, rfl⟩, rfl, ⟨⟨by simp [ValidComps], rfl, by decide⟩, by decide, .inl rfl⟩⟩

/-- Witness for `get_links_cmd` and what follows from it. -/
theorem wit_get_links (m : LinkMode) (hm : m ≠ .watch) (level : Nat) (ts : List Sent) :
    GetLinksOk {} { mode := m, level, forward := [] } tiedDb ts (fun _ => []) fun s => [.file stdout s.bytes] := by
  refine ⟨hm, saves_consistent _, ?_, ?_, fun s _ => .nil s, fun s => .file _ (.nil s), rfl, fun s b => ⟨by simp, by simp⟩, (fun h => nomatch h.2)⟩
  · intro i p hp
    rw [tiedDb_log] at hp
    simp only [List.mem_cons, Prod.mk.injEq, List.not_mem_nil, or_false] at hp
    rcases hp with ⟨_, rfl⟩ | ⟨_, rfl⟩ | ⟨_, rfl⟩ <;> exact tied_shows _ _ _
  · intro e he
    rw [tiedDb_log] at he
    simp only [List.mem_cons, List.not_mem_nil, or_false] at he
    rcases he with rfl | rfl | rfl <;> exact ⟨_, rfl⟩

/-- The hashes written to standard output for a packet with a link to the first. -/
def tiedOut (m : LinkMode) (level : Nat) (to : List UInt8) (ht : to.length ≤ 100) : List (Option UInt8) × Bool :=
  let r := getLinksCmd toyCrypto true { now := fun _ => 0 } { skipHash := true } { mode := m, level } (fun _ => 50) 30 tiedDb { chunks := [(tiedTo 7 to ht).bytes] } {}
  (r.1.outs.map (fun x => x.2[32]?), r.2 == .ok ())

/-- Packets are written as often as links lead to them, one link further with each level; the missing ones are left out, or are an error. -/
theorem get_links_example : tiedOut .skip 0 [1, 9, 3] (by decide) = ([some 1, some 3, some 7], true) ∧
    tiedOut .skip 1 [1] (by decide) = ([some 1, some 2, some 3, some 7], true) ∧
    tiedOut .skip 2 [1] (by decide) = ([some 1, some 2, some 3, some 3, some 7], true) ∧
    tiedOut .error 0 [1, 9, 3] (by decide) = ([some 1], false) := by
  refine ⟨?_, ?_, ?_, ?_⟩ <;> decide +kernel

/-- Witness for `get_links_inner_lost`: the third link of the first packet is not followed, and there is no error. -/
theorem get_links_lost_example : tiedOut .error 1 [1, 3] (by decide) = ([some 1, some 2, some 3, some 7], true) := by decide +kernel

/-- Witness for `watch_arrival_panics`: the packet that is waited for comes, with a link that is missing. -/
theorem watch_panic_example :
    (match Rt.run (linkProg .watch fun _ => 50) 30 (start tiedDb) (getLinks .watch 1 (fun ok => .ask (.save ⟨fun _ => .ok, 200, [((tiedTo 9 [8] (by decide)).parts, .pending)]⟩) fun _ =>
        .ask .process fun _ => .ret 0 ok) 0 [⟨List.replicate 16 0, List.replicate 32 9⟩]) with
      | .error .panic => true
      | _ => false) = true := by decide +kernel

/-- Without levels it is written. -/
example :
    (match Rt.run (linkProg .watch fun _ => 50) 30 (start tiedDb) (getLinks .watch 0 (fun ok => .ask (.save ⟨fun _ => .ok, 200, [((tiedTo 9 [8] (by decide)).parts, .pending)]⟩) fun _ =>
        .ask .process fun _ => .ret 0 ok) 0 [⟨List.replicate 16 0, List.replicate 32 9⟩]) with
      | .ok (rt, _) => (givenIn rt.trace).map (·.1)
      | _ => []) = [200] := by decide +kernel

end Verif.Props
