import Verif.Lemmas.Collect
import Verif.Props.PktCmd
import Verif.Lemmas.Local
/-!
# C78: points that link to the packets of a stream
-/
namespace Verif.Props
open Verif Verif.Pkt Verif.Spec Verif.Pred Verif.Multi Verif.Env Verif.Rd Verif.Cmd

section
variable {y : Sys} {o : IoOpts} {C : Crypto} {nh : Bytes} {c : Collect C} {ts : List Sent} {tag : Nat → Sent → Bytes} {chain : Option (Nat → Sent → Bytes)}
  {links : List (Nat → Sent → Link)} {init : List Link} {fwd wr : Sent → List Put} {w : World} {r : Reader} {rounds : List Round} {pend : List Sent}
  {b : List Link} {n : Nat} {s : Collector}

theorem inv_collected (hi : Inv y o nh c tag chain links init fwd wr w r rounds pend b n s) {unread : List Sent} (hts : ts = pktsOf rounds ++ pend ++ unread)
    {v : World} (ho : v.outs = s.world.outs) (hd : v.db = s.world.db) : Collected o nh c tag chain links init fwd wr r ts rounds pend unread b w v := by
  refine ⟨hts, hi.made, by rw [ho, hi.outs], ?_, ?_, ?_⟩
  · obtain ⟨L, h1, h2⟩ := hi.saves
    exact ⟨L, by rw [hd, h1], h2⟩
  · have := hi.reads []
    simpa [blocks] using this
  · exact hi.nonempty

/-- The links left at the end. -/
theorem end_run (h : CollectOk C o nh c ts tag chain links init fwd wr) (dbg : Bool)
    (hi : Inv y o nh c tag chain links init fwd wr w r rounds pend b (dbCount c.write + n) s) (hp : pend.length ≤ fullRound c) :
    (b = [] ∧ pend = [] ∧ collectEnd dbg y o nh c s = (s, .ok ())) ∨
    (∃ d p s', collectEnd dbg y o nh c s = (s', .ok ()) ∧
      Inv y o nh c tag chain links init fwd wr w r (rounds ++ [⟨pend, d, p⟩]) [] (linksAfter chain links rounds.length p) n s') ∨
    (∃ s' res, collectEnd dbg y o nh c s = (s', res) ∧ s'.world = s.world ∧ DataEnds c r rounds pend b res) := by
  unfold collectEnd
  by_cases hl : s.links = []
  · obtain ⟨h1, h2⟩ := links_nil hi hl
    exact .inl ⟨h1, h2, by rw [hl]; rfl⟩
  · rw [if_neg (by simpa using hl)]
    rcases collectOnce_inv h dbg hi hp (.inr hl) with ⟨d, p, s', e, hi'⟩ | ⟨s', h1, h2, h3⟩ | ⟨s', e, h1, h2, h3⟩
    · exact .inr (.inl ⟨d, p, s', by rw [e], hi'⟩)
    · exact .inr (.inr ⟨s', .ok (), by rw [h1], h2, h3⟩)
    · exact .inr (.inr ⟨s', .error e, by rw [h1], h2, h3⟩)

/-- The whole run over some events and the end of the input. -/
theorem run_end (h : CollectOk C o nh c ts tag chain links init fwd wr) (dbg : Bool) {Q : Nat → Nat → Prop} {evs : List CEvent} {x : Collector × PRes Bool} (hx : Ran y o nh c tag chain links init fwd wr w r ts Q (dbCount c.write + n) [] evs 0 x) :
    ∃ rounds pend unread b w' res,
      (Collector.close (match x with
        | (s, .error x) => (s, .error x)
        | (s, .ok false) => (s, .ok ())
        | (s, .ok true) => collectEnd dbg y o nh c s)) = (w', res) ∧
      Collected o nh c tag chain links init fwd wr r ts rounds pend unread b w w' ∧
      Finished Q c r rounds pend unread b res ∧ ∀ m, TickAt evs 0 m → m ≤ (pktsOf rounds).length → CutAt rounds m := by
  obtain ⟨rounds, pend, b, hE, -, hcut, hx⟩ := hx
  obtain ⟨s1, res1⟩ := x
  rcases hx with ⟨he, hts, hlt, hall, hi⟩ | ⟨res, s, unread, he, hts, hw, hle, hi, hh⟩
  · simp only at he hi
    subst he
    simp only
    rcases end_run h dbg hi (Nat.le_of_lt hlt) with ⟨hb, hp, e⟩ | ⟨d, p, s', e, hi'⟩ | ⟨s', res, e, hw, hd⟩
    · rw [e]
      exact ⟨rounds, pend, [], b, _, _, rfl, inv_collected hi (by simp [hts]) rfl rfl, .inr ⟨rfl, hp, rfl, .inl ⟨hE, hb⟩⟩, hcut⟩
    · rw [e]
      refine ⟨_, [], [], _, _, _, rfl, inv_collected hi' (by simp [hts, pktsOf]) rfl rfl, .inr ⟨rfl, rfl, rfl, .inr ⟨rounds, _, rfl, hE, hlt⟩⟩, ?_⟩
      intro m hm _
      exact cutAt_more (hcut m hm (hall m hm)) _
    · rw [e]
      refine ⟨rounds, pend, [], b, _, _, rfl, inv_collected hi (by simp [hts]) (by simp [hw]) (by simp [hw]), .inl ⟨hE, hd⟩, hcut⟩
  · simp only at he hw
    subst he
    refine ⟨rounds, pend, unread, b, { s1.world with buf := none }, res, ?_, inv_collected hi hts (by simp [hw]) (by simp [hw]), .inl ⟨hE, hh⟩, hcut⟩
    cases res <;> rfl

/-- **C78**: `collect` makes points whose links are exactly the packets read, each once and in order: every point starts with the links left by
the one before (to that point with `--chain-tag`, and those of the command line) and links to the packets of its round, with the tags asked for.  The rounds have
`--max-links` packets, only the last one less.  What is written is, round by round, the packets to `--forward`, the point to `--write`, and what was held
back in the buffer; the store gets what was saved.  Unless the data for the points ends, fails or is too long, no packet is left out. -/
theorem collect_cmd (dbg : Bool) {ss : List Sent} (ha : Admits C o ss) {i : PktIn} (hi : Feeds i (streamOf ss))
    (h : CollectOk C o nh c (ss.map (arrive (o.hop.getD false))) tag chain links init fwd wr)
    (hc : Clock y w (dbCount c.forward * ss.length + dbCount c.write * (ss.length + 1))) (r : Reader) :
    ∃ rounds pend unread b w' res, collectCmd C dbg y o nh c init r i w = (w', res) ∧
      Collected o nh c tag chain links init fwd wr r (ss.map (arrive (o.hop.getD false))) rounds pend unread b w w' ∧
      Finished (fun _ k => k = fullRound c) c r rounds pend unread b res := by
  unfold collectCmd
  rw [input_feeds dbg ha (stream_rest hi) (by simp)]
  simp only
  rw [← List.map_map]
  have hr := events_run h dbg (fun _ k => k = fullRound c) (fun _ => rfl)
    (((ss.map (arrive (o.hop.getD false))).map net).map CEvent.pkt) (ss.map (arrive (o.hop.getD false)))
    (arrivals_pkts _) (fun t ht => ht) (by
      rintro m ⟨es, fs, he, -⟩
      have : CEvent.tick true ∈ ((ss.map (arrive (o.hop.getD false))).map net).map CEvent.pkt := by rw [he]; simp
      simp at this) (by simp [fullRound]; omega) (by intro a x b he; simp at he)
    (inv_start (r := r) h (clock_less (m := dbCount c.forward * (ss.map (arrive (o.hop.getD false))).length +
      dbCount c.write * (((ss.map (arrive (o.hop.getD false))).map net).map CEvent.pkt).length + (dbCount c.write + 0)) hc (by simp; rw [Nat.mul_succ]; omega)))
  simp only [pktsOf, List.flatMap_nil, List.nil_append] at hr
  obtain ⟨rounds, pend, unread, b, w', res, e, hcol, hend, -⟩ := run_end h dbg hr
  refine ⟨rounds, pend, unread, b, w', res, ?_, hcol, hend⟩
  rw [← e]
  congr 1

/-- **C78**: the same with `--min-interval`, whenever the intervals end: when one is over, a point is made of the packets that arrived, and otherwise only when
there are `--max-links` or no more. -/
theorem collect_timed (dbg : Bool) {ss : List Sent} (ha : Admits C o ss) {i : PktIn} (hi : Feeds i (streamOf ss)) (ticks : Nat → List Bool)
    (h : CollectOk C o nh c (ss.map (arrive (o.hop.getD false))) tag chain links init fwd wr)
    (hc : Clock y w (dbCount c.forward * ss.length + dbCount c.write * ((weave ticks 0 ((ss.map (arrive (o.hop.getD false))).map net)).length + 1))) (r : Reader) :
    ∃ rounds pend unread b w' res, collectTimed C dbg y o nh c init r ticks i w = (w', res) ∧
      Collected o nh c tag chain links init fwd wr r (ss.map (arrive (o.hop.getD false))) rounds pend unread b w w' ∧
      Finished (fun m k => k = fullRound c ∨ k < fullRound c ∧ ticks m ≠ []) c r rounds pend unread b res ∧
      ∀ m, ticks m ≠ [] → m ≤ (pktsOf rounds).length → CutAt rounds m := by
  unfold collectTimed
  rw [input_feeds dbg ha (stream_rest hi) (by simp)]
  simp only
  rw [← List.map_map, if_neg nofun]
  have hr := events_run h dbg (fun m k => k = fullRound c ∨ k < fullRound c ∧ ticks m ≠ []) (fun _ => .inl rfl)
    (weave ticks 0 ((ss.map (arrive (o.hop.getD false))).map net)) (ss.map (arrive (o.hop.getD false)))
    (arrivals_weave _ _ _) (fun t ht => ht) (by
      intro m hm k hk
      obtain ⟨x, hx, -⟩ := weave_tick ticks _ 0 m hm
      exact .inr ⟨hk, fun h0 => by rw [h0] at hx; cases hx⟩) (by simp [fullRound]; omega) (by intro a x b he; simp at he)
    (inv_start (r := r) h (clock_less (m := dbCount c.forward * (ss.map (arrive (o.hop.getD false))).length +
      dbCount c.write * (weave ticks 0 ((ss.map (arrive (o.hop.getD false))).map net)).length + (dbCount c.write + 0)) hc (by simp; rw [Nat.mul_succ]; omega)))
  simp only [pktsOf, List.flatMap_nil, List.nil_append] at hr
  obtain ⟨rounds, pend, unread, b, w', res, e, hcol, hend, hcut⟩ := run_end h dbg hr
  refine ⟨rounds, pend, unread, b, w', res, ?_, hcol, hend, ?_⟩
  · rw [← e]
    congr 1
  · intro m hm hle
    by_cases h0 : m = 0
    · exact ⟨[], rounds, rfl, by simp [h0, pktsOf]⟩
    · obtain ⟨x, hx⟩ := List.exists_mem_of_ne_nil _ hm
      refine hcut m (tick_weave ticks _ 0 m (Nat.zero_le _) ?_ hx ?_) hle
      · have := congrArg List.length hcol.packets
        simp only [List.length_append, List.length_map] at this
        simp; omega
      · simp [show 0 < m by omega]

/-! ### an input that is not good to its end -/

/-- **C78**: a packet that is not admitted or is cut off ends `collect` with an error: the packets since the last full round were passed on, but no point
links to them. -/
theorem collect_cmd_spoiled (dbg : Bool) {ss : List Sent} (ha : Admits C o ss) {i : PktIn} {rest : Bytes} (hi : Feeds i (streamOf ss ++ rest)) (hr : Spoils C o rest)
    (h : CollectOk C o nh c (ss.map (arrive (o.hop.getD false))) tag chain links init fwd wr)
    (hc : Clock y w (dbCount c.forward * ss.length + dbCount c.write * ss.length)) (r : Reader) :
    ∃ rounds pend unread b w' res, collectCmd C dbg y o nh c init r i w = (w', res) ∧
      Collected o nh c tag chain links init fwd wr r (ss.map (arrive (o.hop.getD false))) rounds pend unread b w w' ∧
      EachEnds (fun _ k => k = fullRound c) rounds ∧
      (DataEnds c r rounds pend b res ∨ res = .error (.err ()) ∧ pend.length < fullRound c ∧ unread = []) := by
  unfold collectCmd
  obtain ⟨e, he, hin⟩ := input_spoiled dbg ha hi hr
  rw [hin]
  simp only
  rw [← List.map_map]
  have hr := events_run h dbg (fun _ k => k = fullRound c) (fun _ => rfl)
    (((ss.map (arrive (o.hop.getD false))).map net).map CEvent.pkt) (ss.map (arrive (o.hop.getD false)))
    (arrivals_pkts _) (fun t ht => ht) (by
      rintro m ⟨es, fs, he, -⟩
      have : CEvent.tick true ∈ ((ss.map (arrive (o.hop.getD false))).map net).map CEvent.pkt := by rw [he]; simp
      simp at this) (by simp [fullRound]; omega) (by intro a x b he; simp at he)
    (inv_start (r := r) h (clock_less (m := dbCount c.forward * (ss.map (arrive (o.hop.getD false))).length +
      dbCount c.write * (((ss.map (arrive (o.hop.getD false))).map net).map CEvent.pkt).length + 0) hc (by simp)))
  simp only [pktsOf, List.flatMap_nil, List.nil_append] at hr
  generalize collectEvents dbg y o nh c _ _ = x at hr
  obtain ⟨rounds, pend, b, hE, -, -, hx⟩ := hr
  obtain ⟨s1, res1⟩ := x
  rcases hx with ⟨h1, hts, hlt, -, hi⟩ | ⟨res, s, unread, h1, hts, hw, hle, hi, hh⟩
  · simp only at h1 hi
    subst h1
    refine ⟨rounds, pend, [], b, { s1.world with buf := none }, .error (.err ()), ?_, inv_collected hi (by simp [hts]) rfl rfl, hE, .inr ⟨rfl, hlt, rfl⟩⟩
    rcases e with e | _
    · cases e with
      | panic => exact absurd rfl he
      | err _ => rfl
    all_goals rfl
  · simp only at h1 hw
    subst h1
    refine ⟨rounds, pend, unread, b, { s1.world with buf := none }, res, ?_, inv_collected hi hts (by simp [hw]) (by simp [hw]), hE, .inl hh⟩
    cases res <;> rfl

/-- **C78 fails**: with `--min-interval` such a packet ends the input without an error. -/
theorem timed_ignores_errors (dbg : Bool) {ss : List Sent} (ha : Admits C o ss) {i i' : PktIn} {rest : Bytes} (hi : Feeds i (streamOf ss))
    (hi' : Feeds i' (streamOf ss ++ rest)) (hr : Spoils C o rest) (ticks : Nat → List Bool) (r : Reader) (w : World) :
    collectTimed C dbg y o nh c init r ticks i' w = collectTimed C dbg y o nh c init r ticks i w := by
  obtain ⟨e, he, hin⟩ := input_spoiled dbg ha hi' hr
  unfold collectTimed
  rw [hin, input_feeds dbg ha (stream_rest hi) (by simp)]
  simp only
  rw [if_neg fun hx => he (Option.some.inj hx), if_neg nofun]

/-! ### what the points link to -/

theorem isPoint_content {C : Crypto} {nh : Bytes} {lc : LinkContent} {key : Option C.Key} {s : Sent} (h : IsPoint C nh lc key s.parts) :
    linksIn s.c = lc.links ∧ s.c.group? = some lc.group := by
  obtain ⟨ct, hv, hs, e, h1, h2⟩ := h
  have hc : s.c = ct := parts_injective (congrArg NetParts.parts e)
  rw [hc]
  cases key with
  | none => obtain rfl := h1 rfl; exact ⟨rfl, rfl⟩
  | some k =>
    obtain ⟨sig, rfl⟩ := h2 k rfl
    exact ⟨rfl, rfl⟩

/-- **C78**: the links of the point of a round: those left by the points before, and one to each packet of the round in order. -/
theorem made_links {p : PointCmd C} (hm : Made nh p tag chain links init rounds b) {xs ys : List Round} {x : Round} (he : rounds = xs ++ x :: ys) :
    ∃ l, Made nh p tag chain links init xs l ∧ linksIn x.point.c = l ++ taken tag (pktsOf xs).length x.pkts := by
  induction hm generalizing ys with
  | nil => simp at he
  | snoc hm hp ih =>
    rename_i zs z l
    rcases List.eq_nil_or_concat ys with rfl | ⟨ys, q, rfl⟩
    · obtain ⟨rfl, e⟩ := List.append_inj' he rfl
      obtain rfl : z = x := by simpa using e
      exact ⟨l, hm, (isPoint_content hp).1⟩
    · have he' : zs ++ [z] = (xs ++ x :: ys) ++ [q] := by simpa using he
      exact ih (List.append_inj' he' rfl).1

theorem taken_ptrs (n : Nat) (ss : List Sent) : (taken tag n ss).map (·.ptr) = ss.map (·.hash) := by
  induction ss generalizing n with
  | nil => rfl
  | cons s ss ih => simp [taken, ih]

/-- **C78**: without other links the links of all points together are the packets collected, each once and in order. -/
theorem made_pointers {p : PointCmd C} (hm : Made nh p tag none [] [] rounds b) :
    rounds.flatMap (fun x => (linksIn x.point.c).map (·.ptr)) = (pktsOf rounds).map (·.hash) := by
  have hb : b = [] := by
    cases hm with
    | nil => rfl
    | snoc _ _ => rfl
  clear hb
  induction hm with
  | nil => rfl
  | snoc hm hp ih =>
    rename_i zs z l
    have hl : l = [] := by
      cases hm with
      | nil => rfl
      | snoc _ _ => rfl
    subst hl
    simp only [List.flatMap_append, pktsOf, List.map_append, List.flatMap_cons, List.flatMap_nil, List.append_nil] at ih ⊢
    rw [ih, (isPoint_content hp).1]
    simp only [List.nil_append, taken_ptrs]

/-- **C78**: with `--chain-tag` every point links to the one before it, first of all. -/
theorem made_chain {p : PointCmd C} {t : Nat → Sent → Bytes} (hm : Made nh p tag (some t) links init rounds b) {xs ys : List Round} {x z : Round}
    (he : rounds = xs ++ x :: z :: ys) : ∃ l, linksIn z.point.c = ⟨t xs.length x.point, x.point.hash⟩ :: l := by
  obtain ⟨l, h1, h2⟩ := made_links hm (xs := xs ++ [x]) (x := z) (ys := ys) (by simp [he])
  generalize hq : xs ++ [x] = q at h1 h2
  cases h1 with
  | nil => simp at hq
  | snoc _ _ =>
    obtain ⟨rfl, e⟩ := List.append_inj' hq rfl
    obtain rfl : x = _ := by simpa using e
    exact ⟨_, h2⟩

/-! ### no end of data -/

theorem eachFull_length {n : Nat} (hm : EachEnds (fun _ k => k = n) rounds) : (pktsOf rounds).length = n * rounds.length := by
  have : ∀ x ∈ rounds, x.pkts.length = n := by
    intro x hx
    obtain ⟨a, z, e⟩ := List.append_of_mem hx
    exact hm a x z e
  clear hm
  induction rounds with
  | nil => rfl
  | cons x xs ih =>
    have h1 := this x (by simp)
    have h2 := ih (fun z hz => this z (by simp [hz]))
    simp only [pktsOf, List.flatMap_cons, List.length_append, List.length_cons] at h2 ⊢
    rw [h2, h1, Nat.mul_succ]
    omega

/-- **C78**: without data for the points, as is the default, `collect` always ends well, with all packets in points. -/
theorem collect_complete {ts : List Sent} {unread : List Sent} {w' : World} {res : PRes Unit} {k : Nat} (hk : ts.length + 2 ≤ k)
    (h : Collected o nh c tag chain links init fwd wr { input := none, calls := k } ts rounds pend unread b w w')
    (hf : Finished (fun _ k => k = fullRound c) c { input := none, calls := k } rounds pend unread b res) : res = .ok () ∧ pktsOf rounds = ts := by
  rcases hf with ⟨hE, hd⟩ | ⟨h1, h2, h3, -⟩
  · exfalso
    have hlen := eachFull_length hE
    have hp := congrArg List.length h.packets
    simp only [List.length_append] at hp
    have hfull : 1 ≤ fullRound c := by unfold fullRound; omega
    have hle : rounds.length ≤ fullRound c * rounds.length := Nat.le_mul_of_pos_left _ hfull
    have hb := no_data_never_ends c.ev (wants c.point rounds ++ [askedFor c.point (b.length + pend.length)]) k (by simp [wants]; omega)
    unfold DataEnds at hd
    cases hd with
    | ended ds e => rw [hb] at e; simp at e
    | failed ds e hx => rw [hb] at hx; simp at hx
    | long ds d e hx =>
      rw [hb] at e
      have he := (Prod.mk.inj e).1
      rw [List.map_append] at he
      have := (List.append_inj' he rfl).2
      obtain rfl : [] = d := by simpa using this
      simp at hx
  · refine ⟨h1, ?_⟩
    rw [h.packets, h2, h3]
    simp

/-- **C78 fails**: with `--chain-tag` or links of the command line, packets that fill the rounds exactly make one more point at the end that links to none of them. -/
theorem chain_extra_point {w' : World} {n : Nat} {unread : List Sent} {res : PRes Unit} {r : Reader} (hn : (pktsOf rounds).length = fullRound c * n) (h0 : rounds ≠ [])
    (hcar : carried chain links ≠ 0) (h : Collected o nh c tag chain links init fwd wr r ts rounds pend unread b w w') (hd : ¬ DataEnds c r rounds pend b res)
    (hf : Finished (fun _ k => k = fullRound c) c r rounds pend unread b res) :
    ∃ xs x, rounds = xs ++ [x] ∧ xs.length = n ∧ x.pkts = [] ∧ pktsOf xs = ts := by
  rcases hf with ⟨-, hx⟩ | ⟨-, hpe, hun, ⟨-, hb⟩ | ⟨xs, x, rfl, hE, hlt⟩⟩
  · exact absurd hx hd
  · exfalso
    have hm := h.made
    cases hm with
    | nil => exact h0 rfl
    | snoc _ _ =>
      have := congrArg List.length hb
      rw [linksAfter_length] at this
      exact hcar this
  · have hl := eachFull_length hE
    have hp : (pktsOf (xs ++ [x])).length = (pktsOf xs).length + x.pkts.length := by simp [pktsOf]
    rw [hn, hl] at hp
    have h1 : xs.length ≤ n := by
      have h0 : fullRound c * xs.length ≤ fullRound c * n := by omega
      exact Nat.le_of_mul_le_mul_left h0 (by unfold fullRound; omega)
    have h2 : n < xs.length + 1 := by
      refine Nat.lt_of_mul_lt_mul_left (a := fullRound c) ?_
      rw [Nat.mul_succ]
      omega
    have h3 : n = xs.length := by omega
    subst h3
    have hx : x.pkts = [] := List.length_eq_zero_iff.1 (by omega)
    refine ⟨xs, x, rfl, rfl, hx, ?_⟩
    rw [h.packets, hpe, hun]
    simp [pktsOf, hx]

/-! ### what is written -/

theorem done_file (f : Bytes) (ss : List Sent) : linesOf (doneWith o (fun s => [.file f s.bytes]) ss) = (ss.filter (goesOut o)).map (fun s => (f, s.bytes)) ∧
    heldOf (doneWith o (fun s => [.file f s.bytes]) ss) = [] ∧ savedOf (doneWith o (fun s => [.file f s.bytes]) ss) = [] := by
  unfold doneWith linesOf heldOf savedOf
  generalize ss.filter (goesOut o) = l
  induction l with
  | nil => exact ⟨rfl, rfl, rfl⟩
  | cons s l ih =>
    obtain ⟨h1, h2, h3⟩ := ih
    refine ⟨?_, ?_, ?_⟩
    · simp only [List.flatMap_cons, List.filterMap_append, h1]; rfl
    · simp only [List.flatMap_cons, List.flatMap_append, h2]; rfl
    · simp only [List.flatMap_cons, List.filter_append, List.map_append, h3]; rfl
theorem done_hold (ss : List Sent) : linesOf (doneWith o (fun s => [.hold s.bytes]) ss) = [] ∧
    heldOf (doneWith o (fun s => [.hold s.bytes]) ss) = streamOf (ss.filter (goesOut o)) ∧ savedOf (doneWith o (fun s => [.hold s.bytes]) ss) = [] := by
  unfold doneWith linesOf heldOf savedOf streamOf
  generalize ss.filter (goesOut o) = l
  induction l with
  | nil => exact ⟨rfl, rfl, rfl⟩
  | cons s l ih =>
    obtain ⟨h1, h2, h3⟩ := ih
    refine ⟨?_, ?_, ?_⟩
    · simp only [List.flatMap_cons, List.filterMap_append, h1]; rfl
    · simp only [List.flatMap_cons, List.flatMap_append, h2]; simp [Put.held]
    · simp only [List.flatMap_cons, List.filter_append, List.map_append, h3]; rfl
theorem done_save (ss : List Sent) : linesOf (doneWith o (fun _ => [.save]) ss) = [] ∧
    heldOf (doneWith o (fun _ => [.save]) ss) = [] ∧ savedOf (doneWith o (fun _ => [.save]) ss) = ss.filter (goesOut o) := by
  unfold doneWith linesOf heldOf savedOf
  generalize ss.filter (goesOut o) = l
  induction l with
  | nil => exact ⟨rfl, rfl, rfl⟩
  | cons s l ih =>
    obtain ⟨h1, h2, h3⟩ := ih
    refine ⟨?_, ?_, ?_⟩
    · simp only [List.flatMap_cons, List.filterMap_append, h1]; rfl
    · simp only [List.flatMap_cons, List.flatMap_append, h2]; rfl
    · simp only [List.flatMap_cons, List.filter_append, List.map_append, h3]; simp [Put.isSave]
theorem done_none (ss : List Sent) : doneWith o (fun _ => []) ss = [] := by simp [doneWith]

theorem filter_file_map (f : Bytes) (l : List Sent) : ((l.map fun s => (f, s.bytes)).filter fun e => e.1 == f).flatMap (·.2) = streamOf l := by
  induction l with
  | nil => rfl
  | cons s l ih => simp [streamOf] at ih ⊢; exact ih

/-- **C78**: by default the packets and after each round its point go to standard output, but for private ones that may not. -/
theorem collect_stdout {unread : List Sent} {w' : World}
    (h : Collected o nh c tag chain links init (fun s => [.file stdout s.bytes]) (fun s => [.file stdout s.bytes]) r ts rounds [] unread b w w') :
    w'.file stdout = w.file stdout ++ streamOf ((rounds.flatMap fun x => x.pkts ++ [x.point]).filter (goesOut o)) := by
  unfold World.file
  rw [h.outs, List.filter_append, List.filter_append, List.flatMap_append, List.flatMap_append]
  rw [show doneWith o (fun s => [Put.file stdout s.bytes]) [] = [] from rfl]
  simp only [linesOf, List.filterMap_nil, List.filter_nil, List.flatMap_nil, List.append_nil]
  congr 1
  clear h
  induction rounds with
  | nil => rfl
  | cons x xs ih =>
    rw [List.flatMap_cons, List.filter_append, List.flatMap_append, ih, List.flatMap_cons, List.filter_append (l₁ := x.pkts ++ [x.point]), streamOf_append]
    congr 1
    unfold Round.lines Round.done
    rw [heldOf_append, linesOf_append, (done_file stdout x.pkts).1, (done_file stdout x.pkts).2.1, (done_file stdout [x.point]).1, (done_file stdout [x.point]).2.1,
      ← List.map_append, ← List.filter_append]
    simp only [List.append_nil, if_true]
    exact filter_file_map _ _

/-- **C78**: with `--forward buffer` the packets of a round come after its point. -/
theorem collect_buffer {unread : List Sent} {w' : World}
    (h : Collected o nh c tag chain links init (fun s => [.hold s.bytes]) (fun s => [.file stdout s.bytes]) r ts rounds pend unread b w w') :
    w'.file stdout = w.file stdout ++ streamOf ((rounds.flatMap fun x => x.point :: x.pkts).filter (goesOut o)) := by
  unfold World.file
  rw [h.outs, List.filter_append, List.filter_append, List.flatMap_append, List.flatMap_append, (done_hold pend).1]
  simp only [List.filter_nil, List.flatMap_nil, List.append_nil]
  congr 1
  clear h
  induction rounds with
  | nil => rfl
  | cons x xs ih =>
    rw [List.flatMap_cons, List.filter_append, List.flatMap_append, ih, List.flatMap_cons, List.filter_append (l₁ := x.point :: x.pkts), streamOf_append]
    congr 1
    unfold Round.lines Round.done
    rw [heldOf_append, linesOf_append, (done_hold x.pkts).1, (done_hold x.pkts).2.1, (done_file stdout [x.point]).1, (done_file stdout [x.point]).2.1,
      List.filter_append, List.flatMap_append]
    simp only [List.append_nil, List.nil_append]
    rw [filter_file_map, show x.point :: x.pkts = [x.point] ++ x.pkts from rfl, List.filter_append, streamOf_append]
    congr 1
    by_cases he : streamOf (x.pkts.filter (goesOut o)) = []
    · rw [if_pos he, he]; rfl
    · rw [if_neg he]; simp

/-- **C78**: with `--forward null --write db` nothing is written, and the log gets the new points in order. -/
theorem collect_save {unread : List Sent} {w' : World}
    (h : Collected o nh c tag chain links init (fun _ => []) (fun _ => [.save]) r ts rounds pend unread b w w') :
    w'.outs = w.outs ∧ Saves w w' ((rounds.map (·.point)).filter (goesOut o)) := by
  have key : rounds.flatMap (Round.lines o (fun _ => []) fun _ => [.save]) = [] ∧
      rounds.flatMap (fun x => savedOf (x.done o (fun _ => []) fun _ => [.save])) = (rounds.map (·.point)).filter (goesOut o) := by
    clear h
    induction rounds with
    | nil => exact ⟨rfl, rfl⟩
    | cons x xs ih =>
      rw [List.flatMap_cons, List.flatMap_cons, ih.1, ih.2]
      simp only [Round.lines, Round.done, done_none, List.nil_append, (done_save [x.point]).1, (done_save [x.point]).2.1, (done_save [x.point]).2.2]
      refine ⟨rfl, ?_⟩
      rw [← List.filter_append]
      rfl
  refine ⟨?_, ?_⟩
  · rw [h.outs, key.1, done_none]
    simp [linesOf]
  · have := h.saved
    rw [key.2, done_none] at this
    simpa [savedOf] using this

/-- **C78 fails**: points in the private group are made, and counted as written, but go nowhere unless private points may be written. -/
theorem private_points_dropped {p : PointCmd C} (hg : p.group = zeroGroup) (ho : ¬ LetsOut o) (hm : Made nh p tag chain links init rounds b) (wr : Sent → List Put) :
    doneWith o wr (rounds.map (·.point)) = [] := by
  have : ∀ x ∈ rounds, goesOut o x.point = false := by
    induction hm with
    | nil => intro x hx; cases hx
    | snoc hm hp ih =>
      intro x hx
      rcases List.mem_append.1 hx with hx | hx
      · exact ih x hx
      · obtain rfl : x = _ := by simpa using hx
        have hs : x.point.Secret := by
          unfold Sent.Secret
          rw [(isPoint_content hp).2]
          exact congrArg some hg
        cases hgo : goesOut o x.point with
        | false => rfl
        | true => exact absurd (goesOut_iff.1 hgo hs) ho
  unfold doneWith
  have hf : (rounds.map (·.point)).filter (goesOut o) = [] := by
    rw [List.filter_eq_nil_iff]
    intro s hs
    obtain ⟨x, hx, rfl⟩ := List.mem_map.1 hs
    rw [this x hx]
    simp
  rw [hf]
  rfl

/-- **C78**: the default of `--max-links` leaves room for thirteen other links, with any space and signed or not. -/
theorem default_room {p : PointCmd C} {cs : List Bytes} (h : CmdSized p cs) {m : Nat} (hm : m ≤ 13) : Room p (m + defaultMaxLinks) := by
  have h1 : p.rspace.length ≤ 250 := by
    rw [h.rspace, rootedOf_len]
    have := h.space.size
    split <;> omega
  unfold Room
  have h2 : defaultMaxLinks = 1333 := by decide
  rw [h2]
  split <;> omega

end

/-! ### witnesses -/

/-- Two links for a point, and a chain of points. -/
def witCollect (key : Option UInt8) : Collect toyCrypto :=
  { point := { exPointCmd key with links := [], multi := false, tag := none }, ev := .ok, collectTag := fun _ _ => .ok (List.replicate 16 7),
    chainTag := some fun _ _ => .ok (List.replicate 16 8), maxLinks := 2 }

/-- Witness for `collect_cmd`, `collect_timed` and `collect_cmd_spoiled`. -/
theorem wit_collect (key : Option UInt8) : CollectOk toyCrypto {} (List.replicate 32 0) (witCollect key) [witData 1, witPoint, witData 2] (fun _ _ => List.replicate 16 7)
    (some fun _ _ => List.replicate 16 8) [] [] (fun s => [.file stdout s.bytes]) fun s => [.file stdout s.bytes] := by
  refine ⟨toyCrypto_laws, rfl, ⟨[], rfl, rfl, fun i => ?_, (fun _ h => nomatch h), (fun _ h => nomatch h), Space.isSpace_nil, by decide, rfl⟩, ?_,
    (fun _ h => nomatch h), ?_, fun s _ => .file _ (.nil s), fun s => .file _ (.nil s), (fun _ _ _ h => nomatch h.2), fun h _ => absurd h ?_⟩
  · show 1000 + i % 1000 < 2 ^ 64
    omega
  · exact ⟨fun _ _ _ => rfl, fun _ _ => rfl, fun _ _ => ⟨rfl, rfl⟩, rfl, fun _ _ _ h => by simp [witCollect] at h⟩
  · cases key
    · exact (by decide : 64 + 48 * 3 + 0 + 0 ≤ 65024)
    · exact (by decide : 64 + 48 * 3 + 0 + 96 ≤ 65024)
  · show List.replicate 32 1 ≠ zeroGroup
    decide

/-- Three packets: two points, the second of which links to the first and to the last packet. -/
example : ((collectCmd toyCrypto true { now := fun _ => 0 } {} (List.replicate 32 0) (witCollect none) [] { input := none }
      { chunks := [streamOf [witData 1, witPoint, witData 2]] } {}).1.outs.map fun e => (e.1 == stdout, e.2.length)) =
    [(true, 72), (true, 136), (true, 224), (true, 72), (true, 224)] := by decide +kernel

/-- Two packets fill a round, and yet there are two points. -/
example : (collectCmd toyCrypto true { now := fun _ => 0 } {} (List.replicate 32 0) (witCollect none) [] { input := none }
      { chunks := [streamOf [witData 1, witData 2]] } {}).1.outs.length = 4 := by decide +kernel

/-- **C78 fails**: when the data for the points ends, the rest of the packets is not read, the ones read since the last point are in none, and yet the command
ends well. -/
theorem data_ends_loses : (collectCmd toyCrypto true { now := fun _ => 0 } {} (List.replicate 32 0) (witCollect none) [] { input := some ⟨ascii "ab", ascii "ab"⟩ }
      { chunks := [streamOf [witData 1, witData 2, witData 3, witData 4, witData 5]] } {}).2 = .ok () ∧
    (collectCmd toyCrypto true { now := fun _ => 0 } {} (List.replicate 32 0) (witCollect none) [] { input := some ⟨ascii "ab", ascii "ab"⟩ }
      { chunks := [streamOf [witData 1, witData 2, witData 3, witData 4, witData 5]] } {}).1.outs.length = 5 := by
  constructor <;> decide +kernel

/-- The end of an interval makes a point of what has arrived. -/
example : (collectTimed toyCrypto true { now := fun _ => 0 } {} (List.replicate 32 0) (witCollect none) [] { input := none } (fun n => if n = 1 then [false] else [])
      { chunks := [streamOf [witData 1, witData 2]] } {}).1.outs.map (·.2.length) = [72, 176, 72, 224] := by decide +kernel

end Verif.Props
