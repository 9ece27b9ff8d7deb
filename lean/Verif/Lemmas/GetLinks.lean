import Verif.Spec.GetLinks
import Verif.Lemmas.Collect
import Verif.Props.Push
/-!
# Lemmas about `get-links`
-/
namespace Verif.Rt
open Verif Verif.Pkt Verif.Pred Verif.Env Verif.Query Verif.Matcher Verif.Opt Verif.QText Verif.Spec Verif.Props

section
variable {m : LinkMode} {clock : Nat → Nat}

theorem given_append (a b : List Ev) : givenIn (a ++ b) = givenIn a ++ givenIn b := by simp [givenIn]
theorem given_gone (n : Nat) (w : Why) : givenIn [.gone n w] = [] := rfl
theorem given_born (n : Nat) (id : Bytes) (mode : Mode) (s : Preds) (d : Db) : givenIn [.born n id mode s d] = [] := rfl
theorem given_broke (n : Nat) : givenIn [.broke n] = [] := rfl
theorem given_call (n : Nat) (e : Nat × NetParts) : givenIn [.call n e] = [e] := rfl

/-- After requests that gave these packets to callbacks. -/
structure Onto (rt rt' : RT Nat) (out : List (Nat × NetParts)) : Prop where
  snap : rt'.snap = rt.snap
  locked : rt.locked = false → rt'.locked = false
  given : givenIn rt'.trace = givenIn rt.trace ++ out

theorem Onto.refl (rt : RT Nat) : Onto rt rt [] := ⟨rfl, id, by simp⟩
theorem Onto.trans {a b c : RT Nat} {x y : List (Nat × NetParts)} (h : Onto a b x) (h' : Onto b c y) : Onto a c (x ++ y) :=
  ⟨h'.snap.trans h.snap, fun hl => h'.locked (h.locked hl), by rw [h'.given, h.given, List.append_assoc]⟩
theorem Onto.noted {a b : RT Nat} {x : List (Nat × NetParts)} (h : Onto a b x) {e : Ev} (he : givenIn [e] = []) : Onto a (b.note e) x :=
  ⟨h.snap, h.locked, by show givenIn (b.trace ++ [e]) = _; rw [given_append, he, List.append_nil, h.given]⟩

theorem stopped_run (n : Nat) (rt : RT Nat) (c : Nat) (r : Reason) : run (linkProg m clock) (n + 1) rt ((linkProg m clock).stopped c r) = .ok (rt, c, false) := rfl

theorem dropWatch_link (n : Nat) (rt : RT Nat) (w : Watch (Nat × Nat)) (why : Why) (r : Reason) :
    dropWatch (linkProg m clock) (run (linkProg m clock) (n + 1)) rt w why r = .ok (rt.note (.gone w.ctx.1 why)) := by
  unfold dropWatch
  rw [stopped_run]

theorem dropWatches_link (n : Nat) (why : Why) (r : Reason) (ws : List (Watch (Nat × Nat))) (rt : RT Nat) :
    ∃ rt', dropWatches (linkProg m clock) (run (linkProg m clock) (n + 1)) why r rt ws = .ok rt' ∧ Onto rt rt' [] ∧ rt'.locked = rt.locked := by
  induction ws generalizing rt with
  | nil => exact ⟨rt, rfl, .refl rt, rfl⟩
  | cons w ws ih =>
    unfold dropWatches
    rw [dropWatch_link]
    obtain ⟨rt', h1, h2, h3⟩ := ih (rt.note (.gone w.ctx.1 why))
    exact ⟨rt', h1, ((Onto.refl rt).noted (given_gone _ _)).trans h2, h3⟩

theorem close_link (n : Nat) {rt : RT Nat} (hl : rt.locked = false) (id : Bytes) :
    ∃ rt', close (linkProg m clock) (run (linkProg m clock) (n + 1)) rt id false = .ok rt' ∧ Onto rt rt' [] := by
  unfold close lockFor deregisterNow
  rw [hl, if_neg (by simp)]
  obtain ⟨rt', h1, h2, h3⟩ := dropWatches_link (m := m) (clock := clock) n (.closed id false) .closed (deregister rt.watches id false).2
    { rt with locked := true, watches := (deregister rt.watches id false).1 }
  simp only [h1]
  exact ⟨_, rfl, ⟨h2.snap, fun _ => rfl, h2.given⟩⟩

theorem insert_link (n : Nat) {rt : RT Nat} (hl : rt.locked = false) (w : Watch (Nat × Nat)) :
    ∃ rt', insertWatch (linkProg m clock) (run (linkProg m clock) (n + 1)) rt w = .ok rt' ∧ Onto rt rt' [] := by
  unfold insertWatch lockFor registerNow
  rw [hl, if_neg (by simp)]
  simp only
  split
  · rename_i h
    split at h
    · cases h
    · rename_i o hr
      rw [dropWatch_link] at h
      cases h
  · rename_i rt' h
    refine ⟨_, rfl, ?_⟩
    have key : rt'.snap = rt.snap ∧ givenIn rt'.trace = givenIn rt.trace := by
      split at h
      · cases h
        by_cases hx : w.recv.high.toNat > (linkProg m clock).clock rt.ticks
        · rw [if_pos hx]; exact ⟨rfl, rfl⟩
        · rw [if_neg hx]
          exact ⟨rfl, by show givenIn (rt.trace ++ _) = _; rw [given_append, given_gone, List.append_nil]⟩
      · rw [dropWatch_link] at h
        cases h
        by_cases hx : w.recv.high.toNat > (linkProg m clock).clock rt.ticks
        · rw [if_pos hx]
          exact ⟨rfl, by show givenIn (rt.trace ++ _) = _; rw [given_append, given_gone, List.append_nil]⟩
        · rw [if_neg hx]
          exact ⟨rfl, by show givenIn ((rt.trace ++ _) ++ _) = _; rw [given_append, given_append, given_gone, given_gone, List.append_nil, List.append_nil]⟩
    exact ⟨key.1, fun _ => rfl, by rw [List.append_nil]; exact key.2⟩

/-! ### the query for a link -/

theorem link_checkDb (h : Bytes) : checkDb (QText.Query.hashEq h).preds = .ok true := by
  have h1 : (QText.Query.hashEq h).preds.state .branch = TestSet.default 32 := rfl
  have h2 : (QText.Query.hashEq h).preds.state .index = TestSet.default 32 := rfl
  unfold checkDb
  rw [h1, h2]
  decide +kernel

theorem link_new (h id : Bytes) (c : Nat × Nat) :
    Watch.new id (QText.Query.hashEq h).preds 1#32 c = .error (.err ()) ∧ ∃ w, Watch.new id (QText.Query.hashEq h).preds 0#32 c = .ok w := by
  have h1 : (QText.Query.hashEq h).preds.state .new = TestSet.default 32 := rfl
  have h2 : (QText.Query.hashEq h).preds.state .query = (TestSet.default 32).add .equal 0#32 := rfl
  have a : pending (TestSet.default 32) 0#32 = .ok true := by decide +kernel
  have b : pending ((TestSet.default 32).add .equal 0#32) 1#32 = .ok false := by decide +kernel
  have c' : pending ((TestSet.default 32).add .equal 0#32) 0#32 = .ok true := by decide +kernel
  unfold Watch.new Watch.updateTests
  simp only [h1, h2, a, b, c']
  exact ⟨trivial, _, rfl⟩

/-- A watch for a link that the snapshot does not have is registered. -/
theorem watch_missing (n : Nat) {rt : RT Nat} (hl : rt.locked = false) (hc : Spec.Consistent rt.snap) (hw : AllShow rt.snap) {l : Link} (hp : l.ptr.length = 32)
    (hr : rt.snap.read l.ptr = none) (i level : Nat) :
    ∃ rt', watch (linkProg m clock) (run (linkProg m clock) (n + 1)) rt (linkQid i l) ⟨.hash, true⟩ (linkQuery i l).preds level = .ok (rt', false, false) ∧ Onto rt rt' [] := by
  unfold watch
  rw [show (linkQuery i l).preds = (QText.Query.hashEq l.ptr).preds from rfl, link_checkDb]
  obtain ⟨rt0, h1, h2⟩ := close_link (m := m) (clock := clock) n hl (linkQid i l)
  have hq := hash_eq_query (db := rt0.snap) (by rw [h2.snap]; exact hc) (by rw [h2.snap]; exact hw) hp
  rw [h2.snap, hr] at hq
  simp only [h1, dbPart, if_true, h2.snap, hq, Option.toList_none, dbCalls, Option.isSome_none, Bool.false_eq_true, if_false]
  obtain ⟨w, hn⟩ := (link_new l.ptr (linkQid i l) (rt0.next, level)).2
  simp only [hn]
  have h3 : Onto rt ({ rt0 with next := rt0.next + 1, snap := rt.snap }.note (.born rt0.next (linkQid i l) ⟨.hash, true⟩ (QText.Query.hashEq l.ptr).preds rt.snap)) [] :=
    Onto.noted (a := rt) (b := { rt0 with next := rt0.next + 1, snap := rt.snap }) ⟨rfl, h2.locked, h2.given⟩ (given_born _ _ _ _ _)
  obtain ⟨rt1, h4, h5⟩ := insert_link (m := m) (clock := clock) n (h3.locked hl) w
  simp only [h4]
  exact ⟨rt1, by simp, h3.trans h5⟩

/-- A watch for a link that the snapshot has gives the packet to the callback, and is over. -/
theorem watch_found (n : Nat) {rt : RT Nat} (hl : rt.locked = false) (hc : Spec.Consistent rt.snap) (hw : AllShow rt.snap) {l : Link} (hp : l.ptr.length = 32)
    {e : Nat × NetParts} (hr : rt.snap.read l.ptr = some e) (i level : Nat) {out : List (Nat × NetParts)} {b : Bool}
    (hcall : ∀ rt1, rt1.locked = false → rt1.snap = rt.snap → ∃ rt2 c, run (linkProg m clock) (n + 1) rt1 ((linkProg m clock).handle level e) = .ok (rt2, c, b) ∧ Onto rt1 rt2 out) :
    ∃ rt' b', watch (linkProg m clock) (run (linkProg m clock) (n + 1)) rt (linkQid i l) ⟨.hash, true⟩ (linkQuery i l).preds level = .ok (rt', b', true) ∧ Onto rt rt' (e :: out) := by
  unfold watch
  rw [show (linkQuery i l).preds = (QText.Query.hashEq l.ptr).preds from rfl, link_checkDb]
  obtain ⟨rt0, h1, h2⟩ := close_link (m := m) (clock := clock) n hl (linkQid i l)
  have hq := hash_eq_query (db := rt0.snap) (by rw [h2.snap]; exact hc) (by rw [h2.snap]; exact hw) hp
  rw [h2.snap, hr] at hq
  simp only [h1, dbPart, if_true, h2.snap, hq, Option.toList_some, dbCalls, Option.isSome_some]
  have h3 : Onto rt ({ rt0 with next := rt0.next + 1, snap := rt.snap }.note (.born rt0.next (linkQid i l) ⟨.hash, true⟩ (QText.Query.hashEq l.ptr).preds rt.snap)) [] :=
    Onto.noted (a := rt) (b := { rt0 with next := rt0.next + 1, snap := rt.snap }) ⟨rfl, h2.locked, h2.given⟩ (given_born _ _ _ _ _)
  generalize hx : ({ rt0 with next := rt0.next + 1, snap := rt.snap }.note (.born rt0.next (linkQid i l) ⟨.hash, true⟩ (QText.Query.hashEq l.ptr).preds rt.snap)) = x at h3 ⊢
  have h4 : Onto rt (x.note (.call rt0.next e)) [e] :=
    ⟨h3.snap, h3.locked, by show givenIn (x.trace ++ _) = _; rw [given_append, given_call, h3.given, List.append_nil]⟩
  obtain ⟨rt2, c, h5, h6⟩ := hcall _ (h4.locked hl) h4.snap
  have h7 := h4.trans h6
  simp only [h5]
  cases b with
  | true => exact ⟨_, _, rfl, (h7.noted (given_broke _)).noted (given_gone _ _)⟩
  | false =>
    simp only [(link_new l.ptr (linkQid i l) (rt0.next, c)).1]
    exact ⟨rt2.note (.gone rt0.next .unmade), false, by simp, h7.noted (given_gone _ _)⟩

/-! ### the links of a packet -/

theorem sent_getLinks (s : Sent) : s.parts.getLinks = linksIn s.c := by
  unfold Sent.parts NetParts.getLinks linksIn
  cases s.c <;> rfl

theorem sent_ptr {s : Sent} {l : Link} (h : l ∈ linksIn s.c) : l.ptr.length = 32 := by
  have hv := s.valid.2
  unfold linksIn at h
  cases hc : s.c with
  | data b => rw [hc] at h; simp at h
  | error b => rw [hc] at h; simp at h
  | link c => rw [hc] at h hv; exact (hv.links l h).2
  | key c pk sig => rw [hc] at h hv; exact (hv.1.links l h).2

theorem run_ask (n : Nat) (rt rt' : RT Nat) (q : Rt.Cmd Nat) (a : Ans) (k : Ans → Act Nat) (h : step (linkProg m clock) (run (linkProg m clock) n) rt q = .ok (rt', a)) :
    run (linkProg m clock) (n + 1) rt (.ask q k) = run (linkProg m clock) n rt' (k a) := by
  rw [run, h]

/-- The callback of this level, given a packet of the log. -/
def CallsBack (m : LinkMode) (clock : Nat → Nat) (db : Db) (level : Nat) : Prop :=
  ∀ e ∈ db.log, ∃ mid b M, ((level = 0 ∧ mid = []) ∨ ∃ n ok, level = n + 1 ∧ Reached db.log (m == .error) n e.2.getLinks mid ok) ∧
    ∀ n, M ≤ n → ∀ rt : RT Nat, rt.locked = false → rt.snap = db →
      ∃ rt' c, run (linkProg m clock) (n + 1) rt ((linkProg m clock).handle level e) = .ok (rt', c, b) ∧ Onto rt rt' mid

theorem links_step {db : Db} (hc : Spec.Consistent db) (hw : AllShow db) (hm : m ≠ .watch) {level : Nat} (hcb : CallsBack m clock db level) (ls : List Link)
    (hls : ∀ l ∈ ls, l.ptr.length = 32) :
    ∃ out ok N S, Reached db.log (m == .error) level ls out ok ∧ ∀ n, N ≤ n → ∀ rt : RT Nat, rt.locked = false → rt.snap = db → ∀ k i,
      ∃ rt', run (linkProg m clock) (n + S) rt (getLinks m level k i ls) = run (linkProg m clock) n rt' (k ok) ∧ Onto rt rt' out := by
  induction ls with
  | nil => exact ⟨[], true, 0, 0, .nil _, fun n _ rt _ _ k i => ⟨rt, rfl, .refl rt⟩⟩
  | cons l ls ih =>
    obtain ⟨out, ok, N, S, h1, h2⟩ := ih fun x hx => hls x (by simp [hx])
    have hp := hls l (by simp)
    cases hr : db.read l.ptr with
    | none =>
      have hno : ∀ e ∈ db.log, e.2.hash ≠ l.ptr := by
        intro e he hh
        have := (read_hash_iff hc l.ptr e.1 e.2).2 ⟨he, hh⟩
        rw [hr] at this
        cases this
      cases m with
      | watch => exact absurd rfl hm
      | error =>
        refine ⟨[], false, 1, 1, .stop rfl hno, fun n hn rt hl hs k i => ?_⟩
        obtain ⟨j, rfl⟩ : ∃ j, n = j + 1 := ⟨n - 1, by omega⟩
        obtain ⟨rt1, g1, g2⟩ := watch_missing (m := .error) (clock := clock) j hl (hs ▸ hc) (hs ▸ hw) hp (by rw [hs]; exact hr) i level
        refine ⟨rt1, ?_, g2⟩
        rw [getLinks, run_ask (j + 1) rt rt1 _ (.watched false false) _ (by rw [step, g1])]
      | skip =>
        refine ⟨out, ok, N + 1, S + 2, .skip rfl hno h1, fun n hn rt hl hs k i => ?_⟩
        obtain ⟨j, hj⟩ : ∃ j, n + S = j + 1 := ⟨n + S - 1, by omega⟩
        obtain ⟨rt1, g1, g2⟩ := watch_missing (m := .skip) (clock := clock) (j + 1) hl (hs ▸ hc) (hs ▸ hw) hp (by rw [hs]; exact hr) i level
        obtain ⟨rt2, g3, g4⟩ := close_link (m := .skip) (clock := clock) j (g2.locked hl) (linkQid i l)
        obtain ⟨rt3, g5, g6⟩ := h2 n (by omega) rt2 (g4.locked (g2.locked hl)) ((g4.snap.trans g2.snap).trans hs) k (i + 1)
        refine ⟨rt3, ?_, (g2.trans g4).trans g6⟩
        rw [← g5, show n + (S + 2) = j + 1 + 1 + 1 by omega, getLinks, run_ask (j + 1 + 1) rt rt1 _ (.watched false false) _ (by rw [step, g1])]
        simp only
        rw [run_ask (j + 1) rt1 rt2 _ .nothing _ (by rw [step, g3]), hj]
    | some e =>
      obtain ⟨he, hh⟩ := (read_hash_iff hc l.ptr e.1 e.2).1 hr
      obtain ⟨mid, b, M, g1, g2⟩ := hcb e he
      refine ⟨e :: (mid ++ out), ok, N + M + 1, S + 1, ?_, fun n hn rt hl hs k i => ?_⟩
      · rcases g1 with ⟨rfl, rfl⟩ | ⟨x, okx, rfl, g1⟩
        · exact .leaf he hh h1
        · exact .inner he hh g1 h1
      obtain ⟨j, hj⟩ : ∃ j, n + S = j + 1 := ⟨n + S - 1, by omega⟩
      obtain ⟨rt1, b', g3, g4⟩ := watch_found (m := m) (clock := clock) j hl (hs ▸ hc) (hs ▸ hw) hp (by rw [hs]; exact hr) i level
        (fun rt1 hl1 hs1 => g2 j (by omega) rt1 hl1 (hs1.trans hs))
      obtain ⟨rt2, g5, g6⟩ := h2 n (by omega) rt1 (g4.locked hl) (g4.snap.trans hs) k (i + 1)
      refine ⟨rt2, ?_, g4.trans g6⟩
      rw [← g5, show n + (S + 1) = j + 1 + 1 by omega]
      cases m <;> rw [getLinks, run_ask (j + 1) rt rt1 _ (.watched b' true) _ (by rw [step, g3]), hj]

theorem calls_back {db : Db} (hc : Spec.Consistent db) (hw : AllShow db) (hp : HoldsPackets db.log) (hm : m ≠ .watch) (level : Nat) : CallsBack m clock db level := by
  induction level with
  | zero => exact fun e he => ⟨[], false, 0, .inl ⟨rfl, rfl⟩, fun n _ rt _ _ => ⟨rt, 0, rfl, .refl rt⟩⟩
  | succ level ih =>
    intro e he
    obtain ⟨t, ht⟩ := hp e he
    obtain ⟨out, ok, N, S, h1, h2⟩ := links_step hc hw hm ih e.2.getLinks (by rw [ht, sent_getLinks]; exact fun l hl => sent_ptr hl)
    refine ⟨out, !ok, N + S + 1, .inr ⟨level, ok, rfl, h1⟩, fun n hn rt hl hs => ?_⟩
    obtain ⟨j, hj⟩ : ∃ j, n + 1 = (j + 1) + S := ⟨n - S, by omega⟩
    obtain ⟨rt', g1, g2⟩ := h2 (j + 1) (by omega) rt hl hs (fun ok => .ret (level + 1) (!ok)) 0
    refine ⟨rt', level + 1, ?_, g2⟩
    rw [hj]
    exact g1

/-- With enough steps, the packets reached are given to the callbacks. -/
theorem links_run {db : Db} (hc : Spec.Consistent db) (hw : AllShow db) (hp : HoldsPackets db.log) (hm : m ≠ .watch) (level : Nat) (ls : List Link)
    (hls : ∀ l ∈ ls, l.ptr.length = 32) :
    ∃ out ok N, Reached db.log (m == .error) level ls out ok ∧ ∀ n, N ≤ n → ∀ rt : RT Nat, rt.locked = false → rt.snap = db →
      ∃ rt', run (linkProg m clock) n rt (getLinks m level (fun ok => .ret level (!ok)) 0 ls) = .ok (rt', level, !ok) ∧ Onto rt rt' out := by
  obtain ⟨out, ok, N, S, h1, h2⟩ := links_step hc hw hm (calls_back (clock := clock) hc hw hp hm level) ls hls
  refine ⟨out, ok, N + S + 1, h1, fun n hn rt hl hs => ?_⟩
  obtain ⟨j, rfl⟩ : ∃ j, n = (j + 1) + S := ⟨n - S - 1, by omega⟩
  exact h2 (j + 1) (by omega) rt hl hs (fun ok => .ret level (!ok)) 0

end
end Verif.Rt

namespace Verif.Cmd
open Verif Verif.Pkt Verif.Pred Verif.Multi Verif.Env Verif.Rt Verif.Spec Verif.Props

section
variable {y : Sys} {o : IoOpts} {g : GetLinks} {db : Db} {ts : List Sent} {fwd wr : Sent → List Put} {clock : Nat → Nat}

theorem reached_sub {log : List (Nat × NetParts)} {stops : Bool} {n : Nat} {ls : List Link} {out : List (Nat × NetParts)} {ok : Bool} (h : Reached log stops n ls out ok) :
    ∀ e ∈ out, e ∈ log := by
  induction h with
  | nil => simp
  | skip _ _ _ ih => exact ih
  | stop => simp
  | leaf he _ _ ih =>
    intro x hx
    rcases List.mem_cons.1 hx with rfl | hx
    · exact he
    · exact ih x hx
  | inner he _ _ _ ih ih' =>
    intro x hx
    rcases List.mem_cons.1 hx with rfl | hx
    · exact he
    · rcases List.mem_append.1 hx with hx | hx
      · exact ih x hx
      · exact ih' x hx

theorem these_from {log : List (Nat × NetParts)} (hp : HoldsPackets log) {out : List (Nat × NetParts)} (h : ∀ e ∈ out, e ∈ log) : ∃ ts, TheseFrom out ts := by
  induction out with
  | nil => exact ⟨[], rfl⟩
  | cons e out ih =>
    obtain ⟨ts, ht⟩ := ih fun x hx => h x (by simp [hx])
    obtain ⟨t, he⟩ := hp e (h e (by simp))
    exact ⟨t :: ts, by unfold TheseFrom at ht ⊢; rw [List.map_cons, List.map_cons, ht, he]⟩

theorem writeGiven_eq (h : GetLinksOk o g db ts fwd wr) (dbg : Bool) (us : List Sent) {w : World} (hb : w.buf = none) {k : Nat} (hc : Clock y w k) :
    ∃ w', writeGiven dbg y o g.write w (us.map Sent.parts) = (w', .ok ()) ∧ w'.buf = none ∧ w'.outs = w.outs ++ linesOf (doneWith o wr us) ∧
      Saves w w' (savedOf (doneWith o wr us)) ∧ Clock y w' k := by
  induction us generalizing w with
  | nil => exact ⟨w, rfl, hb, by simp [doneWith, linesOf], saves_same rfl, hc⟩
  | cons u us ih =>
    obtain ⟨w1, a1, a2, a3, a4, a5⟩ := writeMulti_puts_any y (h.writes u) (fun _ => h.private_) w (fun x hx => absurd hx (h.direct u x).2) (n := k)
      (by rw [h.noSave, Nat.zero_add]; exact hc)
    rw [← doneWith_one] at a2 a3 a4
    obtain ⟨w2, b1, b2, b3, b4, b5⟩ := ih (w := w1) (by rw [a3, hb]; rfl) a5
    refine ⟨w2, ?_, b2, ?_, ?_, b5⟩
    · rw [List.map_cons, writeGiven, ofParts_sent]
      simp only [a1, Left.next]
      exact b1
    · rw [b3, a2, show u :: us = [u] ++ us from rfl, doneWith_append, linesOf_append, List.append_assoc]
    · rw [show u :: us = [u] ++ us from rfl, doneWith_append, savedOf_append]
      exact saves_trans a4 b4

/-- One packet. -/
theorem getLinksStep_eq (h : GetLinksOk o g db ts fwd wr) (dbg : Bool) {s : Sent} (hs : s ∈ ts) :
    ∃ out us ok N, Reached db.log (g.mode == .error) g.level (linksIn s.c) out ok ∧ TheseFrom out us ∧
      ∀ fuel, N ≤ fuel → ∀ (k : Nat) (w : World) (rt : RT Nat), w.buf = none → Clock y w (dbCount g.forward + k) → rt.locked = false → rt.snap = db →
        ∃ w' rt', getLinksStep dbg y o g clock fuel (w, rt) (net s) = ((w', rt'), if ok then .ok true else .error (.err ())) ∧ w'.buf = none ∧
          w'.outs = w.outs ++ linesOf (doneWith o wr us ++ if ok then doneWith o fwd [s] else []) ∧
          Saves w w' (savedOf (doneWith o wr us ++ if ok then doneWith o fwd [s] else [])) ∧ Clock y w' k ∧ rt'.locked = false ∧ rt'.snap = db := by
  by_cases he : linksIn s.c = []
  · refine ⟨[], [], true, 0, he ▸ .nil _, rfl, fun fuel _ k w rt hb hc hl hsn => ?_⟩
    obtain ⟨w1, a1, a2, a3, a4, a5⟩ := writeMulti_puts_any y (h.fwds s hs) (fun _ => h.private_) w (fun x hx => absurd hx (h.direct s x).1) hc
    rw [← doneWith_one] at a2 a3 a4
    refine ⟨w1, rt, ?_, by rw [a3, hb]; rfl, a2, a4, a5, hl, hsn⟩
    unfold getLinksStep
    rw [ofPkt_net]
    simp only [sent_getLinks, he, List.isEmpty_nil, if_true, a1, onward]
  · obtain ⟨out, ok, N, h1, h2⟩ := links_run (clock := clock) h.files h.shown h.packets h.mode g.level (linksIn s.c) fun l hl => sent_ptr hl
    obtain ⟨us, hu⟩ := these_from h.packets (reached_sub h1)
    refine ⟨out, us, ok, N, h1, hu, fun fuel hf k w rt hb hc hl hsn => ?_⟩
    obtain ⟨rt', g1, g2⟩ := h2 fuel hf rt hl hsn
    have hd : ((givenIn rt'.trace).drop (givenIn rt.trace).length).map (·.2) = us.map Sent.parts := by rw [g2.given, List.drop_left]; exact hu
    obtain ⟨w1, a1, a2, a3, a4, a5⟩ := writeGiven_eq h dbg us hb hc
    unfold getLinksStep
    rw [ofPkt_net]
    have hne : (linksIn s.c).isEmpty = false := by cases hx : linksIn s.c with
      | nil => exact absurd hx he
      | cons _ _ => rfl
    simp only [sent_getLinks, hne, Bool.false_eq_true, if_false, g1, hd, a1]
    cases ok with
    | false =>
      refine ⟨w1, rt', by simp, a2, by simpa using a3, by simpa using a4, clock_less a5 (by omega), g2.locked hl, g2.snap.trans hsn⟩
    | true =>
      obtain ⟨w2, b1, b2, b3, b4, b5⟩ := writeMulti_puts_any y (h.fwds s hs) (fun _ => h.private_) w1 (fun x hx => absurd hx (h.direct s x).1) a5
      rw [← doneWith_one] at b2 b3 b4
      refine ⟨w2, rt', by simp [b1, onward], by rw [b3, a2]; rfl, ?_, ?_, b5, g2.locked hl, g2.snap.trans hsn⟩
      · rw [b2, a3, if_pos rfl, linesOf_append, List.append_assoc]
      · rw [if_pos rfl, savedOf_append]
        exact saves_trans a4 b4

/-- All packets. -/
theorem getLinks_each (h : GetLinksOk o g db ts fwd wr) (dbg : Bool) (us : List Sent) (hus : ∀ s ∈ us, s ∈ ts) :
    ∃ pre rest outs last N, us = pre ++ rest ∧ Fetched db.log (g.mode == .error) g.level pre outs ∧
      ((rest = [] ∧ last = []) ∨ ∃ s rest' out, rest = s :: rest' ∧ Reached db.log (g.mode == .error) g.level (linksIn s.c) out false ∧ TheseFrom out last) ∧
      ∀ fuel, N ≤ fuel → ∀ (k : Nat) (w : World) (rt : RT Nat), w.buf = none → Clock y w (dbCount g.forward * us.length + k) → rt.locked = false → rt.snap = db →
        ∃ w' rt', (∀ err, each (getLinksStep dbg y o g clock fuel) (w, rt) (us.map net) err =
            if rest = [] then each (getLinksStep dbg y o g clock fuel) (w', rt') [] err else ((w', rt'), .error (.err ()))) ∧
          w'.outs = w.outs ++ linesOf (fetchDone o fwd wr pre outs ++ doneWith o wr last) ∧
          Saves w w' (savedOf (fetchDone o fwd wr pre outs ++ doneWith o wr last)) := by
  induction us with
  | nil =>
    exact ⟨[], [], [], [], 0, rfl, .nil, .inl ⟨rfl, rfl⟩, fun _ _ _ w rt _ _ _ _ => ⟨w, rt, fun _ => by simp, by simp [fetchDone, linesOf, doneWith], saves_same rfl⟩⟩
  | cons s us ih =>
    obtain ⟨out, new, ok, N, h1, h2, h3⟩ := getLinksStep_eq (y := y) (clock := clock) h dbg (hus s (by simp))
    cases ok with
    | false =>
      refine ⟨[], s :: us, [], new, N, rfl, .nil, .inr ⟨s, us, out, rfl, h1, h2⟩, fun fuel hf k w rt hb hc hl hsn => ?_⟩
      obtain ⟨w', rt', g1, g2, g3, g4, g5, g6, g7⟩ := h3 fuel hf k w rt hb (clock_less hc (by rw [List.length_cons, Nat.mul_succ]; omega)) hl hsn
      refine ⟨w', rt', fun err => ?_, by simpa [fetchDone] using g3, by simpa [fetchDone] using g4⟩
      rw [List.map_cons, each, g1]
      simp
    | true =>
      obtain ⟨pre, rest, outs, last, N', i1, i2, i3, i4⟩ := ih fun x hx => hus x (by simp [hx])
      refine ⟨s :: pre, rest, new :: outs, last, N + N', by rw [i1]; rfl, .cons h1 h2 i2, i3, fun fuel hf k w rt hb hc hl hsn => ?_⟩
      obtain ⟨w', rt', g1, g2, g3, g4, g5, g6, g7⟩ := h3 fuel (by omega) (dbCount g.forward * us.length + k) w rt hb
        (clock_less hc (by rw [List.length_cons, Nat.mul_succ]; omega)) hl hsn
      obtain ⟨w2, rt2, j1, j2, j3⟩ := i4 fuel (by omega) k w' rt' g2 g5 g6 g7
      refine ⟨w2, rt2, fun err => ?_, ?_, ?_⟩
      · rw [List.map_cons, each_ok g1, j1]
      · rw [j2, g3]
        simp [fetchDone, linesOf]
      · have := saves_trans g4 j3
        simpa [fetchDone, savedOf] using this

end
end Verif.Cmd
