import Verif.Lemmas.Runtime6
/-!
# C34, C35: watching and processing
-/
namespace Verif.Props
open Verif Verif.Pkt Verif.Pred Verif.Env Verif.Query Verif.Matcher Verif.Spec Verif.Rt

variable {C : Type} {p : Prog C}

theorem between_log {rt : RT C} (h : Inv rt rt.upto []) {a q : Nat} (hq : q ≤ rt.upto) : between rt.disk.log a q = between rt.snap.log a q :=
  between_mono h.pre h.disk.logSorted (Nat.le_trans hq h.posle)

theorem between_show {rt : RT C} (h : Inv rt rt.upto []) (hw : AllShow rt.disk) {a q : Nat} :
    ∀ e ∈ between rt.snap.log a q, e.1 < 2 ^ 64 ∧ ∃ x, Shows e.2 x := by
  intro e he
  have he := h.pre.subset (List.mem_filter.1 he).1
  exact ⟨h.disk.stamps _ _ he, hw _ _ he⟩

/-- The packets a watch was given while it was there. -/
theorem sees_spec {rt : RT C} (h : Inv rt rt.upto []) (hw : AllShow rt.disk) {rs : List Stmt} {s : Preds} (hs : Preds.default.run true rs = .ok s)
    (hr : ∀ r ∈ rs, Plain r) (hnew : SomePosition .new rs) {id : Bytes} {nth : BitVec 32} {w0 w1 : Watch Unit} (hn : Watch.new id s nth () = .ok w0)
    {a q : Nat} {out : List (Nat × NetParts)} (hse : Sees w0 (between rt.snap.log a q) w1 out) :
    ∃ k, Stands s nth.toNat k w1 ∧ (∀ L' b, Taken rs nth.toNat k L' b → Taken rs nth.toNat 0 (between rt.snap.log a q ++ L') (out ++ b)) ∧
      k ≤ (between rt.snap.log a q).length ∧ Taken rs nth.toNat 0 (between rt.snap.log a q) out := by
  rcases watch_made hs hnew id nth () with ⟨w, e1, _, _, st, _⟩ | ⟨e1, _⟩
  · rw [e1] at hn; cases hn
    obtain ⟨k, h1, h2, h3⟩ := sees_taken hs hr hnew st (between_show h hw) hse
    refine ⟨k, h1, h2, h3, ?_⟩
    have := h2 [] [] (.nil k)
    rwa [List.append_nil, List.append_nil] at this
  · rw [e1] at hn; cases hn

theorem mem_tail {n : Nat} {bk : Bool} {why : Why} : ∀ e ∈ (if bk then [Ev.broke n] else []) ++ [Ev.gone n why], (∃ n, e = .broke n) ∨ ∃ n w, e = .gone n w := by
  intro e he
  rcases List.mem_append.1 he with he | he
  · cases bk with
    | true => rw [if_pos rfl, List.mem_singleton] at he; exact .inl ⟨_, he⟩
    | false => cases he
  · rw [List.mem_singleton] at he; exact .inr ⟨_, _, he⟩

/-- C34: a watch that is not over has been given what it found in the database when it began, and then, of the packets
received since and up to where processing stands, those that satisfy its statements at an accepted position: each once and
in order. It is registered under its id or its registration is pending. No callback processes. -/
theorem watch_active_partial (hq : QuietProg p) {rt : RT C} (hR : Reach p rt) (hw : AllShow rt.disk) {n : Nat} {id : Bytes} {mode : Mode} {s : Preds} {snap : Db}
    (hb : .born n id mode s snap ∈ rt.trace) {rs : List Stmt} (hs : Preds.default.run true rs = .ok s) (hr : ∀ r ∈ rs, Plain r)
    (hnew : SomePosition .new rs) (hno : ∀ why, .gone n why ∉ rt.trace) :
    ∃ found nth out, FoundIn rs s mode snap found nth ∧ Consistent snap ∧ snap.log <+: rt.disk.log ∧ snap.logHead ≤ rt.upto ∧
      Taken rs nth.toNat 0 (between rt.disk.log snap.logHead rt.upto) out ∧ callsTo n rt.trace = found ++ out ∧
      ∃ w, (w ∈ rt.watches ∨ .new w ∈ rt.pending) ∧ w.queryId = id ∧ w.ctx.1 = n := by
  obtain ⟨hI, hl⟩ := reach_inv hq hR
  rcases hI.cases hl hb with ⟨w, hm, hn, b, w0, out, b1, b2, b3, b4, b5, b6, b7, b8⟩ | ⟨b, calls, bk, why, b1, b2, b3, b4, b5⟩
  · have hn : w.ctx.1 = n := hn
    have hmem : Ev.born n id mode s snap ∈ b.hist (b.found ++ out) ++ [] := by rw [List.append_nil, ← b8]; exact mem_about hb
    obtain ⟨e1, rfl, rfl, rfl, rfl⟩ := born_hist (fun _ h => by cases h) hmem
    obtain ⟨k, _, _, _, ht⟩ := sees_spec hI hw hs hr hnew b4 b7
    refine ⟨b.found, b.nth, out, found_in hs b1.check b1.part, b1.cons, b5.trans hI.pre, b6, ?_, ?_, w, hm, b3.symm, hn⟩
    · rw [between_log hI (Nat.le_refl _)]; exact ht
    · have hh : about n rt.trace = _ := b8
      rw [callsTo_about, hh, ← e1, callsTo_hist]
  · have hh : about n rt.trace = _ := b4
    exact absurd (about_mem (n := n) (by rw [hh]; simp; right; rfl)) (hno why)

/-- C34: a watch that is over ended once, for one of the known reasons, after calls that fit the reason. -/
theorem watch_over_partial (hq : QuietProg p) {rt : RT C} (hR : Reach p rt) (hw : AllShow rt.disk) {n : Nat} {id : Bytes} {mode : Mode} {s : Preds} {snap : Db}
    (hb : .born n id mode s snap ∈ rt.trace) {rs : List Stmt} (hs : Preds.default.run true rs = .ok s) (hr : ∀ r ∈ rs, Plain r)
    (hnew : SomePosition .new rs) {why : Why} (hg : .gone n why ∈ rt.trace) :
    ∃ found nth, FoundIn rs s mode snap found nth ∧ snap.log <+: rt.disk.log ∧ (∀ why', .gone n why' ∈ rt.trace → why' = why) ∧
      MayEnd rs id found nth.toNat rt.disk.log snap.logHead rt.upto (callsTo n rt.trace) (.broke n ∈ rt.trace) why := by
  obtain ⟨hI, hl⟩ := reach_inv hq hR
  rcases hI.cases hl hb with ⟨w, hm, hn, b, w0, out, b1, b2, b3, b4, b5, b6, b7, b8⟩ | ⟨b, calls, bk, why', b1, b2, b3, b4, b5⟩
  · exfalso
    have hh : about n rt.trace = _ := b8
    have hx := mem_about hg
    rw [show Ev.num (.gone n why) = n from rfl, hh] at hx
    unfold Birth.hist at hx
    rcases List.mem_cons.1 hx with hx | hx
    · cases hx
    · obtain ⟨e, _, he⟩ := List.mem_map.1 hx; cases he
  · have hh : about n rt.trace = b.hist calls ++ (if bk then [.broke n] else []) ++ [.gone n why'] := b4
    rw [List.append_assoc] at hh
    have hmem : Ev.born n id mode s snap ∈ b.hist calls ++ ((if bk then [.broke n] else []) ++ [.gone n why']) := by rw [← hh]; exact mem_about hb
    obtain ⟨e1, rfl, rfl, rfl, rfl⟩ := born_hist mem_tail hmem
    have only : ∀ y, .gone n y ∈ rt.trace → y = why' := by
      intro y hy
      have hy := mem_about hy
      rw [show Ev.num (.gone n y) = n from rfl, hh] at hy
      rcases List.mem_append.1 hy with hy | hy
      · unfold Birth.hist at hy
        rcases List.mem_cons.1 hy with hy | hy
        · cases hy
        · obtain ⟨e, _, he⟩ := List.mem_map.1 hy; cases he
      · rcases List.mem_append.1 hy with hy | hy
        · cases bk with
          | true => rw [if_pos rfl, List.mem_singleton] at hy; cases hy
          | false => cases hy
        · rw [List.mem_singleton] at hy; cases hy; rfl
    cases only why hg
    have hcalls : callsTo n rt.trace = calls := by
      rw [callsTo_about, hh, callsTo_append, callsTo_append, ← e1, callsTo_hist]
      cases bk <;> simp [callsTo]
    have hbk : bk = true → .broke n ∈ rt.trace := by
      rintro rfl
      refine about_mem (n := n) ?_
      rw [hh]; simp
    have htop : rt.upto = topOf rt.snap.log := (hI.free hl).1
    have idle : Idle b rt.snap.log calls bk → ∃ q out, b.db.logHead ≤ q ∧ q ≤ rt.upto ∧ calls = b.found ++ out ∧
        Taken rs b.nth.toNat 0 (between rt.disk.log b.db.logHead q) out := by
      rintro ⟨_, w0, q, w1, out, f1, f2, f3, f4, f5⟩
      obtain ⟨_, _, _, _, ht⟩ := sees_spec hI hw hs hr hnew f1 f4
      exact ⟨q, out, f2, htop ▸ f3, f5, by rw [between_log hI (htop ▸ f3)]; exact ht⟩
    have past : ∀ now, b.preds.recv.high.toNat ≤ now → ∀ t, now < t → t < 2 ^ 64 → ¬ ∀ r ∈ rs, RecvOk r t := by
      intro now h1 t h2 h3 h4
      have := run_recv hs hr (BitVec.ofNat 64 t)
      rw [BitVec.toNat_ofNat, Nat.mod_eq_of_lt h3] at this
      have := (this.2 h4).2
      rw [BitVec.toNat_ofNat, Nat.mod_eq_of_lt h3] at this
      omega
    refine ⟨b.found, b.nth, found_in hs b1.check b1.part, b3.trans hI.pre, only, ?_⟩
    rw [hcalls]
    have act : ∀ {r}, (∃ w0 q w1 out w2 e ok over, Watch.new b.id b.preds b.nth () = .ok w0 ∧ b.db.logHead ≤ q ∧ e ∈ rt.snap.log ∧
        between rt.snap.log b.db.logHead e.1 = between rt.snap.log b.db.logHead q ++ [e] ∧ Sees w0 (between rt.snap.log b.db.logHead q) w1 out ∧
        w1.test e.1 e.2 = .ok (w2, ok, over) ∧ calls = b.found ++ out ++ (if ok then [e] else []) ∧ (bk = true → ok = true) ∧
        (if over then r = Reason.brk else r = .finish ∧ bk = true)) →
        ∃ q out, b.db.logHead ≤ q ∧ q ≤ rt.upto ∧ calls = b.found ++ out ∧ Taken rs b.nth.toNat 0 (between rt.disk.log b.db.logHead q) out ∧
          ((r = .brk ∧ Exhausted rs b.nth.toNat (between rt.disk.log b.db.logHead q) out q) ∨ (r = .finish ∧ bk = true ∧ out ≠ [])) := by
      rintro r ⟨w0, q, w1, out, w2, e, ok, over, f1, f2, f3, f4, f5, f6, f7, f8, f9⟩
      obtain ⟨k, g1, g2, g3, _⟩ := sees_spec hI hw hs hr hnew f1 f5
      have he := hI.pre.subset f3
      have hle : e.1 ≤ rt.upto := by rw [htop]; exact top_ge hI.asc f3
      obtain ⟨k', t1, t2⟩ := test_step_ok hs hr hnew g1 (hI.disk.stamps _ _ he) (hw _ _ he) f6
      have hqe : b.db.logHead ≤ e.1 := by
        have hm : e ∈ between rt.snap.log b.db.logHead e.1 := by rw [f4]; simp
        unfold between at hm
        rw [List.mem_filter, Bool.and_eq_true, decide_eq_true_iff, decide_eq_true_iff] at hm
        omega
      have hsn := taken_snoc (ok := ok) (k' := k') (e := e) g2 (by
        rcases t2 with ⟨a, b, c, _⟩ | ⟨a, b, c, _⟩
        · exact .inl ⟨a, b, c⟩
        · exact .inr ⟨a, b, c⟩)
      rw [← f4] at hsn
      refine ⟨e.1, out ++ (if ok then [e] else []), hqe, hle, by rw [f7, List.append_assoc], ?_, ?_⟩
      · rw [between_log hI hle]
        have := hsn [] [] (.nil k')
        rwa [List.append_nil, List.append_nil] at this
      · cases over with
        | false =>
          obtain ⟨f9, f10⟩ := f9
          refine .inr ⟨f9, f10, ?_⟩
          rw [f8 f10]; simp
        | true =>
          refine .inl ⟨f9, ?_⟩
          rw [between_log hI hle]
          intro L acc hL hlen hacc
          obtain ⟨a, ha⟩ := taken_exists (rs := rs) (nth := b.nth.toNat) (k := k') L
          have hu := taken_unique hacc (hsn L a ha)
          have ha0 : a = [] := by
            rcases t2 with ⟨_, _, _, c⟩ | ⟨_, c0, _, c⟩
            · refine taken_none_recv (fun x hx hmt => ?_) ha
              obtain ⟨y, _, _, hy⟩ := hmt
              exact c rfl x.1 (hL x hx).1 (hL x hx).2 hy
            · refine taken_none_count (fun i hi1 hi2 => c rfl i (by omega) ?_) ha
              rw [List.length_append, f4, List.length_append, List.length_singleton] at hlen
              omega
          rw [hu, ha0, List.append_nil]
    cases why with
    | inDb => exact ⟨hbk b5.1, b5.2.1, b5.2.2⟩
    | unmade =>
      refine ⟨b5.2.1, fun L acc hL hlen hacc => ?_⟩
      rcases watch_made hs hnew b.id b.nth () with ⟨w, e1, _⟩ | ⟨_, e2⟩
      · have := b5.2.2
        rw [e1] at this; cases this
      · rw [List.nil_append] at hlen hacc
        exact taken_none_count (fun i _ hi hx => e2 (b.nth.toNat + i) (by omega) (by omega) hx.2) hacc
    | late now => exact ⟨past now b5.2, idle b5.1⟩
    | collected now => exact ⟨past now b5.2, idle b5.1⟩
    | closed i range => exact ⟨b5.2, idle b5.1⟩
    | stopped r =>
      cases r with
      | closed => exact b5.elim
      | replaced => exact idle b5
      | brk =>
        obtain ⟨q, out, a1, a2, a3, a4, a5⟩ := act b5
        rcases a5 with ⟨_, a5⟩ | ⟨a5, _⟩
        · exact ⟨q, out, a1, a2, a3, a4, a5⟩
        · cases a5
      | finish =>
        obtain ⟨q, out, a1, a2, a3, a4, a5⟩ := act b5
        rcases a5 with ⟨a5, _⟩ | ⟨_, a5, a6⟩
        · cases a5
        · exact ⟨hbk a5, q, out, a1, a2, a3, a6, a4⟩

theorem taken_more {rs : List Stmt} {nth k : Nat} {L out : List (Nat × NetParts)} (h : Taken rs nth k L out) (L' : List (Nat × NetParts)) :
    ∃ out', Taken rs nth k (L ++ L') (out ++ out') := by
  induction h with
  | nil k => exact taken_exists L'
  | pass e h1 _ ih => obtain ⟨o, ho⟩ := ih; exact ⟨o, .pass e h1 ho⟩
  | take e h1 h2 _ ih => obtain ⟨o, ho⟩ := ih; exact ⟨o, .take e h1 h2 ho⟩
  | skip e h1 h2 _ ih => obtain ⟨o, ho⟩ := ih; exact ⟨o, .skip e h1 h2 ho⟩

theorem between_split {log : List (Nat × NetParts)} (hs : Asc log) {a q b : Nat} (h1 : a ≤ q) (h2 : q ≤ b) :
    between log a b = between log a q ++ between log q b := by
  unfold between
  induction log with
  | nil => rfl
  | cons e log ih =>
    obtain ⟨h3, h4⟩ := List.pairwise_cons.1 hs
    rw [List.filter_cons, List.filter_cons, List.filter_cons, ih h4]
    by_cases hq : e.1 ≤ q
    · have e1 : (decide (q < e.1) && decide (e.1 ≤ b)) = false := by
        rw [decide_eq_false (by omega : ¬ q < e.1), Bool.false_and]
      have e2 : (decide (a < e.1) && decide (e.1 ≤ b)) = (decide (a < e.1) && decide (e.1 ≤ q)) := by
        rw [decide_eq_true (by omega : e.1 ≤ b), decide_eq_true hq]
      rw [e1, e2]
      simp only [Bool.false_eq_true, if_false]
      split <;> rfl
    · have e1 : (decide (a < e.1) && decide (e.1 ≤ q)) = false := by
        rw [decide_eq_false hq, Bool.and_false]
      have hn : log.filter (fun e => decide (a < e.1) && decide (e.1 ≤ q)) = [] := by
        rw [List.filter_eq_nil_iff]
        intro x hx
        have := h3 x hx
        rw [Bool.and_eq_true, decide_eq_true_iff, decide_eq_true_iff]
        omega
      have e2 : (decide (a < e.1) && decide (e.1 ≤ b)) = (decide (q < e.1) && decide (e.1 ≤ b)) := by
        rw [decide_eq_true (by omega : a < e.1), decide_eq_true (by omega : q < e.1)]
      rw [e1, e2, hn]
      simp only [Bool.false_eq_true, if_false]
      split <;> rfl

/-- C34: no watch is ever given a packet twice, out of order, or that it should not be given. -/
theorem watch_prefix_partial (hq : QuietProg p) {rt : RT C} (hR : Reach p rt) (hw : AllShow rt.disk) {n : Nat} {id : Bytes} {mode : Mode} {s : Preds} {snap : Db}
    (hb : .born n id mode s snap ∈ rt.trace) {rs : List Stmt} (hs : Preds.default.run true rs = .ok s) (hr : ∀ r ∈ rs, Plain r)
    (hnew : SomePosition .new rs) :
    ∃ found nth out, FoundIn rs s mode snap found nth ∧ Taken rs nth.toNat 0 (between rt.disk.log snap.logHead rt.upto) out ∧
      callsTo n rt.trace <+: found ++ out := by
  by_cases hno : ∃ why, .gone n why ∈ rt.trace
  · obtain ⟨why, hg⟩ := hno
    obtain ⟨hI, hl⟩ := reach_inv hq hR
    obtain ⟨found, nth, h1, h2, h3, h4⟩ := watch_over_partial hq hR hw hb hs hr hnew hg
    have some : ∀ calls, (∃ q out, snap.logHead ≤ q ∧ q ≤ rt.upto ∧ calls = found ++ out ∧ Taken rs nth.toNat 0 (between rt.disk.log snap.logHead q) out) →
        ∃ out, Taken rs nth.toNat 0 (between rt.disk.log snap.logHead rt.upto) out ∧ calls <+: found ++ out := by
      rintro calls ⟨q, out, g1, g2, g3, g4⟩
      obtain ⟨o, ho⟩ := taken_more g4 (between rt.disk.log q rt.upto)
      rw [← between_split hI.disk.logSorted g1 g2] at ho
      exact ⟨_, ho, by rw [g3, ← List.append_assoc]; exact List.prefix_append _ _⟩
    have any : ∀ calls, calls <+: found → ∃ out, Taken rs nth.toNat 0 (between rt.disk.log snap.logHead rt.upto) out ∧ calls <+: found ++ out := by
      intro calls hc
      obtain ⟨o, ho⟩ := taken_exists (rs := rs) (nth := nth.toNat) (k := 0) (between rt.disk.log snap.logHead rt.upto)
      exact ⟨o, ho, hc.trans (List.prefix_append _ _)⟩
    have : ∃ out, Taken rs nth.toNat 0 (between rt.disk.log snap.logHead rt.upto) out ∧ callsTo n rt.trace <+: found ++ out := by
      cases why with
      | inDb => exact any _ h4.2.2
      | unmade => exact any _ (by rw [h4.1]; exact List.prefix_refl _)
      | late now => exact some _ h4.2
      | collected now => exact some _ h4.2
      | closed i range => exact some _ h4.2
      | stopped r =>
        cases r with
        | closed => exact h4.elim
        | replaced => exact some _ h4
        | brk => obtain ⟨q, out, a, b, c, d, _⟩ := h4; exact some _ ⟨q, out, a, b, c, d⟩
        | finish => obtain ⟨_, q, out, a, b, c, _, d⟩ := h4; exact some _ ⟨q, out, a, b, c, d⟩
    obtain ⟨out, h5, h6⟩ := this
    exact ⟨found, nth, out, h1, h5, h6⟩
  · obtain ⟨found, nth, out, h1, _, _, _, h4, h5, _⟩ := watch_active_partial hq hR hw hb hs hr hnew (fun why hx => hno ⟨why, hx⟩)
    exact ⟨found, nth, out, h1, h4, by rw [h5]; exact List.prefix_refl _⟩

theorem taken_filter {rs : List Stmt} {nth k : Nat} {L out : List (Nat × NetParts)} (ha : ∀ i, Accepts rs nth i) (h : Taken rs nth k L out) :
    out.Sublist L ∧ ∀ e, e ∈ out ↔ e ∈ L ∧ Meets rs e.1 e.2 := by
  induction h with
  | nil k => exact ⟨.slnil, fun e => by simp⟩
  | pass e h1 _ ih =>
    refine ⟨ih.1.cons _, fun x => ?_⟩
    rw [ih.2 x, List.mem_cons]
    constructor
    · rintro ⟨a, b⟩; exact ⟨.inr a, b⟩
    · rintro ⟨rfl | a, b⟩
      · exact absurd b h1
      · exact ⟨a, b⟩
  | take e h1 h2 _ ih =>
    refine ⟨ih.1.cons_cons _, fun x => ?_⟩
    rw [List.mem_cons, List.mem_cons, ih.2 x]
    constructor
    · rintro (rfl | ⟨a, b⟩)
      · exact ⟨.inl rfl, h1⟩
      · exact ⟨.inr a, b⟩
    · rintro ⟨rfl | a, b⟩
      · exact .inl rfl
      · exact .inr ⟨a, b⟩
  | skip e h1 h2 _ _ => exact absurd (ha _) h2

/-- C34 for a watch in log order without counts: while it is not over, it has been given exactly the matching packets of the
log up to where processing stands, each once and in order. -/
theorem watch_log_partial (hq : QuietProg p) {rt : RT C} (hR : Reach p rt) (hw : AllShow rt.disk) (hpos : ∀ e ∈ rt.disk.log, 0 < e.1) {n : Nat} {id : Bytes}
    {s : Preds} {snap : Db} (hb : .born n id ⟨.log, true⟩ s snap ∈ rt.trace) {rs : List Stmt} (hs : Preds.default.run true rs = .ok s) (hr : ∀ r ∈ rs, Plain r)
    (hn : ∀ r ∈ rs, (∀ q, r.kind ≠ .limit q) ∧ (r.kind = .field .hash → r.op ≠ .equal) ∧ (r.kind = .recv → r.op = .greater))
    (hno : ∀ why, .gone n why ∉ rt.trace) :
    (callsTo n rt.trace).Pairwise (fun a b => a.1 < b.1) ∧
      ∀ e, e ∈ callsTo n rt.trace ↔ e ∈ rt.disk.log ∧ e.1 ≤ rt.upto ∧ Meets rs e.1 e.2 := by
  obtain ⟨hI, hl⟩ := reach_inv hq hR
  have hpo : ∀ q i, ∀ r ∈ rs, CountOk q r i := fun q i r hm => ⟨fun h1 => absurd h1 ((hn r hm).1 q), fun _ h1 h2 => absurd h2 ((hn r hm).2.1 h1)⟩
  have hsome : ∀ q, SomePosition q rs := fun q => ⟨0, by decide, hpo q 0⟩
  obtain ⟨found, nth, out, h1, hcs, h2, hup, h3, h4, _⟩ := watch_active_partial hq hR hw hb hs hr (hsome _) hno
  have hws : AllShow snap := fun i q hi => hw i q (h2.subset hi)
  have hfound : found.Pairwise (RecvBefore true) ∧ ∀ e, e ∈ found ↔ e ∈ snap.log ∧ Meets rs e.1 e.2 := by
    rcases h1 with ⟨_, hqq⟩ | ⟨hna, _⟩
    · obtain ⟨sel, o, m, g1, ⟨mid, g2, g3⟩, g4, g5⟩ := log_query_asc_partial hs hr (fun r hm => (hn r hm).1 _) (hsome _) (fun r hm => (hn r hm).2.2) hcs hws 0#32
      rw [g1] at hqq
      cases hqq
      have e1 := picks_all (fun i => hpo _ _) g2
      have e2 := picks_all (fun i => hpo _ _) g3
      rw [e2, e1]
      exact ⟨g4, g5⟩
    · exact absurd ⟨hsome _, hsome _⟩ hna
  obtain ⟨o1, o2⟩ := taken_filter (fun i => ⟨hpo _ _, hpo _ _⟩) h3
  have hsub : ∀ e ∈ out, snap.logHead < e.1 := fun e he => by
    have := ((o2 e).1 he).1
    unfold between at this
    rw [List.mem_filter, Bool.and_eq_true, decide_eq_true_iff] at this
    exact this.2.1
  have hin : ∀ e, e ∈ rt.disk.log → e.1 ≤ snap.logHead → e ∈ snap.log := by
    intro e he hle
    obtain ⟨r, hr⟩ := h2
    have hd := hI.disk.logSorted
    rw [← hr] at he hd
    rcases List.mem_append.1 he with he | he
    · exact he
    · exfalso
      by_cases hne : snap.log = []
      · have : snap.logHead = 0 := by unfold Db.logHead; rw [hne]; rfl
        have := hpos e (by rw [← hr]; exact List.mem_append_right _ he)
        omega
      · obtain ⟨x, hx, ht⟩ := top_mem hne
        have := (List.pairwise_append.1 hd).2.2 x hx e he
        have ht : x.1 = snap.logHead := ht
        omega
  rw [h4]
  constructor
  · rw [List.pairwise_append]
    refine ⟨hfound.1, (List.Pairwise.filter _ hI.disk.logSorted).sublist o1, fun a ha b hb => ?_⟩
    have h5 : a.1 ≤ topOf snap.log := top_ge hcs.logSorted ((hfound.2 a).1 ha).1
    exact Nat.lt_of_le_of_lt h5 (hsub b hb)
  · intro e
    rw [List.mem_append, hfound.2 e, o2 e]
    constructor
    · rintro (⟨g1, g2⟩ | ⟨g1, g2⟩)
      · have h5 : e.1 ≤ topOf snap.log := top_ge hcs.logSorted g1
        exact ⟨h2.subset g1, Nat.le_trans h5 hup, g2⟩
      · unfold between at g1
        rw [List.mem_filter, Bool.and_eq_true, decide_eq_true_iff, decide_eq_true_iff] at g1
        exact ⟨g1.1, g1.2.2, g2⟩
    · rintro ⟨g1, g2, g3⟩
      rcases Nat.lt_or_ge snap.logHead e.1 with hlt | hge
      · refine .inr ⟨?_, g3⟩
        unfold between
        rw [List.mem_filter, Bool.and_eq_true, decide_eq_true_iff, decide_eq_true_iff]
        exact ⟨g1, hlt, g2⟩
      · exact .inl ⟨hin e g1 hge, g3⟩

/-! ### C35 -/

theorem reach_process {rt rt' : RT C} {k : Nat} (hR : Reach p rt) (h : process p (run p k) rt = .ok rt') : Reach p rt' :=
  .step (q := .process) (a := .upto rt'.upto) (k := k) hR (by unfold step; simp only [h])

/-- C35: after processing, everything in the log at the time of the call has been offered to every watch that is not over,
and if there was anything new, no registration is pending. No callback processes. -/
theorem process_catches_up_partial (hq : QuietProg p) {rt rt' : RT C} {k : Nat} (hR : Reach p rt) (h : process p (run p k) rt = .ok rt') :
    rt'.upto = rt.disk.logHead ∧ rt'.snap = rt.disk ∧ (rt.upto < rt.disk.logHead → rt'.pending = []) ∧ (∀ e ∈ rt.disk.log, e.1 ≤ rt'.upto) ∧
    ∀ {n id mode s snap rs}, .born n id mode s snap ∈ rt'.trace → (∀ why, .gone n why ∉ rt'.trace) → AllShow rt'.disk →
      Preds.default.run true rs = .ok s → (∀ r ∈ rs, Plain r) → SomePosition .new rs →
      ∃ found nth out, FoundIn rs s mode snap found nth ∧
        Taken rs nth.toNat 0 (rt.disk.log.filter (fun e => decide (snap.logHead < e.1))) out ∧ callsTo n rt'.trace = found ++ out := by
  obtain ⟨hI, hl⟩ := reach_inv hq hR
  have hR' := reach_process hR h
  obtain ⟨hI', hl'⟩ := reach_inv hq hR'
  obtain ⟨_, _, h1, h2, h3, _⟩ := process_spec hq (run_good hq k) hl hI h
  have hle : ∀ e ∈ rt.disk.log, e.1 ≤ rt'.upto := fun e he => by rw [h2]; exact top_ge hI.disk.logSorted he
  refine ⟨h2, h1, h3, hle, fun {n id mode s snap rs} hb hno hw hs hr hnew => ?_⟩
  obtain ⟨found, nth, out, g1, _, _, _, g4, g5, _⟩ := watch_active_partial hq hR' hw hb hs hr hnew hno
  refine ⟨found, nth, out, g1, ?_, g5⟩
  rw [between_log hI' (Nat.le_refl _), h1] at g4
  have : between rt.disk.log snap.logHead rt'.upto = rt.disk.log.filter (fun e => decide (snap.logHead < e.1)) := by
    unfold between
    apply List.filter_congr
    intro e he
    rw [decide_eq_true (hle e he), Bool.and_true]
  rwa [this] at g4

/-- C35: processing again when nothing was saved since changes nothing. -/
theorem process_again (hq : QuietProg p) {rt rt' : RT C} {k : Nat} (hR : Reach p rt) (h : process p (run p k) rt = .ok rt')
    (hd : rt'.disk = rt.disk) (call : Rt.Call C) : process p call rt' = .ok rt' := by
  obtain ⟨hI, hl⟩ := reach_inv hq hR
  obtain ⟨_, _, h1, h2, _⟩ := process_spec hq (run_good hq k) hl hI h
  have e1 : { rt' with snap := rt'.disk } = rt' := by
    have h3 : rt'.disk = rt'.snap := hd.trans h1.symm
    cases rt'
    simp only at h3
    subst h3
    rfl
  unfold process
  simp only
  rw [e1, if_pos]
  rw [hd, h2]
  exact Nat.le_refl _

/-- Processing inside a callback that runs for a new packet or under a borrow panics if there is anything new. -/
theorem process_nested {rt : RT C} (hl : rt.locked = true) (hn : rt.upto < rt.disk.logHead) (call : Rt.Call C) : process p call rt = .error .panic := by
  unfold process
  simp only
  rw [if_neg (by show ¬ rt.upto ≥ rt.disk.logHead; omega), if_pos hl]

/-! ### C56 -/

theorem reach_idle {rt rt' : RT C} {o : Option (Option Nat)} (hR : Reach p rt) (h : idle p rt = .ok (rt', o)) : Reach p rt' :=
  .step (q := .idle) (a := .work o) (k := 0) hR (by unfold step; simp only [h])

theorem reach_saves {rt : RT C} (hR : Reach p rt) (es : List SaveEv) : Reach p { rt with disk := runSaves rt.disk es } := by
  induction es generalizing rt with
  | nil => exact hR
  | cons e es ih => exact ih (.step (q := .save e) (k := 0) hR rfl)

theorem idle_none {rt rt' : RT C} (h : idle p rt = .ok (rt', none)) : rt'.watches = [] ∧ rt'.pending = [] := by
  unfold idle at h
  split at h
  · cases h
  · split at h
    · cases h
    · rename_i hp
      simp only [Except.ok.injEq, Prod.mk.injEq] at h
      obtain ⟨rfl, h2⟩ := h
      have hp : rt.pending = [] := by simpa using hp
      refine ⟨?_, hp⟩
      unfold gc at h2 ⊢
      simp only at h2 ⊢
      split at h2
      · rename_i he; simpa using he
      · cases h2

/-- How `rounds` ends. -/
theorem rounds_ends {q : Option (Bytes × Nat × BitVec 32)} {late : Nat → Bool} {others : Nat → List SaveEv} {k fuel i : Nat} {rt rt' : RT C} {r : Int}
    (hR : Reach p rt) (h : rounds p (run p k) q late others fuel i rt = .ok (rt', r)) :
    Reach p rt' ∧ ((r = 0 ∧ ∃ j, late j = true) ∨
      (r = -1 ∧ ∃ id n nth w, q = some (id, n, nth) ∧ get rt'.watches id = some w ∧ w.ctx.1 = n ∧ w.nthQuery ≠ nth) ∨
      (r = 1 ∧ ((∃ id n nth, q = some (id, n, nth) ∧ ∀ w, get rt'.watches id = some w → w.ctx.1 ≠ n) ∨ (rt'.watches = [] ∧ rt'.pending = [])))) := by
  induction fuel generalizing i rt with
  | zero => unfold rounds at h; cases h
  | succ fuel ih =>
    unfold rounds at h
    cases h1 : process p (run p k) rt with
    | error e => rw [h1] at h; cases h
    | ok rt1 =>
      rw [h1] at h
      simp only at h
      have hR1 := reach_process hR h1
      cases h2 : decided rt1 q with
      | some x =>
        rw [h2] at h
        simp only [Except.ok.injEq, Prod.mk.injEq] at h
        obtain ⟨rfl, rfl⟩ := h
        refine ⟨hR1, .inr ?_⟩
        cases q with
        | none => cases h2
        | some y =>
          obtain ⟨id, n, nth⟩ := y
          unfold decided at h2
          simp only at h2
          cases hg : get rt1.watches id with
          | none =>
            rw [status, hg] at h2
            simp only [Option.map_none, Option.some.injEq] at h2
            exact .inr ⟨h2.symm, .inl ⟨id, n, nth, rfl, fun w hw => by cases (hg ▸ hw : none = some w)⟩⟩
          | some w =>
            rw [status, hg] at h2
            simp only [Option.map_some] at h2
            by_cases c1 : w.ctx.1 ≠ n
            · rw [if_pos c1] at h2
              cases h2
              exact .inr ⟨rfl, .inl ⟨id, n, nth, rfl, fun w' hw => by rw [hg] at hw; cases hw; exact c1⟩⟩
            · rw [if_neg c1] at h2
              by_cases c2 : w.nthQuery ≠ nth
              · rw [if_pos c2] at h2
                cases h2
                exact .inl ⟨rfl, id, n, nth, w, rfl, hg, by simpa using c1, c2⟩
              · rw [if_neg c2] at h2; cases h2
      | none =>
        rw [h2] at h
        simp only at h
        by_cases hl : late i = true
        · rw [if_pos hl] at h
          cases h
          exact ⟨hR1, .inl ⟨rfl, i, hl⟩⟩
        · rw [if_neg hl] at h
          cases h3 : idle p rt1 with
          | error e => rw [h3] at h; cases h
          | ok y =>
            obtain ⟨rt2, o⟩ := y
            rw [h3] at h
            have hR2 := reach_idle hR1 h3
            cases o with
            | none =>
              simp only [Except.ok.injEq, Prod.mk.injEq] at h
              obtain ⟨rfl, rfl⟩ := h
              exact ⟨hR2, .inr (.inr ⟨rfl, .inr (idle_none h3)⟩)⟩
            | some t => exact ih (reach_saves hR2 _) h

/-- C56: `run_while` ends with 0 only when the time is up, with -1 only if the watch is still there and has counted
packets, and with 1 only if the watch is not there any more or nothing is watched. -/
theorem run_while_ends {id : Option Bytes} {late : Nat → Bool} {others : Nat → List SaveEv} {k fuel : Nat} {rt rt' : RT C} {r : Int} (hR : Reach p rt)
    (h : runWhile p (run p k) id late others fuel rt = some (.ok (rt', r))) :
    Reach p rt' ∧ ((r = 0 ∧ ∃ j, late j = true) ∨
      (r = -1 ∧ ∃ i w w', id = some i ∧ get rt.watches i = some w ∧ get rt'.watches i = some w' ∧ w'.ctx.1 = w.ctx.1 ∧ w'.nthQuery ≠ w.nthQuery) ∨
      (r = 1 ∧ ((∃ i w, id = some i ∧ get rt.watches i = some w ∧ ∀ w', get rt'.watches i = some w' → w'.ctx.1 ≠ w.ctx.1) ∨
        (rt'.watches = [] ∧ rt'.pending = [])))) := by
  unfold runWhile at h
  cases id with
  | none =>
    simp only [Option.some.injEq] at h
    obtain ⟨h1, h2⟩ := rounds_ends hR h
    refine ⟨h1, ?_⟩
    rcases h2 with h2 | ⟨_, _, _, _, _, h2, _⟩ | ⟨h2, ⟨_, _, _, h3, _⟩ | h3⟩
    · exact .inl h2
    · cases h2
    · cases h3
    · exact .inr (.inr ⟨h2, .inr h3⟩)
  | some i =>
    simp only at h
    cases hg : get rt.watches i with
    | none => rw [status, hg] at h; cases h
    | some w =>
      rw [status, hg] at h
      simp only [Option.map_some, Option.some.injEq] at h
      obtain ⟨h1, h2⟩ := rounds_ends hR h
      refine ⟨h1, ?_⟩
      rcases h2 with h2 | ⟨h0, _, _, _, w', h2, h3, h4, h5⟩ | ⟨h2, ⟨_, _, _, h3, h4⟩ | h3⟩
      · exact .inl h2
      · cases h2
        exact .inr (.inl ⟨h0, i, w, w', rfl, hg, h3, h4, h5⟩)
      · cases h3
        exact .inr (.inr ⟨h2, .inl ⟨i, w, rfl, hg, h4⟩⟩)
      · exact .inr (.inr ⟨h2, .inr h3⟩)

/-- Without an id and with a pending request, `run_while` goes round without waiting and without ever registering it, until
someone saves a packet or the time is up. -/
theorem run_while_spins (hq : QuietProg p) {late : Nat → Bool} {others : Nat → List SaveEv} {k : Nat} {rt : RT C} (hR : Reach p rt) (hp : rt.pending ≠ [])
    (hu : rt.upto = rt.disk.logHead) (hl : ∀ i, late i = false) (ho : ∀ i, others i = []) (fuel : Nat) :
    runWhile p (run p k) none late others fuel rt = some (.error .fuel) := by
  unfold runWhile
  simp only [Option.some.injEq]
  have key : ∀ (fuel i : Nat) (rt : RT C), rt.locked = false → rt.pending ≠ [] → rt.upto = rt.disk.logHead →
      rounds p (run p k) none late others fuel i rt = .error .fuel := by
    intro fuel
    induction fuel with
    | zero => intros; rfl
    | succ fuel ih =>
      intro i rt h1 h2 h3
      unfold rounds
      have hpr : process p (run p k) rt = .ok { rt with snap := rt.disk } := by
        unfold process
        simp only
        rw [if_pos]
        rw [h3]; exact Nat.le_refl _
      have hid : idle p ({ rt with snap := rt.disk } : RT C) = .ok ({ rt with snap := rt.disk }, some none) := by
        unfold idle
        rw [if_neg (by rw [h1]; simp), if_pos (by simpa using h2)]
      rw [hpr]
      simp only [decided, hl i, Bool.false_eq_true, if_false]
      rw [hid]
      simp only
      rw [ho i]
      exact ih _ _ h1 h2 h3
  exact key fuel 0 rt (reach_inv hq hR).2 hp hu

/-! ### cases -/

/-- The predicates of some statements. -/
def exPreds (rs : List Stmt) : Preds :=
  match Preds.default.run true rs with
  | .ok s => s
  | .error _ => .default

def exSave (now stamp : Nat) (h : UInt8) : Cmd Nat := .save ⟨fun _ => .ok, now, [(exPkt [[65]] stamp h, .pending)]⟩

/-- The state of the callback says what it does: 1 saves and processes once, 2 breaks, 3 watches again when stopped,
4 and 5 watch the id 8 or 1 when called. -/
def exProg : Prog Nat where
  handle c _ := match c with
    | 1 => .ask (exSave 200 9 7) fun _ => .ask .process fun _ => .ret 0 false
    | 2 => .ret 0 true
    | 4 => .ask (.watch [8] ⟨.log, true⟩ (exPreds []) 0) fun _ => .ret 0 false
    | 5 => .ask (.watch [1] ⟨.log, true⟩ (exPreds []) 0) fun _ => .ret 0 false
    | _ => .ret c false
  stopped c _ := match c with
    | 3 => .ask (.watch [9] ⟨.log, true⟩ (exPreds []) 0) fun _ => .ret 0 false
    | _ => .ret c false
  clock _ := 50

/-- One request after the other. -/
def exMain : List (Cmd Nat) → Act Nat
  | [] => .ret 0 false
  | q :: qs => .ask q fun _ => exMain qs

/-- The stamps given to each of the first watches; the ids registered; how many requests are pending; where processing stands. -/
def exSummary (qs : List (Cmd Nat)) : Option (List (List Nat) × List (List Nat) × Nat × Nat) :=
  match run exProg 20 (start exDb) (exMain qs) with
  | .error _ => none
  | .ok (rt, _) => some ((List.range rt.next).map (fun n => (callsTo n rt.trace).map (·.1)), rt.watches.map (fun w => w.queryId.map UInt8.toNat),
      rt.pending.length, rt.upto)

/-- The watch is given what the database has, and later what is saved. -/
theorem exRt_stream : exSummary [.watch [1] ⟨.log, true⟩ (exPreds [createStmt .greater 4]) 0, exSave 200 9 7, exSave 300 1 8, exSave 400 6 9, .process] =
    some ([[100, 101, 200, 400]], [[1]], 0, 400) := by decide +kernel

/-- A watch made inside a callback gets the packets of the database, with the one at hand, and later what is saved. -/
theorem exRt_inner : exSummary [.watch [1] ⟨.log, true⟩ (exPreds [limitStmt .index .less 0]) 4, exSave 200 9 7, .process, exSave 300 1 8, .process] =
    some ([[200, 300], [100, 101, 102, 200, 300]], [[1], [8]], 0, 300) := by decide +kernel

/-- The hypotheses of the theorems about watches are met: `exQuiet` never processes in a callback, and a watch is reached
that is not over. -/
def exQuiet : Prog Nat where
  handle c e := .ret (c + e.1) false
  stopped c _ := .ret c false
  clock _ := 50

theorem exQuiet_quiet : QuietProg exQuiet := ⟨fun _ _ => .ret _ _, fun _ _ => .ret _ _⟩

def exSteps : RT Nat → List (Cmd Nat) → Option (RT Nat)
  | rt, [] => some rt
  | rt, q :: qs =>
    match step exQuiet (run exQuiet 3) rt q with
    | .ok (rt, _) => exSteps rt qs
    | .error _ => none

theorem exSteps_reach {rt rt' : RT Nat} {qs : List (Cmd Nat)} (hR : Reach exQuiet rt) (h : exSteps rt qs = some rt') : Reach exQuiet rt' := by
  induction qs generalizing rt with
  | nil => unfold exSteps at h; cases h; exact hR
  | cons q qs ih =>
    unfold exSteps at h
    cases h1 : step exQuiet (run exQuiet 3) rt q with
    | error e => rw [h1] at h; cases h
    | ok x => rw [h1] at h; exact ih (.step hR h1) h

def exRequests : List (Cmd Nat) :=
  [.watch [1] ⟨.log, true⟩ (exPreds [createStmt .greater 4]) 0, .watch [2] ⟨.log, true⟩ (exPreds [limitStmt .query .less 1]) 0,
    exSave 200 9 7, exSave 300 1 8, exSave 400 6 9, .process]

def exGone (t : List Ev) : List (Nat × Why) := t.filterMap fun
  | .gone n w => some (n, w)
  | _ => none

theorem exRt_reached : ∃ rt, Reach exQuiet rt ∧ (callsTo 0 rt.trace).map (·.1) = [100, 101, 200, 400] ∧ (callsTo 1 rt.trace).map (·.1) = [100] ∧
    exGone rt.trace = [(1, .unmade)] ∧ rt.upto = 400 ∧ rt.disk.log.length = 6 := by
  have h : (match exSteps (start exDb) exRequests with
      | some rt => decide ((callsTo 0 rt.trace).map (·.1) = [100, 101, 200, 400] ∧ (callsTo 1 rt.trace).map (·.1) = [100] ∧
        exGone rt.trace = [(1, .unmade)] ∧ rt.upto = 400 ∧ rt.disk.log.length = 6)
      | none => false) = true := by decide +kernel
  split at h
  · rename_i rt hrt
    exact ⟨rt, exSteps_reach (.start exHistory) hrt, of_decide_eq_true h⟩
  · cases h

/-- C34 is false of programs that process in a callback: a callback in the database saves a packet and processes; its watch
never gets that packet, although it asks for everything. -/
theorem watch_misses_nested : exSummary [.watch [1] ⟨.log, true⟩ (exPreds []) 1, exSave 300 1 8, .process] =
    some ([[100, 101, 102, 300]], [[1]], 0, 300) := by decide +kernel

/-- C35 is false of requests made where nothing is new: a callback that is told of the end makes a watch, and processing
leaves it pending until the next packet. -/
theorem process_leaves_pending : exSummary [.watch [1] ⟨.log, true⟩ (exPreds []) 3, .stop [1] false, .process, .process] =
      some ([[100, 101, 102], [100, 101, 102]], [], 2, 102) ∧
    exSummary [.watch [1] ⟨.log, true⟩ (exPreds []) 3, .stop [1] false, .process, exSave 200 9 7, .process] =
      some ([[100, 101, 102], [100, 101, 102, 200]], [[9]], 0, 200) := by decide +kernel

/-- A callback that makes a watch when it is replaced stops the program if it is replaced by a callback. -/
theorem process_panics_on_replacing :
    (match run exProg 20 (start exDb) (exMain [.watch [1] ⟨.log, true⟩ (exPreds []) 3, .watch [2] ⟨.log, true⟩ (exPreds [limitStmt .index .less 0]) 5,
      exSave 200 9 7, .process]) with | .error .panic => true | _ => false) = true := by decide +kernel

/-- The reasons given to callbacks are swapped: one that breaks is told `Finish`, one that is used up `Break`. -/
theorem reasons_swapped :
    (match run exProg 20 (start exDb) (exMain [.watch [1] ⟨.log, true⟩ (exPreds [createStmt .greater 8]) 2, .watch [2] ⟨.log, true⟩ (exPreds [limitStmt .query .less 4]) 0,
      exSave 200 9 7, .process]) with | .ok (rt, _) => some (exGone rt.trace) | .error _ => none) =
    some [(0, .stopped .finish), (1, .stopped .brk)] := by decide +kernel

/-- `run_while` on an id: it returns -1 after the first packet that matches, or 1 when the watch is gone. -/
theorem exRt_while :
    (match run exProg 20 (start exDb) (exMain [.watch [1] ⟨.log, true⟩ (exPreds [createStmt .greater 8]) 2, .watch [2] ⟨.log, true⟩ (exPreds []) 0]) with
      | .ok (rt, _) => ([[1], [2]] : List Bytes).map (fun id => match runWhile exProg (run exProg 20) (some id) (fun _ => false)
          (fun i => if i = 2 then [⟨fun _ => .ok, 200, [(exPkt [[65]] 9 7, .pending)]⟩] else []) 5 rt with
        | some (.ok (_, r)) => some r
        | _ => none)
      | .error _ => []) = [some 1, some (-1)] := by decide +kernel

end Verif.Props
