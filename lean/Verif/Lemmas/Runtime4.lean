import Verif.Lemmas.Runtime3
/-!
# The invariant of the runtime: processing, watching, whole runs
-/
namespace Verif.Rt
open Verif Verif.Pkt Verif.Pred Verif.Env Verif.Query Verif.Matcher Verif.Spec

variable {C : Type} {p : Prog C} {call : Call C}

theorem Inv.asc {rt : RT C} {pos : Nat} {X : List Nat} (h : Inv rt pos X) : Asc rt.snap.log := h.snap.logSorted

theorem pendNums_append (a b : List (Pending C)) : pendNums (a ++ b) = pendNums a ++ pendNums b := List.filterMap_append
theorem pendNums_new (w : Watch (Nat × C)) (l : List (Pending C)) : pendNums (.new w :: l) = w.ctx.1 :: pendNums l := rfl
theorem pendNums_stop (i : Bytes) (r : Bool) (l : List (Pending C)) : pendNums (.stop i r :: l) = pendNums l := rfl
theorem pendNums_nil : pendNums ([] : List (Pending C)) = [] := rfl

theorem insertWatch_spec (hq : QuietProg p) (hg : Good call) {rt rt' : RT C} {pos : Nat} {X : List Nat} {w : Watch (Nat × C)}
    (h : Inv rt pos (w.ctx.1 :: X)) (he : Entry (about w.ctx.1 rt.trace) rt.snap.log (topOf rt.snap.log) w)
    (ho : insertWatch p call rt w = .ok rt') : Inv rt' pos X ∧ Rel rt rt' X := by
  unfold insertWatch at ho
  cases hl : rt.locked with
  | true =>
    rw [hl, if_pos rfl] at ho
    obtain ⟨hd, rfl⟩ := push_ok ho
    refine ⟨h.change rfl rfl rfl rfl h.sorted ?_ h.posle h.watch (fun x hx => ?_) h.free,
      ⟨rfl, rfl, rfl, rfl, Nat.le_refl _, fun _ _ => rfl, fun _ => rfl, fun hx => by rw [hd] at hx; cases hx⟩⟩
    · unfold owned
      rw [pendNums_append, pendNums_new, pendNums_nil]
      refine perm_count fun x => ?_
      simp only [List.count_append, List.count_cons, List.count_nil]
      omega
    · have hx : Pending.new x ∈ rt.pending ++ [.new w] := hx
      rcases List.mem_append.1 hx with hx | hx
      · exact h.pend x hx
      · rw [List.mem_singleton] at hx
        cases hx
        exact he
  | false =>
    rw [hl] at ho
    simp only [Bool.false_eq_true, if_false] at ho
    obtain ⟨f1, _⟩ := h.free hl
    exact lockFor_spec hl h (fun rt1 h1 hi => registerNow_spec hq hg rfl hi (by rw [f1]; exact he) h1) ho

theorem drainAll_spec (hq : QuietProg p) (hg : Good call) {xs : List (Pending C)} {rt rt' : RT C} {pos : Nat} {X : List Nat} (hl : rt.locked = true)
    (h : Inv rt pos (pendNums xs ++ X)) (he : ∀ w, .new w ∈ xs → Entry (about w.ctx.1 rt.trace) rt.snap.log pos w)
    (ho : drainAll p call rt xs = .ok rt') : Inv rt' pos X ∧ Mild rt rt' X := by
  induction xs generalizing rt with
  | nil => cases ho; exact ⟨h, Mild.refl _ _⟩
  | cons x xs ih =>
    unfold drainAll at ho
    have key : ∃ rt1, (match x with
        | .new w => registerNow p call rt w
        | .stop id range => deregisterNow p call rt id range) = .ok rt1 ∧ drainAll p call rt1 xs = .ok rt' ∧ Inv rt1 pos (pendNums xs ++ X) ∧
          Mild rt rt1 (pendNums xs ++ X) := by
      cases x with
      | new w =>
        simp only at ho ⊢
        cases hc : registerNow p call rt w with
        | error e => rw [hc] at ho; cases ho
        | ok rt1 =>
          rw [hc] at ho
          obtain ⟨i, r⟩ := registerNow_spec hq hg hl (X := pendNums xs ++ X) h (he w (by simp)) hc
          exact ⟨rt1, rfl, ho, i, r⟩
      | stop id range =>
        simp only at ho ⊢
        cases hc : deregisterNow p call rt id range with
        | error e => rw [hc] at ho; cases ho
        | ok rt1 =>
          rw [hc] at ho
          obtain ⟨i, r⟩ := deregisterNow_spec hq hg hl (X := pendNums xs ++ X) h hc
          exact ⟨rt1, rfl, ho, i, r⟩
    obtain ⟨rt1, _, ho, i1, r1⟩ := key
    obtain ⟨i2, r2⟩ := ih (r1.locked.trans hl) i1 (fun w hw => by
      rw [r1.keep w.ctx.1 (List.mem_append_left _ (List.mem_filterMap.2 ⟨_, hw, rfl⟩)), r1.snap]
      exact he w (by simp [hw])) ho
    exact ⟨i2, (r1.sub (fun y hy => List.mem_append_right _ hy)).trans r2⟩

theorem drain_spec (hq : QuietProg p) (hg : Good call) {rt rt' : RT C} {pos : Nat} {X : List Nat} (hl : rt.locked = true)
    (h : Inv { rt with draining := true, pending := [] } pos (pendNums rt.pending ++ X))
    (he : ∀ w, .new w ∈ rt.pending → Entry (about w.ctx.1 rt.trace) rt.snap.log pos w)
    (ho : drain p call rt = .ok rt') : Inv rt' pos X ∧ rt'.pending = [] ∧ rt'.locked = true ∧ rt'.draining = false ∧ rt'.snap = rt.snap ∧ rt'.upto = rt.upto := by
  unfold drain at ho
  cases hc : drainAll p call { rt with draining := true, pending := [] } rt.pending with
  | error e => rw [hc] at ho; cases ho
  | ok rt1 =>
    rw [hc] at ho
    cases ho
    obtain ⟨i, r⟩ := drainAll_spec hq hg (rt := { rt with draining := true, pending := [] }) hl h he hc
    have hp : rt1.pending = [] := r.drainP rfl
    exact ⟨i.change rfl rfl rfl rfl i.sorted (List.Perm.refl _) i.posle i.watch i.pend (fun hx => absurd ((r.locked.trans hl).symm.trans hx) (by simp)),
      hp, r.locked.trans hl, rfl, r.snap, r.upto⟩

/-! ### packets -/

theorem test_last {D : Type} {w w' : Watch D} {recv : Nat} {q : NetParts} {r : Bool × Bool} (h : w.test recv q = .ok (w', r)) : w'.lastTest = r := by
  unfold Watch.test at h
  cases ht : w.test' recv q with
  | error e => rw [ht] at h; cases h
  | ok x => rw [ht] at h; obtain ⟨a, b⟩ := x; cases h; rfl

theorem trigger_spec (hq : QuietProg p) (hg : Good call) {log : List (Nat × NetParts)} {pos : Nat} {e : Nat × NetParts} (he : e ∈ log)
    (hcut : ∀ a, a ≤ pos → between log a e.1 = between log a pos ++ [e]) (hpe : pos ≤ e.1) {m m' : Matcher (Nat × C)} {rt rt' : RT C} {X : List Nat}
    (hl : rt.locked = true) (hlog : rt.snap.log = log) (h : Inv rt pos (nums m ++ X)) (hm : ∀ w ∈ m, Entry (about w.ctx.1 rt.trace) log pos w)
    (ho : trigger (fun _ => .panic) (onMatch p call e) (onDrop p call) e.1 e.2 rt m = .ok (rt', m')) :
    Inv rt' pos (nums m' ++ X) ∧ Rel rt rt' X ∧ (∀ w ∈ m', Entry (about w.ctx.1 rt'.trace) log e.1 w) ∧
      (m'.map (fun w => w.queryId)).Sublist (m.map (fun w => w.queryId)) := by
  induction m generalizing rt m' X with
  | nil =>
    unfold trigger at ho
    cases ho
    exact ⟨h, Rel.refl _ _, fun w hw => absurd hw (by simp), List.Sublist.refl _⟩
  | cons w m ih =>
    unfold trigger at ho
    cases ht : w.test e.1 e.2 with
    | error x => rw [ht] at ho; cases ho
    | ok x =>
      obtain ⟨w1, ok, over⟩ := x
      rw [ht] at ho
      simp only at ho
      obtain ⟨t1, t2, t3, t4, t5, t6⟩ := test_id ht
      have t7 := test_last ht
      -- the call
      have key : ∃ rt3 c bk, (if ok then onMatch p call e rt w1.ctx else .ok (rt, w1.ctx, false)) = .ok (rt3, (w.ctx.1, c), bk) ∧
          Inv rt3 pos (w.ctx.1 :: (nums m ++ X)) ∧ Rel rt rt3 (nums m ++ X) ∧
          about w.ctx.1 rt3.trace = about w.ctx.1 rt.trace ++ (if ok then [.call w.ctx.1 e] else []) ++ (if bk then [.broke w.ctx.1] else []) ∧
          (bk = true → ok = true) := by
        cases ok with
        | false => exact ⟨rt, w.ctx.2, false, by rw [t4]; rfl, h, Rel.refl _ _, by simp, by simp⟩
        | true =>
          simp only [if_true] at ho ⊢
          have hun : ∀ d : Nat × C, onMatch p call e rt d = match call (rt.note (.call d.1 e)) (p.handle d.2 e) with
              | .error x => .error x
              | .ok (rt, c', b) => .ok (if b then rt.note (.broke d.1) else rt, (d.1, c'), b) := fun _ => rfl
          rw [t4] at ho ⊢
          rw [hun] at ho ⊢
          cases hc : call (rt.note (.call w.ctx.1 e)) (p.handle w.ctx.2 e) with
          | error y => rw [hc] at ho; cases ho
          | ok y =>
            obtain ⟨rt2, c, bk⟩ := y
            simp only
            have h1 : Inv (rt.note (.call w.ctx.1 e)) pos (w.ctx.1 :: (nums m ++ X)) := Inv.note (X := w.ctx.1 :: (nums m ++ X)) h (by simp [Ev.num])
            obtain ⟨i2, r2⟩ := hg _ _ _ _ _ _ (hq.1 _ _) h1 hc
            have hnd := h1.nodupX
            rw [List.nodup_cons] at hnd
            have hk : ∀ x ∈ nums m ++ X, about x rt2.trace = about x rt.trace := by
              intro x hx
              rw [r2.keep x (by simp [hx]), note_ne]
              intro hx'
              have hx' : w.ctx.1 = x := hx'
              exact hnd.1 (hx' ▸ hx)
            have ha : about w.ctx.1 rt2.trace = about w.ctx.1 rt.trace ++ [.call w.ctx.1 e] := by
              rw [r2.keep w.ctx.1 (by simp), note_eq (n := w.ctx.1) _ rfl]
            refine ⟨_, c, bk, rfl, ?_⟩
            cases bk with
            | false =>
              refine ⟨i2, ⟨r2.locked, r2.draining, r2.snap, r2.upto, r2.next, hk, r2.lockW, r2.drainP⟩, ?_, fun _ => trivial⟩
              rw [if_neg (by simp), if_neg (by simp), List.append_nil, ha]
            | true =>
              refine ⟨i2.note (by simp [Ev.num]), ⟨r2.locked, r2.draining, r2.snap, r2.upto, r2.next, fun x hx => ?_, r2.lockW, r2.drainP⟩, ?_, fun _ => trivial⟩
              · rw [if_pos rfl, note_ne, hk x hx]
                intro hx'
                have hx' : w.ctx.1 = x := hx'
                exact hnd.1 (hx' ▸ hx)
              · rw [if_pos rfl, note_eq (n := w.ctx.1) _ rfl, ha]
                simp
      obtain ⟨rt3, c, bk, hcall, i3, r3, ha3, hbk⟩ := key
      rw [hcall] at ho
      simp only at ho
      obtain ⟨b, w0, out, b1, b2, b3, b4, b5, b6, b7, b8⟩ := hm w (by simp)
      have htb := test_bare ht
      have hrest : ∀ v ∈ m, Entry (about v.ctx.1 rt3.trace) log pos v := fun v hv => by
        rw [r3.keep v.ctx.1 (List.mem_append_left _ (List.mem_map_of_mem hv))]
        exact hm v (by simp [hv])
      have ha4 : about w.ctx.1 rt3.trace = b.hist (b.found ++ out ++ (if ok then [e] else [])) ++ (if bk then [.broke w.ctx.1] else []) := by
        rw [ha3, b8]
        cases ok <;> simp [Birth.hist, b2]
      cases hbo : bk || over with
      | true =>
        rw [hbo, if_pos rfl] at ho
        cases hd : onDrop p call rt3 { w1 with ctx := (w.ctx.1, c) } with
        | error y => rw [hd] at ho; cases ho
        | ok rt4 =>
          rw [hd] at ho
          unfold onDrop at hd
          simp only at hd
          have hdone : Done (about w.ctx.1 rt3.trace ++ [.gone w.ctx.1 (.stopped (if w1.lastTest.2 then .brk else .finish))]) rt3.snap.log w.ctx.1 := by
            rw [r3.snap, hlog]
            refine ⟨b, b.found ++ out ++ (if ok then [e] else []), bk, _, b1, b2, b5, by rw [ha4], ?_⟩
            rw [t7]
            cases over with
            | true => exact ⟨w0, pos, bare w, out, bare w1, e, ok, true, b4, b6, he, hcut _ b6, b7, htb, rfl, hbk, rfl⟩
            | false =>
              refine ⟨w0, pos, bare w, out, bare w1, e, ok, false, b4, b6, he, hcut _ b6, b7, htb, rfl, hbk, rfl, ?_⟩
              simpa using hbo
          obtain ⟨i4, r4⟩ := dropWatch_spec hq hg (w := { w1 with ctx := (w.ctx.1, c) }) (X := nums m ++ X) i3 hdone hd
          obtain ⟨i5, r5, e5, s5⟩ := ih (r4.locked.trans (r3.locked.trans hl)) (by rw [r4.snap, r3.snap]; exact hlog) i4 (fun v hv => by
            rw [r4.keep v.ctx.1 (List.mem_append_left _ (List.mem_map_of_mem hv))]; exact hrest v hv) ho
          exact ⟨i5, ((r3.trans r4).sub (fun y hy => List.mem_append_right _ hy)).trans r5, e5, s5.cons _⟩
      | false =>
        rw [hbo] at ho
        simp only [Bool.false_eq_true, if_false] at ho
        rw [Bool.or_eq_false_iff] at hbo
        obtain ⟨rfl, rfl⟩ := hbo
        cases hr : trigger (fun _ => .panic) (onMatch p call e) (onDrop p call) e.1 e.2 rt3 m with
        | error y => rw [hr] at ho; cases ho
        | ok y =>
          obtain ⟨rt4, m2⟩ := y
          rw [hr] at ho
          cases ho
          have hp : ∀ l : List Nat, (l ++ w.ctx.1 :: X).Perm (w.ctx.1 :: (l ++ X)) := fun l => List.perm_middle
          obtain ⟨i4, r4, e4, s4⟩ := ih (X := w.ctx.1 :: X) (r3.locked.trans hl) (by rw [r3.snap]; exact hlog) (i3.perm (hp _)) hrest hr
          refine ⟨i4.perm (hp _).symm, (r3.sub (fun y hy => List.mem_append_right _ hy)).trans (r4.sub (fun y hy => by simp [hy])), ?_, ?_⟩
          · intro v hv
            rcases List.mem_cons.1 hv with rfl | hv
            · show Entry (about w.ctx.1 rt'.trace) log e.1 _
              rw [r4.keep w.ctx.1 (by simp), ha4]
              refine ⟨b, w0, out ++ (if ok then [e] else []), b1, b2, b3.trans t1.symm, b4, b5, Nat.le_trans b6 hpe, ?_, ?_⟩
              · rw [hcut _ b6]
                exact b7.snoc htb
              · simp
            · exact e4 v hv
          · rw [List.map_cons, List.map_cons]
            show (w1.queryId :: _).Sublist _
            rw [t1]
            exact s4.cons_cons _

theorem sorted_of_ids {m : Matcher (Nat × C)} : Sorted m ↔ (m.map (fun w => w.queryId)).Pairwise (fun a b => bytesLt a b = true) := by
  unfold Sorted
  rw [List.pairwise_map]

theorem pktLoop_spec (hq : QuietProg p) (hg : Good call) {es P : List (Nat × NetParts)} {rt rt' : RT C} {pos : Nat} {X : List Nat} (hl : rt.locked = true)
    (hlog : rt.snap.log = P ++ es) (hP : ∀ x ∈ P, x.1 ≤ pos) (hes : ∀ x ∈ es, pos < x.1) (h : Inv rt pos X)
    (ho : pktLoop p call rt es = .ok rt') : Inv rt' ((es.getLast?.map (·.1)).getD pos) X ∧ Mild rt rt' X := by
  induction es generalizing P rt pos with
  | nil => cases ho; exact ⟨h, Mild.refl _ _⟩
  | cons e es ih =>
    unfold pktLoop at ho
    have hs := h.asc
    rw [hlog] at hs
    have hpe := hes e (by simp)
    have h0 : Inv { rt with watches := [] } pos (nums rt.watches ++ X) := by
      refine h.change rfl rfl rfl rfl .nil ?_ h.posle (fun w hw => by cases hw) h.pend (fun hx => absurd (hl.symm.trans hx) (by simp))
      unfold owned
      refine perm_count fun x => ?_
      simp only [nums_nil, List.count_append, List.count_nil]
      omega
    cases hc : trigger (fun _ => .panic) (onMatch p call e) (onDrop p call) e.1 e.2 { rt with watches := [] } rt.watches with
    | error x => rw [hc] at ho; cases ho
    | ok y =>
      obtain ⟨rt1, m⟩ := y
      rw [hc] at ho
      simp only at ho
      obtain ⟨i1, r1, e1, s1⟩ := trigger_spec hq hg (log := rt.snap.log) (e := e) (by rw [hlog]; simp)
        (fun a ha => by rw [hlog]; exact between_snoc hs hP hpe ha) (Nat.le_of_lt hpe) (rt := { rt with watches := [] }) hl rfl h0 h.watch hc
      have hw1 : rt1.watches = [] := r1.lockW hl
      have hsn : rt1.snap = rt.snap := r1.snap
      have i2 : Inv { rt1 with watches := m } e.1 X := by
        refine i1.change rfl rfl rfl rfl ?_ ?_ ?_ (by rw [hsn]; exact e1) i1.pend (fun hx => absurd ((r1.locked.trans hl).symm.trans hx) (by simp))
        · exact sorted_of_ids.2 ((sorted_of_ids.1 h.sorted).sublist s1)
        · unfold owned
          rw [hw1]
          refine perm_count fun x => ?_
          simp only [nums_nil, List.count_append, List.count_nil]
          omega
        · rw [hsn]
          exact top_ge h.asc (by rw [hlog]; simp)
      obtain ⟨i3, r3⟩ := ih (P := P ++ [e]) (rt := { rt1 with watches := m }) (pos := e.1) (r1.locked.trans hl)
        (by show rt1.snap.log = _; rw [hsn, hlog]; simp)
        (fun x hx => by
          rcases List.mem_append.1 hx with hx | hx
          · have := hP x hx; omega
          · rw [List.mem_singleton] at hx; rw [hx]; exact Nat.le_refl _)
        (fun x hx => by
          have := (List.pairwise_append.1 hs).2.1
          rw [List.pairwise_cons] at this
          exact this.1 x hx) i2 ho
      refine ⟨?_, ⟨r3.locked.trans r1.locked, r3.draining.trans r1.draining, r3.snap.trans r1.snap, r3.upto.trans r1.upto, Nat.le_trans r1.next r3.next,
        fun x hx => (r3.keep x hx).trans (r1.keep x hx), fun hx => (r3.drainP (r1.draining.trans hx)).trans (r1.drainP hx)⟩⟩
      have : (((e :: es).getLast?.map (·.1)).getD pos) = ((es.getLast?.map (·.1)).getD e.1) := by
        rw [List.getLast?_cons]
        cases es.getLast? <;> rfl
      rw [this]
      exact i3

/-! ### process -/

theorem after_log {db : Db} (hc : Consistent db) {k : Nat} : ∃ P, db.log = P ++ db.logFrom k ∧ (∀ x ∈ P, x.1 < k) ∧ ∀ x ∈ db.logFrom k, k ≤ x.1 := by
  refine ⟨db.log.takeWhile (fun e => decide (e.1 < k)), ?_, ?_, ?_⟩
  · exact (List.takeWhile_append_dropWhile (p := fun e : Nat × NetParts => decide (e.1 < k)) (l := db.log)).symm
  · intro x hx
    have := List.all_eq_true.1 (List.all_takeWhile (p := fun e : Nat × NetParts => decide (e.1 < k)) (l := db.log)) x hx
    simpa using this
  · intro x hx
    unfold Db.logFrom at hx
    rw [Query.dropWhile_filter] at hx
    · have := (List.mem_filter.1 hx).2
      simpa using this
    · refine hc.logSorted.imp ?_
      intro a b hab hb
      rw [decide_eq_true_iff] at hb ⊢
      omega

/-- `process` from outside callbacks. -/
theorem process_spec (hq : QuietProg p) (hg : Good call) {rt rt' : RT C} (hl : rt.locked = false) (h : Inv rt rt.upto [])
    (ho : process p call rt = .ok rt') : Inv rt' rt'.upto [] ∧ rt'.locked = false ∧ rt'.snap = rt.disk ∧ rt'.upto = topOf rt.disk.log ∧
      (rt.upto < topOf rt.disk.log → rt'.pending = []) ∧ (¬ rt.upto < topOf rt.disk.log → rt' = { rt with snap := rt.disk }) := by
  obtain ⟨f1, _, f3⟩ := h.free hl
  have hmono := top_mono h.pre h.disk.logSorted
  unfold process at ho
  simp only at ho
  by_cases hge : rt.upto ≥ rt.disk.logHead
  · rw [if_pos hge] at ho
    cases ho
    have hge : rt.upto ≥ topOf rt.disk.log := hge
    have htop : rt.upto = topOf rt.disk.log := by omega
    refine ⟨?_, hl, rfl, htop, fun hx => by omega, fun _ => rfl⟩
    refine ⟨h.disk, h.disk, ⟨[], List.append_nil _⟩, h.sorted, h.own, h.lt, h.fresh, Nat.le_of_eq htop,
      fun w hw => (h.watch w hw).mono h.pre h.disk.logSorted h.posle, fun w hw => ?_, fun _ => ⟨htop, rfl, f3⟩,
      fun n hn ho => (h.done n hn ho).mono h.pre h.disk.logSorted⟩
    show Entry _ rt.disk.log (topOf rt.disk.log) w
    have := (h.pend w hw).mono h.pre h.disk.logSorted (Nat.le_refl _)
    rwa [← f1, htop] at this
  · rw [if_neg hge, hl] at ho
    simp only [Bool.false_eq_true, if_false] at ho
    have hge : ¬ rt.upto ≥ topOf rt.disk.log := hge
    cases hd1 : drain p call { rt with snap := rt.disk, locked := true } with
    | error x => rw [hd1] at ho; cases ho
    | ok rt1 =>
      rw [hd1] at ho
      simp only at ho
      have h1 : Inv { rt with snap := rt.disk, locked := true, draining := true, pending := [] } rt.upto (pendNums rt.pending ++ []) := by
        have hperm : (owned ({ rt with snap := rt.disk, locked := true, draining := true, pending := [] } : RT C) (pendNums rt.pending ++ [])).Perm
            (owned rt []) := by
          unfold owned
          simp [pendNums_nil]
        exact ⟨h.disk, h.disk, ⟨[], List.append_nil _⟩, h.sorted, hperm.nodup_iff.2 h.own, fun n hn => h.lt n (hperm.mem_iff.1 hn), h.fresh,
          by show rt.upto ≤ topOf rt.disk.log; omega, fun w hw => (h.watch w hw).mono h.pre h.disk.logSorted h.posle, fun w hw => (by cases hw),
          fun hx => (by cases hx), fun n hn ho => (h.done n hn (fun hx => ho (hperm.mem_iff.2 hx))).mono h.pre h.disk.logSorted⟩
      obtain ⟨i1, p1, l1, d1, s1, u1⟩ := drain_spec hq hg (rt := { rt with snap := rt.disk, locked := true }) rfl h1 (fun w hw => by
        have := (h.pend w hw).mono h.pre h.disk.logSorted (Nat.le_refl _)
        rwa [← f1] at this) hd1
      have s1 : rt1.snap = rt.disk := s1
      have u1 : rt1.upto = rt.upto := u1
      rw [u1, s1] at ho
      unfold Db.pktsAfter at ho
      by_cases hov : rt.upto + 1 < u64End
      · rw [if_pos hov] at ho
        simp only at ho
        obtain ⟨P, hP1, hP2, hP3⟩ := after_log h.disk (k := rt.upto + 1)
        generalize hes : rt.disk.logFrom (rt.upto + 1) = es at ho hP1 hP3
        cases hpl : pktLoop p call rt1 es with
        | error x => rw [hpl] at ho; cases ho
        | ok rt2 =>
          rw [hpl] at ho
          simp only at ho
          obtain ⟨i2, m2⟩ := pktLoop_spec hq hg (P := P) l1 (by rw [s1]; exact hP1) (fun x hx => by have := hP2 x hx; omega)
            (fun x hx => hP3 x hx) i1 hpl
          have hne : es ≠ [] := by
            intro hx
            rw [hx, List.append_nil] at hP1
            have hn : rt.disk.log ≠ [] := by
              intro hx
              rw [hx, top_nil] at hge; omega
            obtain ⟨y, hy1, hy2⟩ := top_mem hn
            rw [hP1] at hy1
            have := hP2 y hy1
            omega
          have hlast : (es.getLast?.map (·.1)).getD rt.upto = topOf rt.disk.log ∧ ∀ k, (es.getLast?.map (·.1)).getD k = topOf rt.disk.log := by
            have : ∀ k, (es.getLast?.map (·.1)).getD k = topOf rt.disk.log := by
              intro k
              unfold topOf lastStamp
              rw [hP1, List.getLast?_append]
              cases hx : es.getLast? with
              | none => rw [List.getLast?_eq_none_iff] at hx; exact absurd hx hne
              | some y => rfl
            exact ⟨this _, this⟩
          rw [hlast.1] at i2
          have s2 : rt2.snap = rt.disk := m2.snap.trans s1
          cases hd2 : drain p call rt2 with
          | error x => rw [hd2] at ho; cases ho
          | ok rt3 =>
            rw [hd2] at ho
            simp only [Except.ok.injEq] at ho
            have l2 : rt2.locked = true := m2.locked.trans l1
            obtain ⟨i3, p3, l3, d3, s3, u3⟩ := drain_spec hq hg (X := []) l2 (by
              refine i2.change rfl rfl rfl rfl i2.sorted ?_ i2.posle i2.watch (fun w hw => by cases hw) (fun hx => absurd (l2.symm.trans hx) (by simp))
              unfold owned
              simp [pendNums_nil]) (fun w hw => by
                have := i2.pend w hw
                rwa [s2] at this ⊢) hd2
            subst ho
            refine ⟨?_, rfl, s3.trans s2, hlast.2 _, fun _ => p3, fun hx => absurd (by omega : rt.upto < topOf rt.disk.log) hx⟩
            rw [hlast.2]
            refine i3.change rfl rfl rfl rfl i3.sorted (List.Perm.refl _) ?_ i3.watch i3.pend (fun _ => ⟨?_, rfl, d3⟩)
            · exact i3.posle
            · rw [s3, s2]
      · rw [if_neg hov] at ho; cases ho

end Verif.Rt
