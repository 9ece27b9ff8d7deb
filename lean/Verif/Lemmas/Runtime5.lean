import Verif.Lemmas.Runtime4
/-!
# The invariant of the runtime: watching and whole runs
-/
namespace Verif.Rt
open Verif Verif.Pkt Verif.Pred Verif.Env Verif.Query Verif.Matcher Verif.Spec

variable {C : Type} {p : Prog C} {call : Call C}

theorem dbCalls_spec (hq : QuietProg p) (hg : Good call) {b : Birth} {n : Nat} (hn : b.num = n) {l given : List (Nat × NetParts)} {rt rt' : RT C} {pos : Nat}
    {X : List Nat} {c c' : C} {bk : Bool} (h : Inv rt pos (n :: X)) (ha : about n rt.trace = b.hist given) (ho : dbCalls p call n rt c l = .ok (rt', c', bk)) :
    Inv rt' pos (n :: X) ∧ Rel rt rt' X ∧ ∃ calls, calls <+: l ∧ about n rt'.trace = b.hist (given ++ calls) ++ (if bk then [.broke n] else []) ∧
      (bk = false → calls = l) ∧ (bk = true → calls ≠ []) := by
  induction l generalizing rt given c with
  | nil =>
    cases ho
    exact ⟨h, Rel.refl _ _, [], List.prefix_refl _, by simp [ha], fun _ => rfl, fun hx => by cases hx⟩
  | cons e l ih =>
    unfold dbCalls at ho
    have h1 : Inv (rt.note (.call n e)) pos (n :: X) := Inv.note h (by simp [Ev.num])
    have hnd := h.nodupX
    rw [List.nodup_cons] at hnd
    have hne : ∀ x ∈ X, n ≠ x := fun x hx hx' => hnd.1 (hx' ▸ hx)
    have hh : b.hist given ++ [.call n e] = b.hist (given ++ [e]) := by simp [Birth.hist, hn]
    cases hc : call (rt.note (.call n e)) (p.handle c e) with
    | error y => rw [hc] at ho; cases ho
    | ok y =>
      obtain ⟨rt1, c1, bk1⟩ := y
      rw [hc] at ho
      obtain ⟨i1, r1⟩ := hg _ _ _ _ _ _ (hq.1 _ _) h1 hc
      have hk : ∀ x ∈ X, about x rt1.trace = about x rt.trace := fun x hx => by
        rw [r1.keep x (by simp [hx]), note_ne]
        exact hne x hx
      have ha1 : about n rt1.trace = b.hist (given ++ [e]) := by
        rw [r1.keep n (by simp), note_eq (n := n) _ rfl, ha, hh]
      have rr : Rel rt rt1 X := ⟨r1.locked, r1.draining, r1.snap, r1.upto, r1.next, hk, r1.lockW, r1.drainP⟩
      cases bk1 with
      | true =>
        simp only [Except.ok.injEq, Prod.mk.injEq] at ho
        obtain ⟨rfl, rfl, rfl⟩ := ho
        refine ⟨i1.note (by simp [Ev.num]), ⟨rr.locked, rr.draining, rr.snap, rr.upto, rr.next, fun x hx => ?_, rr.lockW, rr.drainP⟩, [e], ⟨l, rfl⟩, ?_,
          (fun hx => by cases hx), fun _ => by simp⟩
        · rw [note_ne, hk x hx]; exact hne x hx
        · rw [note_eq (n := n) _ rfl, ha1]; simp
      | false =>
        simp only at ho
        obtain ⟨i2, r2, calls, q1, q2, q3, q4⟩ := ih i1 ha1 ho
        refine ⟨i2, rr.trans r2, e :: calls, ?_, ?_, fun hx => by rw [q3 hx], fun _ => by simp⟩
        · obtain ⟨t, ht⟩ := q1
          exact ⟨t, by rw [List.cons_append, ht]⟩
        · rw [q2]; simp

theorem between_self (log : List (Nat × NetParts)) (a : Nat) : between log a a = [] := by
  unfold between
  rw [List.filter_eq_nil_iff]
  intro x _
  simp only [Bool.and_eq_true, decide_eq_true_iff]
  omega

theorem watch_spec (hq : QuietProg p) (hg : Good call) {rt rt' : RT C} {pos : Nat} {X : List Nat} {id : Bytes} {mode : Mode} {s : Preds} {c : C} {bk : Bool × Bool}
    (h : Inv rt pos X) (ho : watch p call rt id mode s c = .ok (rt', bk)) : Inv rt' pos X ∧ Rel rt rt' X := by
  unfold watch at ho
  cases hk : checkDb s with
  | error e => rw [hk] at ho; cases ho
  | ok check =>
    rw [hk] at ho
    simp only at ho
    cases hcl : close p call rt id false with
    | error e => rw [hcl] at ho; cases ho
    | ok rt0 =>
      rw [hcl] at ho
      simp only at ho
      obtain ⟨i0, r0⟩ := close_spec hq hg h hcl
      cases hp : dbPart s mode check rt0.snap with
      | error e => rw [hp] at ho; cases ho
      | ok y =>
        obtain ⟨l, nth⟩ := y
        rw [hp] at ho
        simp only at ho
        have hb : Birth.Ok ⟨rt0.next, id, mode, s, check, rt0.snap, l, nth⟩ := ⟨hk, hp, i0.snap⟩
        obtain ⟨i1, a1⟩ := i0.begin (e := .born rt0.next id mode s rt0.snap) rfl
        have hfresh : ∀ x ∈ X, rt0.next ≠ x := fun x hx hx' => by
          have := i0.lt x (List.mem_append_right _ hx)
          omega
        have r1 : Rel rt0 ({ rt0 with next := rt0.next + 1 }.note (.born rt0.next id mode s rt0.snap)) X :=
          ⟨rfl, rfl, rfl, rfl, Nat.le_succ _, fun x hx => by rw [note_ne]; exact hfresh x hx, fun _ => rfl, fun _ => rfl⟩
        cases hd : dbCalls p call rt0.next ({ rt0 with next := rt0.next + 1 }.note (.born rt0.next id mode s rt0.snap)) c l with
        | error e => rw [hd] at ho; cases ho
        | ok y =>
          obtain ⟨rt2, c2, bk2⟩ := y
          rw [hd] at ho
          obtain ⟨i2, r2, calls, q1, q2, q3, q4⟩ := dbCalls_spec hq hg (b := ⟨rt0.next, id, mode, s, check, rt0.snap, l, nth⟩) rfl (given := []) i1
            (by rw [a1]; rfl) hd
          rw [List.nil_append] at q2
          have hsn : rt2.snap = rt0.snap := r2.snap
          have rr : Rel rt rt2 X := (r0.trans r1).trans r2
          have endNote : ∀ why, Fate ⟨rt0.next, id, mode, s, check, rt0.snap, l, nth⟩ rt2.snap.log calls bk2 why →
              Inv (rt2.note (.gone rt0.next why)) pos X ∧ Rel rt (rt2.note (.gone rt0.next why)) X := by
            intro why hf
            refine ⟨Inv.finish (n := rt0.next) (i2.note (by simp [Ev.num])) ?_, ⟨rr.locked, rr.draining, rr.snap, rr.upto, rr.next, fun x hx => ?_, rr.lockW, rr.drainP⟩⟩
            · rw [note_eq (n := rt0.next) _ rfl, q2]
              exact ⟨_, calls, bk2, why, hb, rfl, by show rt0.snap.log <+: rt2.snap.log; rw [hsn]; exact List.prefix_refl _, rfl, hf⟩
            · rw [note_ne, rr.keep x hx]; exact hfresh x hx
          cases bk2 with
          | true =>
            simp only [Except.ok.injEq, Prod.mk.injEq] at ho
            obtain ⟨rfl, rfl⟩ := ho
            exact endNote .inDb ⟨rfl, q4 rfl, q1⟩
          | false =>
            simp only at ho
            cases hw : Watch.new id s nth (rt0.next, c2) with
            | error e =>
              rw [hw] at ho
              cases e with
              | panic => cases ho
              | err u =>
                simp only [Except.ok.injEq, Prod.mk.injEq] at ho
                obtain ⟨rfl, rfl⟩ := ho
                refine endNote .unmade ⟨rfl, q3 rfl, ?_⟩
                show Watch.new id s nth () = _
                rw [new_bare (c := (rt0.next, c2)), hw]
            | ok w =>
              rw [hw] at ho
              simp only at ho
              cases hi : insertWatch p call rt2 w with
              | error e => rw [hi] at ho; cases ho
              | ok rt3 =>
                rw [hi] at ho
                simp only [Except.ok.injEq, Prod.mk.injEq] at ho
                obtain ⟨rfl, rfl⟩ := ho
                obtain ⟨n1, n2, n3, n4⟩ := new_same hw
                have hn : w.ctx.1 = rt0.next := by rw [n3]
                rw [← hn] at i2 q2
                obtain ⟨i3, r3⟩ := insertWatch_spec hq hg i2 (by
                  rw [q2, q3 rfl]
                  refine ⟨⟨rt0.next, id, mode, s, check, rt0.snap, l, nth⟩, bare w, [], hb, hn.symm, n1.symm, ?_, ?_, ?_, ?_, ?_⟩
                  · show Watch.new id s nth () = _
                    rw [new_bare (c := (rt0.next, c2)), hw]
                  · show rt0.snap.log <+: rt2.snap.log
                    rw [hsn]; exact List.prefix_refl _
                  · show topOf rt0.snap.log ≤ topOf rt2.snap.log
                    rw [hsn]; exact Nat.le_refl _
                  · have : between rt2.snap.log (topOf rt0.snap.log) (topOf rt2.snap.log) = [] := by rw [hsn]; exact between_self _ _
                    show Sees _ (between rt2.snap.log (topOf rt0.snap.log) (topOf rt2.snap.log)) _ _
                    rw [this]; exact .nil
                  · show _ = Birth.hist _ (l ++ [])
                    simp [hn]) hi
                exact ⟨i3, rr.trans r3⟩

/-- Watches dropped without a word. -/
theorem collect_spec {now : Nat} {ws : List (Watch (Nat × C))} (hf : ∀ w ∈ ws, w.recv.high.toNat ≤ now) {rt : RT C} {pos : Nat} {X : List Nat} (h : Inv rt pos (nums ws ++ X))
    (he : ∀ w ∈ ws, Entry (about w.ctx.1 rt.trace) rt.snap.log pos w) :
    Inv { rt with trace := rt.trace ++ ws.map (fun w => .gone w.ctx.1 (.collected now)) } pos X ∧
      ∀ x ∈ X, about x (rt.trace ++ ws.map (fun w => .gone w.ctx.1 (.collected now))) = about x rt.trace := by
  induction ws generalizing rt with
  | nil =>
    simp only [List.map_nil, List.append_nil]
    exact ⟨h, fun _ _ => trivial⟩
  | cons w ws ih =>
    have h0 : Inv rt pos (w.ctx.1 :: (nums ws ++ X)) := h
    have hnd := h0.nodupX
    rw [List.nodup_cons] at hnd
    have hkeep : ∀ x ∈ nums ws ++ X, about x (rt.note (.gone w.ctx.1 (.collected now))).trace = about x rt.trace := fun x hx => by
      rw [note_ne]
      intro hx'
      have hx' : w.ctx.1 = x := hx'
      exact hnd.1 (hx' ▸ hx)
    have h1 : Inv (rt.note (.gone w.ctx.1 (.collected now))) pos (nums ws ++ X) := by
      refine Inv.finish (n := w.ctx.1) (h0.note (by simp [Ev.num])) ?_
      rw [note_eq (n := w.ctx.1) _ rfl]
      exact (he w (by simp)).idle h.posle (hf w (by simp))
    obtain ⟨i, k⟩ := ih (fun v hv => hf v (by simp [hv])) h1 (fun v hv => by
      rw [hkeep v.ctx.1 (List.mem_append_left _ (List.mem_map_of_mem hv))]
      exact he v (by simp [hv]))
    have e : (rt.note (.gone w.ctx.1 (.collected now))).trace ++ ws.map (fun w => Ev.gone w.ctx.1 (.collected now)) =
        rt.trace ++ (w :: ws).map (fun w => Ev.gone w.ctx.1 (.collected now)) := by
      show rt.trace ++ [_] ++ _ = _
      simp
    refine ⟨?_, fun x hx => ?_⟩
    · rw [← e]; exact i
    · rw [← e, k x hx, hkeep x (List.mem_append_right _ hx)]

theorem nums_split (m : Matcher (Nat × C)) (f : Watch (Nat × C) → Bool) : (nums (m.filter f) ++ nums (m.filter (fun w => !f w))).Perm (nums m) := by
  refine perm_count fun x => ?_
  rw [List.count_append]
  induction m with
  | nil => rfl
  | cons w m ih =>
    unfold nums at ih ⊢
    cases hf : f w <;> simp only [List.filter_cons, hf, Bool.not_true, Bool.not_false, if_true, Bool.false_eq_true, if_false, List.map_cons, List.count_cons] <;>
      omega

theorem idle_spec {rt rt' : RT C} {pos : Nat} {X : List Nat} {o : Option (Option Nat)} (h : Inv rt pos X) (ho : idle p rt = .ok (rt', o)) :
    Inv rt' pos X ∧ Rel rt rt' X := by
  unfold idle at ho
  cases hl : rt.locked with
  | true => rw [hl] at ho; cases ho
  | false =>
    rw [if_neg (by rw [hl]; simp)] at ho
    by_cases hp : (!rt.pending.isEmpty) = true
    · rw [if_pos hp] at ho
      cases ho
      exact ⟨h, Rel.refl _ _⟩
    · rw [if_neg hp] at ho
      simp only [Except.ok.injEq, Prod.mk.injEq] at ho
      obtain ⟨rfl, -⟩ := ho
      have h0 : Inv { rt with ticks := rt.ticks + 1, watches := (gc rt.watches (p.clock rt.ticks)).1 } pos
          (nums (rt.watches.filter (fun w => !decide (w.recv.high.toNat > p.clock rt.ticks))) ++ X) := by
        refine h.change rfl rfl rfl rfl (List.Pairwise.sublist List.filter_sublist h.sorted) ?_ h.posle
          (fun w hw => h.watch w (List.mem_filter.1 hw).1) h.pend h.free
        unfold owned
        have := nums_split rt.watches (fun w => decide (w.recv.high.toNat > p.clock rt.ticks))
        refine perm_count fun x => ?_
        have := this.count_eq x
        simp only [gc]
        simp only [List.count_append] at this ⊢
        omega
      obtain ⟨i, k⟩ := collect_spec (now := p.clock rt.ticks) (fun w hw => by simpa using (List.mem_filter.1 hw).2) h0 (fun w hw => h.watch w (List.mem_filter.1 hw).1)
      exact ⟨i, ⟨rfl, rfl, rfl, rfl, Nat.le_refl _, k, (fun hx => absurd (hl.symm.trans hx) (by simp)), fun _ => rfl⟩⟩

theorem save_prefix {db : Db} (hc : Consistent db) (e : SaveEv) : db.log <+: (save e.io e.now db e.pkts).disk.log :=
  Props.log_append_only hc [e]

theorem saved_spec {rt : RT C} {pos : Nat} {X : List Nat} (h : Inv rt pos X) {d : Db} (hd : Consistent d) (hp : rt.disk.log <+: d.log) :
    Inv { rt with disk := d } pos X :=
  ⟨hd, h.snap, h.pre.trans hp, h.sorted, h.own, h.lt, h.fresh, h.posle, h.watch, h.pend, h.free, h.done⟩

/-- Requests other than processing. -/
theorem step_spec (hq : QuietProg p) (hg : Good call) {rt rt' : RT C} {pos : Nat} {X : List Nat} {q : Cmd C} {a : Ans} (hne : q ≠ .process)
    (h : Inv rt pos X) (ho : step p call rt q = .ok (rt', a)) : Inv rt' pos X ∧ Rel rt rt' X := by
  cases q with
  | watch id mode s c =>
    unfold step at ho
    cases hw : watch p call rt id mode s c with
    | error e => simp only [hw] at ho; cases ho
    | ok y =>
      simp only [hw] at ho
      cases ho
      exact watch_spec hq hg h hw
  | stop id range =>
    unfold step at ho
    cases hw : close p call rt id range with
    | error e => simp only [hw] at ho; cases ho
    | ok y =>
      simp only [hw] at ho
      cases ho
      exact close_spec hq hg h hw
  | process => exact absurd rfl hne
  | idle =>
    unfold step at ho
    cases hw : idle p rt with
    | error e => simp only [hw] at ho; cases ho
    | ok y =>
      simp only [hw] at ho
      cases ho
      exact idle_spec h hw
  | save e =>
    unfold step at ho
    cases ho
    exact ⟨saved_spec h (Props.save_consistent h.disk _ _ _) (save_prefix h.disk e), ⟨rfl, rfl, rfl, rfl, Nat.le_refl _, fun _ _ => rfl, fun _ => rfl, fun _ => rfl⟩⟩
  | reader =>
    unfold step at ho
    cases ho
    exact ⟨h, Rel.refl _ _⟩

theorem run_good (hq : QuietProg p) (n : Nat) : Good (run p n) := by
  induction n with
  | zero => intro pos X rt a rt' r _ _ ho; unfold run at ho; cases ho
  | succ n ih =>
    intro pos X rt a rt' r hqa h ho
    cases hqa with
    | ret c b => unfold run at ho; cases ho; exact ⟨h, Rel.refl _ _⟩
    | @ask q k hne hk =>
      unfold run at ho
      cases hs : step p (run p n) rt q with
      | error e => rw [hs] at ho; cases ho
      | ok y =>
        obtain ⟨rt1, a1⟩ := y
        rw [hs] at ho
        obtain ⟨i1, r1⟩ := step_spec hq ih hne h hs
        obtain ⟨i2, r2⟩ := ih _ _ _ _ _ _ (hk a1) i1 ho
        exact ⟨i2, r1.trans r2⟩

theorem step_main (hq : QuietProg p) (hg : Good call) {rt rt' : RT C} {q : Cmd C} {a : Ans} (hl : rt.locked = false) (h : Inv rt rt.upto [])
    (ho : step p call rt q = .ok (rt', a)) : Inv rt' rt'.upto [] ∧ rt'.locked = false := by
  by_cases hne : q = .process
  · subst hne
    unfold step at ho
    cases hw : process p call rt with
    | error e => simp only [hw] at ho; cases ho
    | ok y =>
      simp only [hw] at ho
      cases ho
      obtain ⟨i, l, _⟩ := process_spec hq hg hl h hw
      exact ⟨i, l⟩
  · obtain ⟨i, r⟩ := step_spec hq hg hne h ho
    exact ⟨by rw [r.upto]; exact i, r.locked.trans hl⟩

theorem run_main (hq : QuietProg p) (n : Nat) {rt rt' : RT C} {a : Act C} {r : C × Bool} (hl : rt.locked = false) (h : Inv rt rt.upto [])
    (ho : run p n rt a = .ok (rt', r)) : Inv rt' rt'.upto [] ∧ rt'.locked = false := by
  induction n generalizing rt a with
  | zero => unfold run at ho; cases ho
  | succ n ih =>
    cases a with
    | ret c b => unfold run at ho; cases ho; exact ⟨h, hl⟩
    | ask q k =>
      unfold run at ho
      cases hs : step p (run p n) rt q with
      | error e => rw [hs] at ho; cases ho
      | ok y =>
        obtain ⟨rt1, a1⟩ := y
        rw [hs] at ho
        obtain ⟨i1, l1⟩ := step_main hq (run_good hq n) hl h hs
        exact ih l1 i1 ho

theorem start_inv {db : Db} (hc : Consistent db) : Inv (start db : RT C) (start db : RT C).upto [] :=
  ⟨hc, hc, List.prefix_refl _, .nil, .nil, (fun n hn => absurd hn (by simp [owned, start, nums, pendNums])), fun _ _ => rfl, Nat.le_refl _,
    (fun w hw => by cases hw), (fun w hw => by cases hw), fun _ => ⟨rfl, rfl, rfl⟩, fun n hn => by cases hn⟩

end Verif.Rt
