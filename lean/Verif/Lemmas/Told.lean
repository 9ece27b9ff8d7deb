import Verif.Spec.Told
/-! A run of a program beside the run of the one that panics when it is told of an end. -/
namespace Verif.Rt
open Verif Verif.Pkt Verif.Pred Verif.Env Verif.Query Verif.Matcher Verif.Spec

variable {C : Type} {F : Reason → Bool}

def badEv (F : Reason → Bool) : Ev → Bool
  | .gone _ why =>
    match toldFor why with
    | some r => F r
    | none => false
  | _ => false

theorem badEv_iff {e : Ev} : badEv F e = true ↔ Tells F e := by
  constructor
  · intro h
    cases e with
    | gone n why =>
      simp only [badEv] at h
      cases hw : toldFor why with
      | none => rw [hw] at h; cases h
      | some r => rw [hw] at h; exact ⟨n, why, r, rfl, hw, h⟩
    | _ => cases h
  · rintro ⟨n, why, r, rfl, hw, hF⟩
    simp only [badEv, hw]; exact hF

def badCnt (F : Reason → Bool) (t : List Ev) : Nat := (t.filter (badEv F)).length

theorem badCnt_append (t u : List Ev) : badCnt F (t ++ u) = badCnt F t + badCnt F u := by simp [badCnt]
theorem badCnt_note {rt : RT C} {e : Ev} (h : badEv F e = false) : badCnt F (rt.note e).trace = badCnt F rt.trace := by
  simp only [RT.note, badCnt_append]; simp [badCnt, h]
theorem badCnt_note_bad {rt : RT C} {e : Ev} (h : badEv F e = true) : badCnt F (rt.note e).trace = badCnt F rt.trace + 1 := by
  simp only [RT.note, badCnt_append]; simp [badCnt, h]

/-- `f` has the results of `g` without a bad event. -/
structure TRel {α : Type} (F : Reason → Bool) (pr : α → RT C) (rt : RT C) (f g : Except RStop α) : Prop where
  keep : ∀ x, g = .ok x → (pr x).locked = rt.locked ∧ badCnt F rt.trace ≤ badCnt F (pr x).trace
  iff : ∀ x, f = .ok x ↔ g = .ok x ∧ badCnt F (pr x).trace = badCnt F rt.trace

variable {α β : Type} {pr : α → RT C} {pr' : β → RT C} {rt rt2 : RT C}

theorem TRel.pure {x : α} (h1 : (pr x).locked = rt.locked) (h2 : badCnt F (pr x).trace = badCnt F rt.trace) : TRel F pr rt (.ok x) (.ok x) := by
  refine ⟨?_, ?_⟩
  · intro y hy; cases hy; exact ⟨h1, by omega⟩
  · intro y; constructor
    · intro hy; cases hy; exact ⟨rfl, h2⟩
    · exact fun h => h.1

theorem TRel.err (e e' : RStop) : TRel F pr rt (.error e) (.error e') := by
  refine ⟨fun x h => (nomatch h), fun x => ⟨fun h => (nomatch h), fun h => (nomatch h.1)⟩⟩

theorem TRel.bind {f g : Except RStop α} {K L : α → Except RStop β} (h : TRel F pr rt f g)
    (k : ∀ x, (pr x).locked = rt.locked → TRel F pr' (pr x) (K x) (L x)) : TRel F pr' rt (f.bind K) (g.bind L) := by
  cases hg : g with
  | error e =>
    refine ⟨fun x hx => (nomatch hx), fun x => ⟨fun hx => ?_, fun hx => (nomatch hx.1)⟩⟩
    cases hf : f with
    | error e => rw [hf] at hx; cases hx
    | ok y => have := ((h.iff y).1 hf).1; rw [hg] at this; cases this
  | ok y =>
    have hk := h.keep y hg
    have hb := k y hk.1
    refine ⟨?_, ?_⟩
    · intro x hx
      have := hb.keep x hx
      exact ⟨this.1.trans hk.1, by omega⟩
    · intro x
      constructor
      · intro hx
        cases hf : f with
        | error e => rw [hf] at hx; cases hx
        | ok z =>
          have hz := (h.iff z).1 hf
          have : z = y := by have := hz.1; rw [hg] at this; cases this; rfl
          subst this
          rw [hf] at hx
          have := (hb.iff x).1 hx
          exact ⟨this.1, by omega⟩
      · rintro ⟨hx, hc⟩
        have h1 := hb.keep x hx
        have hf : f = .ok y := (h.iff y).2 ⟨hg, by omega⟩
        rw [hf]
        exact (hb.iff x).2 ⟨hx, by omega⟩

theorem TRel.base {f g : Except RStop α} (h : TRel F pr rt2 f g) (h1 : rt2.locked = rt.locked) (h2 : badCnt F rt2.trace = badCnt F rt.trace) : TRel F pr rt f g := by
  refine ⟨fun x hx => ?_, fun x => ?_⟩
  · have := h.keep x hx; rw [← h1, ← h2]; exact this
  · rw [← h2]; exact h.iff x

/-- Runs of callbacks that correspond, of which the first fails when it is told. -/
structure Pair (F : Reason → Bool) (p : Prog C) (cl cp : Call C) : Prop where
  rel : ∀ rt a, TRel F (·.1) rt (cl rt a) (cp rt a)
  fails : ∀ rt c r x, rt.locked = true → F r = true → cl rt ((loud F p).stopped c r) ≠ .ok x

variable {p : Prog C} {cl cp : Call C}

theorem dropWatch_rel (hp : Pair F p cl cp) (hl : rt.locked = true) (w : Watch (Nat × C)) {why : Why} {r : Reason} (hw : toldFor why = some r) :
    TRel F id rt (dropWatch (loud F p) cl rt w why r) (dropWatch p cp rt w why r) := by
  have e : ∀ (p : Prog C) call, dropWatch p call rt w why r = (call (rt.note (.gone w.ctx.1 why)) (p.stopped w.ctx.2 r)).bind fun x => .ok x.1 := by
    intro p call; unfold dropWatch; cases call (rt.note (.gone w.ctx.1 why)) (p.stopped w.ctx.2 r) <;> rfl
  rw [e, e]
  cases hF : F r with
  | false =>
    have hs : (loud F p).stopped w.ctx.2 r = p.stopped w.ctx.2 r := by simp [loud, hF]
    rw [hs]
    have hb : badEv F (.gone w.ctx.1 why) = false := by simp only [badEv, hw]; exact hF
    exact TRel.base (TRel.bind (hp.rel _ _) fun x _ => TRel.pure rfl rfl) rfl (badCnt_note hb)
  | true =>
    have hb : badEv F (.gone w.ctx.1 why) = true := by simp only [badEv, hw]; exact hF
    have hc := badCnt_note_bad (rt := rt) hb
    have hk : ∀ x, (cp (rt.note (.gone w.ctx.1 why)) (p.stopped w.ctx.2 r)).bind (fun x => Except.ok (ε := RStop) x.1) = .ok x →
        x.locked = rt.locked ∧ badCnt F rt.trace + 1 ≤ badCnt F x.trace := by
      intro x hx
      cases hg : cp (rt.note (.gone w.ctx.1 why)) (p.stopped w.ctx.2 r) with
      | error e => rw [hg] at hx; cases hx
      | ok y =>
        rw [hg] at hx; cases hx
        have := (hp.rel _ _).keep y hg
        exact ⟨this.1, by rw [← hc]; exact this.2⟩
    refine ⟨fun x hx => ⟨(hk x hx).1, by have := (hk x hx).2; simp only [id]; omega⟩, fun x => ⟨fun hx => ?_, fun hx => ?_⟩⟩
    · cases hf : cl (rt.note (.gone w.ctx.1 why)) ((loud F p).stopped w.ctx.2 r) with
      | error e => rw [hf] at hx; cases hx
      | ok y => exact absurd hf (hp.fails _ _ _ _ hl hF)
    · have := (hk x hx.1).2
      have := hx.2
      simp only [id] at this
      omega

theorem dropWatches_rel (hp : Pair F p cl cp) {why : Why} {r : Reason} (hw : toldFor why = some r) (ws : List (Watch (Nat × C))) :
    ∀ {rt : RT C}, rt.locked = true → TRel F id rt (dropWatches (loud F p) cl why r rt ws) (dropWatches p cp why r rt ws) := by
  induction ws with
  | nil => intro rt _; exact TRel.pure rfl rfl
  | cons w ws ih =>
    intro rt hl
    have e : ∀ (p : Prog C) call, dropWatches p call why r rt (w :: ws) = (dropWatch p call rt w why r).bind fun rt => dropWatches p call why r rt ws := by
      intro p call; rw [dropWatches]; cases dropWatch p call rt w why r <;> rfl
    rw [e, e]
    exact TRel.bind (dropWatch_rel hp hl w hw) fun x hx => ih (hx.trans hl)

theorem registerNow_rel (hp : Pair F p cl cp) (hl : rt.locked = true) (w : Watch (Nat × C)) :
    TRel F id rt (registerNow (loud F p) cl rt w) (registerNow p cp rt w) := by
  have hn : ∀ (m : Matcher (Nat × C)) (b : Bool) (now : Nat),
      (if b then ({ rt with ticks := rt.ticks + 1, watches := m } : RT C) else RT.note { rt with ticks := rt.ticks + 1, watches := m } (.gone w.ctx.1 (.late now))).locked = rt.locked ∧
      badCnt F (if b then ({ rt with ticks := rt.ticks + 1, watches := m } : RT C) else RT.note { rt with ticks := rt.ticks + 1, watches := m } (.gone w.ctx.1 (.late now))).trace = badCnt F rt.trace := by
    intro m b now
    cases b with
    | true => exact ⟨rfl, rfl⟩
    | false => exact ⟨rfl, badCnt_note (rt := { rt with ticks := rt.ticks + 1, watches := m }) rfl⟩
  unfold registerNow
  have hc : (loud F p).clock = p.clock := rfl
  dsimp only
  rw [hc]
  have h := hn (register (p.clock rt.ticks) rt.watches w).1 (decide (w.recv.high.toNat > p.clock rt.ticks)) (p.clock rt.ticks)
  simp only [decide_eq_true_eq] at h
  cases (register (p.clock rt.ticks) rt.watches w).2 with
  | none => exact TRel.pure h.1 h.2
  | some o => exact TRel.base (dropWatch_rel hp (h.1.trans hl) o rfl) h.1 h.2

theorem deregisterNow_rel (hp : Pair F p cl cp) (hl : rt.locked = true) (id' : Bytes) (range : Bool) :
    TRel F id rt (deregisterNow (loud F p) cl rt id' range) (deregisterNow p cp rt id' range) := by
  unfold deregisterNow
  exact TRel.base (dropWatches_rel hp (why := .closed id' range) rfl _ (rt := { rt with watches := (deregister rt.watches id' range).1 }) hl) rfl rfl

theorem push_rel (x : Pending C) : TRel F id rt (rt.push x) (rt.push x) := by
  unfold RT.push
  split
  · exact TRel.err _ _
  · exact TRel.pure rfl rfl

theorem lockFor_rel {f g : RT C → Except RStop (RT C)} (hl : rt.locked = false) (h : TRel F id { rt with locked := true } (f { rt with locked := true }) (g { rt with locked := true })) :
    TRel F id rt (lockFor f rt) (lockFor g rt) := by
  have e : ∀ f : RT C → Except RStop (RT C), lockFor f rt = (f { rt with locked := true }).bind fun rt => .ok { rt with locked := false } := by
    intro f; unfold lockFor; cases f { rt with locked := true } <;> rfl
  rw [e, e]
  generalize f { rt with locked := true } = f at h
  generalize g { rt with locked := true } = g at h
  refine ⟨?_, ?_⟩
  · intro x hx
    cases g with
    | error e => cases hx
    | ok y => cases hx; exact ⟨hl.symm, (h.keep y rfl).2⟩
  · intro x
    constructor
    · intro hx
      cases f with
      | error e => cases hx
      | ok y => cases hx; have := (h.iff y).1 rfl; rw [this.1]; exact ⟨rfl, this.2⟩
    · rintro ⟨hx, hc⟩
      cases g with
      | error e => cases hx
      | ok y => cases hx; rw [(h.iff y).2 ⟨rfl, hc⟩]; rfl

theorem insertWatch_rel (hp : Pair F p cl cp) (rt : RT C) (w : Watch (Nat × C)) : TRel F id rt (insertWatch (loud F p) cl rt w) (insertWatch p cp rt w) := by
  unfold insertWatch
  cases hl : rt.locked with
  | true => simp only [if_true]; exact push_rel _
  | false => simp only [Bool.false_eq_true, if_false]; exact lockFor_rel hl (registerNow_rel hp rfl w)

theorem close_rel (hp : Pair F p cl cp) (rt : RT C) (id' : Bytes) (range : Bool) : TRel F id rt (close (loud F p) cl rt id' range) (close p cp rt id' range) := by
  unfold close
  cases hl : rt.locked with
  | true => simp only [if_true]; exact push_rel _
  | false => simp only [Bool.false_eq_true, if_false]; exact lockFor_rel hl (deregisterNow_rel hp rfl id' range)

theorem drainAll_rel (hp : Pair F p cl cp) (xs : List (Pending C)) : ∀ {rt : RT C}, rt.locked = true → TRel F id rt (drainAll (loud F p) cl rt xs) (drainAll p cp rt xs) := by
  induction xs with
  | nil => intro rt _; exact TRel.pure rfl rfl
  | cons x xs ih =>
    intro rt hl
    cases x with
    | new w =>
      have e : ∀ (p : Prog C) call, drainAll p call rt (.new w :: xs) = (registerNow p call rt w).bind fun rt => drainAll p call rt xs := by
        intro p call; rw [drainAll]; cases registerNow p call rt w <;> rfl
      rw [e, e]
      exact TRel.bind (registerNow_rel hp hl w) fun x hx => ih (hx.trans hl)
    | stop i r =>
      have e : ∀ (p : Prog C) call, drainAll p call rt (.stop i r :: xs) = (deregisterNow p call rt i r).bind fun rt => drainAll p call rt xs := by
        intro p call; rw [drainAll]; cases deregisterNow p call rt i r <;> rfl
      rw [e, e]
      exact TRel.bind (deregisterNow_rel hp hl i r) fun x hx => ih (hx.trans hl)

theorem drain_rel (hp : Pair F p cl cp) (hl : rt.locked = true) : TRel F id rt (drain (loud F p) cl rt) (drain p cp rt) := by
  have e : ∀ (p : Prog C) call, drain p call rt = (drainAll p call { rt with draining := true, pending := [] } rt.pending).bind fun rt => .ok { rt with draining := false } := by
    intro p call; unfold drain; cases drainAll p call { rt with draining := true, pending := [] } rt.pending <;> rfl
  rw [e, e]
  exact TRel.base (TRel.bind (drainAll_rel hp _ (rt := { rt with draining := true, pending := [] }) hl) fun x _ => TRel.pure rfl rfl) rfl rfl

theorem onMatch_rel (hp : Pair F p cl cp) (e : Nat × NetParts) (rt : RT C) (c : Nat × C) :
    TRel F (·.1) rt (onMatch (loud F p) cl e rt c) (onMatch p cp e rt c) := by
  have h : ∀ (p : Prog C) call, onMatch p call e rt c = (call (rt.note (.call c.1 e)) (p.handle c.2 e)).bind fun x =>
      .ok (if x.2.2 then x.1.note (.broke c.1) else x.1, (c.1, x.2.1), x.2.2) := by
    intro p call; unfold onMatch; cases call (rt.note (.call c.1 e)) (p.handle c.2 e) <;> rfl
  rw [h, h]
  refine TRel.base (TRel.bind (hp.rel _ _) fun x _ => ?_) (rt2 := rt.note (.call c.1 e)) rfl (badCnt_note rfl)
  refine TRel.pure ?_ ?_ <;> dsimp only <;> split
  · rfl
  · rfl
  · exact badCnt_note rfl
  · rfl

theorem onDrop_rel (hp : Pair F p cl cp) (hl : rt.locked = true) (w : Watch (Nat × C)) : TRel F id rt (onDrop (loud F p) cl rt w) (onDrop p cp rt w) := by
  unfold onDrop
  exact dropWatch_rel hp hl w rfl

theorem trigger_rel (hp : Pair F p cl cp) (e : Nat × NetParts) (m : Matcher (Nat × C)) : ∀ {rt : RT C}, rt.locked = true →
    TRel F (·.1) rt (trigger (fun _ => .panic) (onMatch (loud F p) cl e) (onDrop (loud F p) cl) e.1 e.2 rt m)
      (trigger (fun _ => .panic) (onMatch p cp e) (onDrop p cp) e.1 e.2 rt m) := by
  induction m with
  | nil => intro rt _; exact TRel.pure rfl rfl
  | cons w m ih =>
    intro rt hl
    cases ht : w.test e.1 e.2 with
    | error x =>
      have h : ∀ (p : Prog C) call, trigger (fun _ => RStop.panic) (onMatch p call e) (onDrop p call) e.1 e.2 rt (w :: m) = .error .panic := by
        intro p call; rw [trigger, ht]
      rw [h, h]; exact TRel.err _ _
    | ok x =>
      obtain ⟨w', ok, over⟩ := x
      have h : ∀ (p : Prog C) call, trigger (fun _ => RStop.panic) (onMatch p call e) (onDrop p call) e.1 e.2 rt (w :: m) =
          (if ok then onMatch p call e rt w'.ctx else .ok (rt, w'.ctx, false)).bind fun y =>
            if (y.2.2 || over) = true then (onDrop p call y.1 { w' with ctx := y.2.1 }).bind fun s => trigger (fun _ => RStop.panic) (onMatch p call e) (onDrop p call) e.1 e.2 s m
            else (trigger (fun _ => RStop.panic) (onMatch p call e) (onDrop p call) e.1 e.2 y.1 m).bind fun z => .ok (z.1, { w' with ctx := y.2.1 } :: z.2) := by
        intro p call
        rw [trigger, ht]
        dsimp only
        cases (if ok then onMatch p call e rt w'.ctx else .ok (rt, w'.ctx, false)) with
        | error _ => rfl
        | ok y =>
          obtain ⟨s, c, b⟩ := y
          dsimp only [Except.bind]
          split
          · cases onDrop p call s { w' with ctx := c } <;> rfl
          · cases trigger (fun _ => RStop.panic) (onMatch p call e) (onDrop p call) e.1 e.2 s m <;> rfl
      rw [h, h]
      refine TRel.bind (pr := (·.1)) ?_ fun y hy => ?_
      · cases ok with
        | true => exact onMatch_rel hp e rt w'.ctx
        | false => exact TRel.pure rfl rfl
      · split
        · exact TRel.bind (onDrop_rel hp (hy.trans hl) _) fun z hz => ih (hz.trans (hy.trans hl))
        · exact TRel.bind (ih (hy.trans hl)) fun z _ => TRel.pure rfl rfl

theorem pktLoop_rel (hp : Pair F p cl cp) (es : List (Nat × NetParts)) : ∀ {rt : RT C}, rt.locked = true → TRel F id rt (pktLoop (loud F p) cl rt es) (pktLoop p cp rt es) := by
  induction es with
  | nil => intro rt _; exact TRel.pure rfl rfl
  | cons e es ih =>
    intro rt hl
    have h : ∀ (p : Prog C) call, pktLoop p call rt (e :: es) =
        (trigger (fun _ => RStop.panic) (onMatch p call e) (onDrop p call) e.1 e.2 { rt with watches := [] } rt.watches).bind fun y => pktLoop p call { y.1 with watches := y.2 } es := by
      intro p call
      rw [pktLoop]
      cases trigger (fun _ => RStop.panic) (onMatch p call e) (onDrop p call) e.1 e.2 { rt with watches := [] } rt.watches <;> rfl
    rw [h, h]
    refine TRel.base (TRel.bind (trigger_rel hp e _ (rt := { rt with watches := [] }) hl) fun y hy => ?_) rfl rfl
    exact TRel.base (ih (rt := { y.1 with watches := y.2 }) (hy.trans hl)) rfl rfl

theorem process_rel (hp : Pair F p cl cp) (rt : RT C) : TRel F id rt (process (loud F p) cl rt) (process p cp rt) := by
  unfold process
  dsimp only
  split
  · exact TRel.pure rfl rfl
  · cases hl : rt.locked with
    | true => simp only [if_true]; exact TRel.err _ _
    | false =>
      simp only [Bool.false_eq_true, if_false]
      let fin (rt : RT C) (es : List (Nat × NetParts)) : RT C := { rt with upto := ((es.getLast?).map (·.1)).getD rt.snap.logHead }
      let body (p : Prog C) (call : Call C) (rt : RT C) : Except RStop (RT C) := (drain p call rt).bind fun rt =>
        match rt.snap.pktsAfter rt.upto with
        | .error _ => .error .panic
        | .ok es => (pktLoop p call rt es).bind fun rt => (drain p call rt).bind fun rt => .ok (fin rt es)
      have h : ∀ (p : Prog C) call, (match drain p call { rt with snap := rt.disk, locked := true } with
          | .error e => .error e
          | .ok rt =>
            match rt.snap.pktsAfter rt.upto with
            | .error _ => .error .panic
            | .ok es =>
              match pktLoop p call rt es with
              | .error e => .error e
              | .ok rt =>
                match drain p call rt with
                | .error e => .error e
                | .ok rt => Except.ok (ε := RStop) { rt with locked := false, upto := ((es.getLast?).map (·.1)).getD rt.snap.logHead }) =
          lockFor (body p call) { rt with snap := rt.disk } := by
        intro p call
        unfold lockFor
        dsimp only [body]
        cases drain p call { rt with snap := rt.disk, locked := true } with
        | error _ => rfl
        | ok r1 =>
          dsimp only [Except.bind]
          cases r1.snap.pktsAfter r1.upto with
          | error _ => rfl
          | ok es =>
            dsimp only
            cases pktLoop p call r1 es with
            | error _ => rfl
            | ok r2 =>
              dsimp only
              cases drain p call r2 <;> rfl
      have hb : TRel F id { rt with snap := rt.disk } (lockFor (body (loud F p) cl) { rt with snap := rt.disk }) (lockFor (body p cp) { rt with snap := rt.disk }) := by
        refine lockFor_rel hl ?_
        refine TRel.bind (drain_rel hp rfl) fun r1 h1 => ?_
        dsimp only [id]
        cases r1.snap.pktsAfter r1.upto with
        | error _ => exact TRel.err _ _
        | ok es => exact TRel.bind (pktLoop_rel hp es h1) fun r2 h2 => TRel.bind (drain_rel hp (h2.trans h1)) fun r3 _ => TRel.pure rfl rfl
      rw [← h, ← h] at hb
      exact TRel.base hb rfl rfl

theorem dbCalls_rel (hp : Pair F p cl cp) (n : Nat) (es : List (Nat × NetParts)) : ∀ {rt : RT C} {c : C},
    TRel F (·.1) rt (dbCalls (loud F p) cl n rt c es) (dbCalls p cp n rt c es) := by
  induction es with
  | nil => intro rt c; exact TRel.pure rfl rfl
  | cons e es ih =>
    intro rt c
    have h : ∀ (p : Prog C) call, dbCalls p call n rt c (e :: es) = (call (rt.note (.call n e)) (p.handle c e)).bind fun x =>
        if x.2.2 then .ok (x.1.note (.broke n), x.2.1, true) else dbCalls p call n x.1 x.2.1 es := by
      intro p call
      rw [dbCalls]
      cases call (rt.note (.call n e)) (p.handle c e) with
      | error _ => rfl
      | ok x => obtain ⟨a, b, d⟩ := x; cases d <;> rfl
    rw [h, h]
    refine TRel.base (TRel.bind (hp.rel _ _) fun x _ => ?_) (rt2 := rt.note (.call n e)) rfl (badCnt_note rfl)
    split
    · exact TRel.pure rfl (badCnt_note rfl)
    · exact ih

theorem watch_rel (hp : Pair F p cl cp) (rt : RT C) (id' : Bytes) (mode : Mode) (s : Preds) (c : C) :
    TRel F (·.1) rt (watch (loud F p) cl rt id' mode s c) (watch p cp rt id' mode s c) := by
  cases hc : checkDb s with
  | error x =>
    have h : ∀ (p : Prog C) call, watch p call rt id' mode s c = .error .panic := by intro p call; unfold watch; rw [hc]
    rw [h, h]; exact TRel.err _ _
  | ok check =>
    have h : ∀ (p : Prog C) call, watch p call rt id' mode s c = (close p call rt id' false).bind fun rt =>
        match dbPart s mode check rt.snap with
        | .error q => .error (.query q)
        | .ok y => (dbCalls p call rt.next (RT.note { rt with next := rt.next + 1 } (.born rt.next id' mode s rt.snap)) c y.1).bind fun x =>
          if x.2.2 then .ok (x.1.note (.gone rt.next .inDb), true, true)
          else
            match Watch.new id' s y.2 (rt.next, x.2.1) with
            | .error .panic => .error .panic
            | .error (.err ()) => .ok (x.1.note (.gone rt.next .unmade), false, decide (y.2 ≠ 0#32))
            | .ok w => (insertWatch p call x.1 w).bind fun rt => .ok (rt, false, decide (y.2 ≠ 0#32)) := by
      intro p call
      unfold watch
      rw [hc]
      dsimp only
      cases close p call rt id' false with
      | error _ => rfl
      | ok r1 =>
        dsimp only [Except.bind]
        cases dbPart s mode check r1.snap with
        | error _ => rfl
        | ok y =>
          dsimp only
          cases dbCalls p call r1.next (RT.note { r1 with next := r1.next + 1 } (.born r1.next id' mode s r1.snap)) c y.1 with
          | error _ => rfl
          | ok x =>
            obtain ⟨a, b, d⟩ := x
            cases d with
            | true => rfl
            | false =>
              dsimp only
              cases Watch.new id' s y.2 (r1.next, b) with
              | error e => cases e <;> rfl
              | ok w =>
                dsimp only
                cases insertWatch p call a w <;> rfl
    rw [h, h]
    refine TRel.bind (close_rel hp rt id' false) fun r1 _ => ?_
    dsimp only [id]
    cases dbPart s mode check r1.snap with
    | error _ => exact TRel.err _ _
    | ok y =>
      dsimp only
      refine TRel.base (TRel.bind (dbCalls_rel hp _ _) fun x _ => ?_)
        (rt2 := RT.note { r1 with next := r1.next + 1 } (.born r1.next id' mode s r1.snap)) rfl (badCnt_note (rt := { r1 with next := r1.next + 1 }) rfl)
      split
      · exact TRel.pure rfl (badCnt_note rfl)
      · cases Watch.new id' s y.2 (r1.next, x.2.1) with
        | error e =>
          cases e with
          | panic => exact TRel.err _ _
          | err u => exact TRel.pure rfl (badCnt_note rfl)
        | ok w => exact TRel.bind (insertWatch_rel hp _ w) fun r _ => TRel.pure rfl rfl

theorem idle_rel (rt : RT C) : TRel F (·.1) rt (idle (loud F p) rt) (idle p rt) := by
  have hc : (loud F p).clock = p.clock := rfl
  unfold idle
  split
  · exact TRel.err _ _
  · split
    · exact TRel.pure rfl rfl
    · dsimp only
      rw [hc]
      refine TRel.pure rfl ?_
      rw [badCnt_append]
      have : badCnt F ((rt.watches.filter (fun w => !decide (w.recv.high.toNat > p.clock rt.ticks))).map (fun w => Ev.gone w.ctx.1 (.collected (p.clock rt.ticks)))) = 0 := by
        unfold badCnt
        rw [List.length_eq_zero_iff, List.filter_eq_nil_iff]
        intro e he
        obtain ⟨w, _, rfl⟩ := List.mem_map.1 he
        exact Bool.false_ne_true
      rw [this]; rfl

theorem step_rel (hp : Pair F p cl cp) (rt : RT C) (q : Cmd C) : TRel F (·.1) rt (step (loud F p) cl rt q) (step p cp rt q) := by
  cases q with
  | watch i m s c =>
    have h : ∀ (p : Prog C) call, step p call rt (.watch i m s c) = (watch p call rt i m s c).bind fun x => .ok (x.1, .watched x.2.1 x.2.2) := by
      intro p call; unfold step; dsimp only; cases watch p call rt i m s c <;> rfl
    rw [h, h]; exact TRel.bind (watch_rel hp rt i m s c) fun x _ => TRel.pure rfl rfl
  | stop i r =>
    have h : ∀ (p : Prog C) call, step p call rt (.stop i r) = (close p call rt i r).bind fun x => .ok (x, .nothing) := by
      intro p call; unfold step; dsimp only; cases close p call rt i r <;> rfl
    rw [h, h]; exact TRel.bind (close_rel hp rt i r) fun x _ => TRel.pure rfl rfl
  | process =>
    have h : ∀ (p : Prog C) call, step p call rt .process = (process p call rt).bind fun x => .ok (x, .upto x.upto) := by
      intro p call; unfold step; dsimp only; cases process p call rt <;> rfl
    rw [h, h]; exact TRel.bind (process_rel hp rt) fun x _ => TRel.pure rfl rfl
  | idle =>
    have h : ∀ (p : Prog C) call, step p call rt .idle = (idle p rt).bind fun x => .ok (x.1, .work x.2) := by
      intro p call; unfold step; dsimp only; cases idle p rt <;> rfl
    rw [h, h]; exact TRel.bind (idle_rel rt) fun x _ => TRel.pure rfl rfl
  | save e => exact TRel.pure rfl rfl
  | reader => exact TRel.pure rfl rfl

theorem loud_fails (n : Nat) (rt : RT C) (c : C) (r : Reason) (x : RT C × C × Bool) (hl : rt.locked = true) (hF : F r = true) :
    run (loud F p) n rt ((loud F p).stopped c r) ≠ .ok x := by
  have : (loud F p).stopped c r = .ask .idle fun _ => .ret c false := by simp [loud, hF]
  rw [this]
  cases n with
  | zero => exact fun h => nomatch h
  | succ n =>
    have : step (loud F p) (run (loud F p) n) rt .idle = .error .panic := by
      unfold step idle; rw [if_pos hl]
    rw [run, this]
    exact fun h => nomatch h

theorem run_pair (F : Reason → Bool) (p : Prog C) (n : Nat) : Pair F p (run (loud F p) n) (run p n) := by
  induction n with
  | zero => exact ⟨fun rt a => TRel.err _ _, loud_fails 0⟩
  | succ n ih =>
    refine ⟨fun rt a => ?_, loud_fails (n + 1)⟩
    cases a with
    | ret c b => exact TRel.pure rfl rfl
    | ask q k =>
      have h : ∀ (p : Prog C), run p (n + 1) rt (.ask q k) = (step p (run p n) rt q).bind fun x => run p n x.1 (k x.2) := by
        intro p; rw [run]; cases step p (run p n) rt q <;> rfl
      rw [h, h]
      exact TRel.bind (step_rel ih rt q) fun x _ => ih.rel _ _

end Verif.Rt
