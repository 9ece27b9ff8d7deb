import Verif.Spec.Handlers
import Verif.Props.Runtime
import Verif.Props.Options
/-!
# Following links, and the notice on closing
-/
namespace Verif.Props
open Verif Verif.Pkt Verif.Pred Verif.Env Verif.Query Verif.Matcher Verif.Rt Verif.Spec Verif.Opt

variable {C : Type} {p : Prog C}

theorem run_andThen {a : Act C} {k : C → Act C} {n : Nat} {rt rt' : RT C} {c' : C} {b : Bool} (h : run p n rt (a.andThen k) = .ok (rt', c', b)) :
    (run p n rt a = .ok (rt', c', true) ∧ b = true) ∨ ∃ rt1 c1, run p n rt a = .ok (rt1, c1, false) ∧ ∃ m, run p m rt1 (k c1) = .ok (rt', c', b) := by
  induction n generalizing rt a with
  | zero => cases a <;> simp [run] at h
  | succ n ih =>
    cases a with
    | ret c x =>
      cases x with
      | true =>
        unfold Act.andThen run at h
        cases h
        exact .inl ⟨rfl, rfl⟩
      | false =>
        unfold Act.andThen at h
        exact .inr ⟨rt, c, rfl, _, h⟩
    | ask q f =>
      unfold Act.andThen run at h
      cases hs : step p (run p n) rt q with
      | error e => rw [hs] at h; cases h
      | ok x =>
        rw [hs] at h
        have e : run p (n + 1) rt (.ask q f) = run p n x.1 (f x.2) := by
          conv => lhs; unfold run
          rw [hs]
        rw [e]
        exact ih h

theorem run_always {a : Act C} {k : C → Act C} {n : Nat} {rt rt' : RT C} {c' : C} {b : Bool} (h : run p n rt (a.always k) = .ok (rt', c', b)) :
    ∃ rt1 c1 b1, run p n rt a = .ok (rt1, c1, b1) ∧ ∃ m, run p m rt1 (k c1) = .ok (rt', c', b) := by
  induction n generalizing rt a with
  | zero => cases a <;> simp [run] at h
  | succ n ih =>
    cases a with
    | ret c x =>
      unfold Act.always at h
      exact ⟨rt, c, x, rfl, _, h⟩
    | ask q f =>
      unfold Act.always run at h
      cases hs : step p (run p n) rt q with
      | error e => rw [hs] at h; cases h
      | ok x =>
        rw [hs] at h
        have e : run p (n + 1) rt (.ask q f) = run p n x.1 (f x.2) := by
          conv => lhs; unfold run
          rw [hs]
        rw [e]
        exact ih h

theorem own_bits (f : UInt8) : ((ownFlags f).toNat.testBit 1 = false ∧ (ownFlags f).toNat.testBit 2 = false) ∧
    ∀ i : Fin 8, i ≠ 1 → i ≠ 2 → (ownFlags f).toNat.testBit i = f.toNat.testBit i := by
  revert f; apply Abtxt.all_u8; decide +kernel
theorem linked_bits (f : UInt8) : ((linkedFlags f).toNat.testBit 1 = true ∧ (linkedFlags f).toNat.testBit 2 = false) ∧
    ∀ i : Fin 8, i ≠ 1 → i ≠ 2 → (linkedFlags f).toNat.testBit i = f.toNat.testBit i := by
  revert f; apply Abtxt.all_u8; decide +kernel

theorem byte_bit (f : UInt8) {i : Nat} (h : 8 ≤ i) : f.toNat.testBit i = false :=
  Nat.testBit_lt_two_pow (Nat.lt_of_lt_of_le (UInt8.toNat_lt f) (Nat.pow_le_pow_right (by decide) h))

theorem reflag_marked {f : UInt8 → UInt8} {x : Bool} (hf : ∀ b, ((f b).toNat.testBit 1 = x ∧ (f b).toNat.testBit 2 = false) ∧
    ∀ i : Fin 8, i ≠ 1 → i ≠ 2 → (f b).toNat.testBit i = b.toNat.testBit i) {q : NetParts} (hq : 3 < q.netHeader.length) : Marked x q (reflag f q) := by
  have e : (reflag f q).netHeader.getD 3 0 = f (q.netHeader.getD 3 0) := by
    simp [reflag, List.getD_eq_getElem?_getD, hq]
  obtain ⟨⟨h1, h2⟩, h3⟩ := hf (q.netHeader.getD 3 0)
  refine ⟨rfl, rfl, ⟨List.length_set .., fun i hi => ?_⟩, ?_, ?_, fun i i1 i2 => ?_⟩
  · show (q.netHeader.set 3 _)[i]? = _
    rw [List.getElem?_set_ne (fun h => hi h.symm)]
  · rw [e]; exact h1
  · rw [e]; exact h2
  · rw [e]
    rcases Nat.lt_or_ge i 8 with hi | hi
    · exact h3 ⟨i, hi⟩ (fun h => i1 (congrArg Fin.val h)) (fun h => i2 (congrArg Fin.val h))
    · rw [byte_bit _ hi, byte_bit _ hi]

theorem own_marked {q : NetParts} (hq : 3 < q.netHeader.length) : Marked false q (reflag ownFlags q) := reflag_marked own_bits hq
theorem linked_marked {q : NetParts} (hq : 3 < q.netHeader.length) : Marked true q (reflag linkedFlags q) := reflag_marked linked_bits hq

theorem targets_exist {d : Db} (hc : Consistent d) (hh : ∀ e ∈ d.log, 3 < e.2.netHeader.length) (ls : List Link) : ∃ ts, Targets d.log ls ts := by
  induction ls with
  | nil => exact ⟨[], .nil⟩
  | cons l ls ih =>
    obtain ⟨ts, ht⟩ := ih
    cases hl : d.read l.ptr with
    | none => exact ⟨ts, .missing (fun e he hp => by rw [(read_hash_iff hc l.ptr e.1 e.2).2 ⟨he, hp⟩] at hl; cases hl) ht⟩
    | some e =>
      obtain ⟨h1, h2⟩ := (read_hash_iff hc l.ptr e.1 e.2).1 hl
      exact ⟨_, .found h1 h2 (linked_marked (hh _ h1)) ht⟩

theorem followLinks_gives {h : Handler C} {d : Db} (hc : Consistent d) (hh : ∀ e ∈ d.log, 3 < e.2.netHeader.length) {ls : List Link} {c c' : C} {n : Nat}
    {rt rt' : RT C} {b : Bool} (hr : run p n rt (followLinks h d ls c) = .ok (rt', c', b)) :
    ∃ ts, Targets d.log ls ts ∧ Gives p h.handle rt c ts rt' c' b := by
  induction ls generalizing c n rt with
  | nil =>
    unfold followLinks at hr
    cases n with
    | zero => simp [run] at hr
    | succ n => unfold run at hr; cases hr; exact ⟨[], .nil, .done⟩
  | cons l ls ih =>
    unfold followLinks at hr
    cases hl : d.read l.ptr with
    | none =>
      rw [hl] at hr
      obtain ⟨ts, h1, h2⟩ := ih hr
      refine ⟨ts, .missing (fun e he hp => ?_) h1, h2⟩
      rw [(read_hash_iff hc l.ptr e.1 e.2).2 ⟨he, hp⟩] at hl
      cases hl
    | some e =>
      rw [hl] at hr
      obtain ⟨h1, h2⟩ := (read_hash_iff hc l.ptr e.1 e.2).1 hl
      rcases run_andThen hr with ⟨h3, rfl⟩ | ⟨rt1, c1, h3, m, h4⟩
      · -- what is not given any more is still linked
        obtain ⟨ts, ht⟩ := targets_exist hc hh ls
        exact ⟨_, .found h1 h2 (linked_marked (hh _ h1)) ht, .brk h3⟩
      · obtain ⟨ts, h5, h6⟩ := ih h4
        exact ⟨_, .found h1 h2 (linked_marked (hh _ h1)) h5, .next h3 h6⟩

/-! ### callbacks that do not process see one snapshot -/

/-- The call keeps the snapshot. -/
def Keeps (call : Rt.Call C) : Prop := ∀ rt a rt' r, Quiet a → call rt a = .ok (rt', r) → rt'.snap = rt.snap

theorem dropWatch_snap {call : Rt.Call C} (hq : QuietProg p) (hk : Keeps call) {rt rt' : RT C} {w : Watch (Nat × C)} {why : Why} {r : Reason}
    (h : dropWatch p call rt w why r = .ok rt') : rt'.snap = rt.snap := by
  unfold dropWatch at h
  split at h
  · cases h
  · rename_i hc
    cases h
    exact (hk _ _ _ _ (hq.2 _ _) hc :)

theorem dropWatches_snap {call : Rt.Call C} (hq : QuietProg p) (hk : Keeps call) {why : Why} {r : Reason} {ws : List (Watch (Nat × C))} {rt rt' : RT C}
    (h : dropWatches p call why r rt ws = .ok rt') : rt'.snap = rt.snap := by
  induction ws generalizing rt with
  | nil => unfold dropWatches at h; cases h; rfl
  | cons w ws ih =>
    unfold dropWatches at h
    split at h
    · cases h
    · rename_i hc
      exact (ih h).trans (dropWatch_snap hq hk hc)

theorem registerNow_snap {call : Rt.Call C} (hq : QuietProg p) (hk : Keeps call) {rt rt' : RT C} {w : Watch (Nat × C)}
    (h : registerNow p call rt w = .ok rt') : rt'.snap = rt.snap := by
  unfold registerNow at h
  simp only at h
  split at h
  · cases h; split <;> rfl
  · rw [dropWatch_snap hq hk h]; split <;> rfl

theorem deregisterNow_snap {call : Rt.Call C} (hq : QuietProg p) (hk : Keeps call) {rt rt' : RT C} {id : Bytes} {range : Bool}
    (h : deregisterNow p call rt id range = .ok rt') : rt'.snap = rt.snap := by
  unfold deregisterNow at h
  exact (dropWatches_snap hq hk h :)

theorem lockFor_snap {f : RT C → Except RStop (RT C)} (hf : ∀ rt rt', f rt = .ok rt' → rt'.snap = rt.snap) {rt rt' : RT C} (h : lockFor f rt = .ok rt') :
    rt'.snap = rt.snap := by
  unfold lockFor at h
  split at h
  · cases h
  · rename_i hc
    cases h
    exact (hf _ _ hc :)

theorem push_snap {rt rt' : RT C} {x : Pending C} (h : rt.push x = .ok rt') : rt'.snap = rt.snap := by
  unfold RT.push at h
  split at h
  · cases h
  · cases h; rfl

theorem insertWatch_snap {call : Rt.Call C} (hq : QuietProg p) (hk : Keeps call) {rt rt' : RT C} {w : Watch (Nat × C)}
    (h : insertWatch p call rt w = .ok rt') : rt'.snap = rt.snap := by
  unfold insertWatch at h
  split at h
  · exact push_snap h
  · exact lockFor_snap (fun _ _ h => registerNow_snap hq hk h) h

theorem close_snap {call : Rt.Call C} (hq : QuietProg p) (hk : Keeps call) {rt rt' : RT C} {id : Bytes} {range : Bool}
    (h : close p call rt id range = .ok rt') : rt'.snap = rt.snap := by
  unfold close at h
  split at h
  · exact push_snap h
  · exact lockFor_snap (fun _ _ h => deregisterNow_snap hq hk h) h

theorem dbCalls_snap {call : Rt.Call C} (hq : QuietProg p) (hk : Keeps call) {n : Nat} {l : List (Nat × NetParts)} {rt rt' : RT C} {c : C} {r : C × Bool}
    (h : dbCalls p call n rt c l = .ok (rt', r)) : rt'.snap = rt.snap := by
  induction l generalizing rt c with
  | nil => unfold dbCalls at h; cases h; rfl
  | cons e l ih =>
    unfold dbCalls at h
    split at h
    · cases h
    · rename_i hc
      cases h
      exact (hk _ _ _ _ (hq.1 _ _) hc :)
    · rename_i hc
      exact (ih h).trans (hk _ _ _ _ (hq.1 _ _) hc :)

theorem watch_snap {call : Rt.Call C} (hq : QuietProg p) (hk : Keeps call) {rt rt' : RT C} {id : Bytes} {mode : Mode} {s : Preds} {c : C} {b : Bool × Bool}
    (h : watch p call rt id mode s c = .ok (rt', b)) : rt'.snap = rt.snap := by
  unfold watch at h
  split at h
  · cases h
  · split at h
    · cases h
    · rename_i hcl
      have e0 := close_snap hq hk hcl
      simp only at h
      split at h
      · cases h
      · split at h
        · cases h
        · rename_i hd
          cases h
          exact (dbCalls_snap hq hk hd).trans e0
        · rename_i hd
          have e1 := (dbCalls_snap hq hk hd).trans e0
          split at h
          · cases h
          · cases h; exact e1
          · split at h
            · cases h
            · rename_i hi
              cases h
              exact (insertWatch_snap hq hk hi).trans e1

theorem step_snap {call : Rt.Call C} (hq : QuietProg p) (hk : Keeps call) {rt rt' : RT C} {q : Cmd C} {a : Ans} (hne : q ≠ .process)
    (h : step p call rt q = .ok (rt', a)) : rt'.snap = rt.snap := by
  cases q with
  | watch id mode s c =>
    unfold step at h
    simp only at h
    split at h
    · cases h
    · rename_i hw; cases h; exact watch_snap hq hk hw
  | stop id range =>
    unfold step at h
    simp only at h
    split at h
    · cases h
    · rename_i hw; cases h; exact close_snap hq hk hw
  | process => exact absurd rfl hne
  | idle =>
    unfold step at h
    simp only at h
    split at h
    · cases h
    · rename_i hw
      cases h
      unfold idle at hw
      split at hw
      · cases hw
      · split at hw
        · cases hw; rfl
        · cases hw; rfl
  | save e => unfold step at h; cases h; rfl
  | reader => unfold step at h; cases h; rfl

/-- A callback that does not process leaves the snapshot, in a program where none does. -/
theorem run_snap (hq : QuietProg p) (n : Nat) : Keeps (run p n) := by
  induction n with
  | zero => intro rt a rt' r _ h; cases a <;> simp [run] at h
  | succ n ih =>
    intro rt a rt' r ha h
    cases ha with
    | ret c b => unfold run at h; cases h; rfl
    | ask hne hk =>
      unfold run at h
      split at h
      · cases h
      · rename_i hs
        exact (ih _ _ _ _ (hk _) h).trans (step_snap hq ih hne hs)

/-! ### following -/

/-- **C70**: a callback that follows is given the packet, marked as not linked, and then, unless it breaks, the packets linked from it that the
database has at that moment, in order and marked as linked, until it breaks.  Nothing else. -/
theorem follow_given {h : Handler C} {c c' : C} {e : Nat × NetParts} {n : Nat} {rt rt' : RT C} {b : Bool} (he : 3 < e.2.netHeader.length)
    (hr : run p n rt ((follow h).handle c e) = .ok (rt', c', b)) :
    ∃ e0, Marked false e.2 e0 ∧ (Gives p h.handle rt c [(e.1, e0)] rt' c' true ∧ b = true ∨
      ∃ rt1 c1, Gives p h.handle rt c [(e.1, e0)] rt1 c1 false ∧ (Consistent rt1.snap → (∀ e ∈ rt1.snap.log, 3 < e.2.netHeader.length) →
        ∃ ts, Targets rt1.snap.log e.2.getLinks ts ∧ Gives p h.handle rt1 c1 ts rt' c' b)) := by
  refine ⟨_, own_marked he, ?_⟩
  rcases run_andThen hr with ⟨h1, rfl⟩ | ⟨rt1, c1, h1, m, h2⟩
  · exact .inl ⟨.brk h1, rfl⟩
  · refine .inr ⟨rt1, c1, .next h1 .done, fun hc hh => ?_⟩
    split at h2
    · rename_i hl
      cases m with
      | zero => simp [run] at h2
      | succ m =>
        unfold run at h2
        cases h2
        rw [List.isEmpty_iff.1 hl]
        exact ⟨[], .nil, .done⟩
    · cases m with
      | zero => simp [run] at h2
      | succ m =>
        unfold run step at h2
        exact followLinks_gives hc hh h2

/-- **C70** for callbacks that do not process: what is linked is looked up where the packet came from. -/
theorem follow_snapshot (hq : QuietProg p) {h : Handler C} (hh : ∀ c e, Quiet (h.handle c e)) {c c' : C} {e : Nat × NetParts} {n : Nat} {rt rt' : RT C} {b : Bool}
    (hc : Consistent rt.snap) (he : 3 < e.2.netHeader.length) (hl : ∀ e ∈ rt.snap.log, 3 < e.2.netHeader.length)
    (hr : run p n rt ((follow h).handle c e) = .ok (rt', c', b)) :
    ∃ e0 ts, Marked false e.2 e0 ∧ Targets rt.snap.log e.2.getLinks ts ∧ Gives p h.handle rt c ((e.1, e0) :: ts) rt' c' b := by
  obtain ⟨e0, h0, ⟨hg, rfl⟩ | ⟨rt1, c1, hg, hx⟩⟩ := follow_given he hr
  · cases hg with
    | brk hb =>
      obtain ⟨ts, ht⟩ := targets_exist hc hl e.2.getLinks
      exact ⟨e0, ts, h0, ht, .brk hb⟩
    | next _ hd => cases hd
  · cases hg with
    | next hb hd =>
      cases hd
      have hs : rt1.snap = rt.snap := run_snap hq _ _ _ _ _ (hh _ _) hb
      rw [hs] at hx
      obtain ⟨ts, ht, hg⟩ := hx hc hl
      exact ⟨e0, ts, h0, ht, .next hb hg⟩

theorem andThen_quiet {a : Act C} {k : C → Act C} (ha : Quiet a) (hk : ∀ c, Quiet (k c)) : Quiet (a.andThen k) := by
  induction ha with
  | ret c b => cases b; exact hk c; exact .ret c true
  | ask hne _ ih => exact .ask hne ih

/-- Following adds no request to process: C34 holds for the packets that are followed. -/
theorem follow_quiet {h : Handler C} (hh : ∀ c e, Quiet (h.handle c e)) : (∀ c e, Quiet ((follow h).handle c e)) ∧ ∀ c r, Quiet ((follow h).stopped c r) := by
  have hl : ∀ d ls c, Quiet (followLinks h d ls c) := by
    intro d ls
    induction ls with
    | nil => exact fun c => .ret _ _
    | cons l ls ih =>
      intro c
      unfold followLinks
      split
      · exact ih c
      · exact andThen_quiet (hh _ _) ih
  refine ⟨fun c e => andThen_quiet (hh _ _) fun c => ?_, fun c r => .ret _ _⟩
  split
  · exact .ret _ _
  · refine .ask nofun fun a => ?_
    split
    · exact hl _ _ _
    · exact .ret _ _

/-- **C70**: with a notice, what the callback is given is the same; when the watch is stopped it is given the request once more, whether or not
it has broken, and is then told of the end. -/
theorem notify_given {h : Handler C} {o : NetParts} : (∀ c e, (notifyClose (some o) h).handle c e = h.handle c e) ∧
    ∀ {c c' : C} {r : Reason} {n : Nat} {rt rt' : RT C} {b : Bool}, run p n rt ((notifyClose (some o) h).stopped c r) = .ok (rt', c', b) →
      ∃ rt1 c1 b1, Gives p h.handle rt c [(0, o)] rt1 c1 b1 ∧ ∃ m, run p m rt1 (h.stopped c1 r) = .ok (rt', c', b) := by
  refine ⟨fun _ _ => rfl, fun hr => ?_⟩
  obtain ⟨rt1, c1, b1, h1, h2⟩ := run_always hr
  refine ⟨rt1, c1, b1, ?_, h2⟩
  cases b1
  · exact .next h1 .done
  · exact .brk h1

/-- **C70**: the notice is asked for by an option with a value. -/
theorem notify_iff {c : Conf} (hc : ∀ l ∈ c, IsOption l) (o q : NetParts) :
    notifyOrigin c o = some q ↔ q = o ∧ ∃ v, Newest (Carries (ascii "notify-close")) c (plainOption (ascii "notify-close") v) := by
  unfold notifyOrigin
  cases hg : getOption c (ascii "notify-close") with
  | error e =>
    refine iff_of_false nofun ?_
    rintro ⟨_, v, h⟩
    rw [(option_value_iff hc _ v).2 h] at hg
    cases hg
  | ok x =>
    rcases x with _ | _ | v
    · refine iff_of_false nofun ?_
      rintro ⟨_, v, h⟩
      rw [(option_value_iff hc _ v).2 h] at hg
      cases hg
    · exact absurd hg (option_never_bare c _).1
    · constructor
      · intro h; cases h; exact ⟨rfl, v, (option_value_iff hc _ v).1 hg⟩
      · rintro ⟨rfl, _⟩; rfl

/-! ### options -/

/-- **C70**: the watch that is made has the id and the mode of the options, and follows exactly if there is an option to follow with a value. -/
theorem watch_query_iff {c : Conf} (hc : ∀ l ∈ c, IsOption l) {h h' : Handler C} {id : Bytes} {m : Mode} : watchQuery c h = .ok (id, m, h') ↔
    Newest (Carries (ascii "qid")) c (plainOption (ascii "qid") id) ∧
    (Newest (Carries (ascii "mode")) c (plainOption (ascii "mode") (modeText m)) ∨ (m = ⟨.tree, false⟩ ∧ ∀ l ∈ c, ¬ Carries (ascii "mode") l)) ∧
    (h' = follow h ∧ (∃ v, Newest (Carries (ascii "follow")) c (plainOption (ascii "follow") v)) ∨ h' = h ∧ ∀ l ∈ c, ¬ Carries (ascii "follow") l) := by
  rw [← mode_iff hc, ← option_value_iff hc, ← option_absent_iff hc]
  rw [show (∃ v, Newest (Carries (ascii "follow")) c (plainOption (ascii "follow") v)) ↔ ∃ v, getOption c (ascii "follow") = .ok (some (some v)) from
    exists_congr fun v => (option_value_iff hc _ v).symm]
  unfold watchQuery
  cases getMode c with
  | error e => exact iff_of_false nofun fun h => nomatch h.2.1
  | ok m' =>
    rcases hq : getOption c (ascii "qid") with (e | _) | _ | _ | id'
    · exact iff_of_false nofun fun h => nomatch h.1
    · exact iff_of_false nofun fun h => nomatch h.1
    · exact iff_of_false nofun fun h => nomatch h.1
    · exact iff_of_false nofun fun h => nomatch h.1
    · rcases hf : getOption c (ascii "follow") with (e | _) | _ | v
      · refine iff_of_false nofun ?_
        rintro ⟨_, _, ⟨_, _, h⟩ | ⟨_, h⟩⟩ <;> cases h
      · refine iff_of_false nofun ?_
        rintro ⟨_, _, ⟨_, _, h⟩ | ⟨_, h⟩⟩ <;> cases h
      · constructor
        · intro h; cases h; exact ⟨rfl, rfl, .inr ⟨rfl, rfl⟩⟩
        · rintro ⟨h1, h2, ⟨_, _, h⟩ | ⟨rfl, _⟩⟩
          · cases h
          · cases h1; cases h2; rfl
      · constructor
        · intro h
          cases h
          refine ⟨rfl, rfl, .inl ⟨rfl, ?_⟩⟩
          cases v with
          | none => exact absurd hf (option_never_bare c _).1
          | some v => exact ⟨v, rfl⟩
        · rintro ⟨h1, h2, ⟨rfl, _⟩ | ⟨_, h⟩⟩
          · cases h1; cases h2; rfl
          · cases h

/-- A watch without an id stops the program. -/
theorem watch_query_aborts {c : Conf} (hc : ∀ l ∈ c, IsOption l) {h : Handler C} {m : Mode} (hm : getMode c = .ok m) (hn : ∀ l ∈ c, ¬ Carries (ascii "qid") l) :
    watchQuery c h = .error .panic := by
  unfold watchQuery
  rw [hm, (option_absent_iff hc _).2 hn]

theorem bare_unseen (c : Conf) (name other : Bytes) : getOption (addOption c name []) other = getOption c other :=
  getOption_snoc c _ other (by simp [startsWith])

/-- The option `:follow` of the documentation and of `--follow` has no effect (`bare_option_lost`), nor has `:notify-close`. -/
theorem follow_flag_lost (c : Conf) (h : Handler C) (o : NetParts) : watchQuery (addOption c (ascii "follow") []) h = watchQuery c h ∧
    notifyOrigin (addOption c (ascii "notify-close") []) o = notifyOrigin c o := by
  unfold watchQuery notifyOrigin getMode mode
  simp only [bare_unseen]
  exact ⟨trivial, trivial⟩

/-- A callback that follows is never told that its watch has ended, and the notice on closing is not given: for every handler. -/
theorem follow_not_told {c : Conf} {o : NetParts} {h : Handler C} {v : Bytes} {id : Bytes} {m : Mode} {h' : Handler C}
    (hf : getOption c (ascii "follow") = .ok (some (some v))) (hw : closingWatch c o h = .ok (id, m, h')) (s : C) (r : Reason) : h'.stopped s r = .ret s false := by
  unfold closingWatch watchQuery at hw
  split at hw
  · cases hw
  · split at hw
    · cases hw
    · cases hw
    · cases hw
    · cases hw
    · rw [hf] at hw
      cases hw
      rfl

/-! ### cases -/

/-- A packet with links to the hashes of these bytes, and flags. -/
def exTied (stamp : Nat) (h flags : UInt8) (to : List UInt8) : NetParts :=
  ⟨[0, 0, 0, flags] ++ List.replicate 28 0, List.replicate 32 h, (Content.link { exLink [[65]] stamp with links := to.map fun b => ⟨List.replicate 16 0, List.replicate 32 b⟩ }).parts⟩

/-- The callback records receive stamps and flags; when it is given something that was not received it saves a packet.  It breaks at a stamp. -/
def exBase (stop : Nat) : Handler (Nat × List (Nat × Nat)) where
  handle c e :=
    if e.1 = 0 then .ask (.save ⟨fun _ => .ok, 900, [(exPkt [[67]] 9 9, .pending)]⟩) fun _ => .ret c false
    else .ret (c.1, c.2 ++ [(e.1, (e.2.netHeader.getD 3 0).toNat)]) (e.1 == stop)
  stopped c _ := .ret c false

/-- 0: the callback, 1: with a notice, 2: following and with a notice, 3: following, 4: following and breaking. -/
def exHandlers : Prog (Nat × List (Nat × Nat)) := handlers (fun c => match c.1 with
  | 0 => exBase 0
  | 1 => notifyClose (some (exPkt [] 1 8)) (exBase 0)
  | 2 => follow (notifyClose (some (exPkt [] 1 8)) (exBase 0))
  | 3 => follow (exBase 0)
  | _ => follow (exBase 102)) fun _ => 50

/-- One request after the other, from the files of `exHistory`: what the registered callbacks have recorded, and the last stamp in the files. -/
def exFollow (qs : List (Cmd (Nat × List (Nat × Nat)))) : Option (List (List (Nat × Nat)) × Nat) :=
  match run exHandlers 30 (start exDb) (qs.foldr (fun q a => .ask q fun _ => a) (.ret (0, []) false)) with
  | .error _ => none
  | .ok (rt, _) => some (rt.watches.map (fun w => w.ctx.2.2), rt.disk.logHead)

def exTie (now : Nat) (flags : UInt8) (to : List UInt8) : Cmd (Nat × List (Nat × Nat)) := .save ⟨fun _ => .ok, now, [(exTied 5 7 flags to, .pending)]⟩
def exAsk (k : Nat) (rs : List Stmt) : Cmd (Nat × List (Nat × Nat)) := .watch [1] ⟨.log, true⟩ (exPreds rs) (k, [])

/-- Linked packets are given after the packet, those that are missing are left out, and the flags are set; a callback that breaks ends it. -/
theorem follow_example :
    exFollow [exTie 200 7 [2, 9, 1], .process, exAsk 3 [createStmt .less 6, createStmt .greater 4]] = some ([[(200, 1), (101, 2), (100, 2)]], 200) ∧
    exFollow [exTie 200 7 [2, 9, 1], .process, exAsk 0 [createStmt .less 6, createStmt .greater 4]] = some ([[(200, 7)]], 200) ∧
    exFollow [exTie 200 0 [2, 3, 1], exAsk 4 [createStmt .less 6, createStmt .greater 4], .process] = some ([], 200) ∧
    exFollow [exAsk 3 [createStmt .less 6, createStmt .greater 4], exTie 200 0 [2, 3, 1], .process] = some ([[(200, 0), (101, 2), (102, 2), (100, 2)]], 200) := by
  refine ⟨?_, ?_, ?_, ?_⟩ <;> decide +kernel

/-- The notice on closing is given when the watch is closed; it is not given if the watch follows, nor if the database had all the packets that
were asked for. -/
theorem notify_missed :
    exFollow [exAsk 1 [], .stop [1] false] = some ([], 900) ∧ exFollow [exAsk 2 [], .stop [1] false] = some ([], 102) ∧
    exFollow [exAsk 1 [limitStmt .query .less 2], .stop [1] false, exTie 200 0 [], .process] = some ([], 200) := by decide +kernel

end Verif.Props
