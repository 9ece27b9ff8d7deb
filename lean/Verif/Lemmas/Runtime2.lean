import Verif.Lemmas.Runtime
/-!
# The invariant of the runtime: single steps
-/
namespace Verif.Rt
open Verif Verif.Pkt Verif.Pred Verif.Env Verif.Query Verif.Matcher Verif.Spec

variable {C : Type}

/-! ### logs -/

/-- The stamps of a log ascend. -/
def Asc (log : List (Nat × NetParts)) : Prop := log.Pairwise (fun a b => a.1 < b.1)

theorem top_ge {log : List (Nat × NetParts)} (hs : Asc log) {e : Nat × NetParts} (he : e ∈ log) : e.1 ≤ topOf log := by
  unfold topOf lastStamp
  cases hl : log.getLast? with
  | none => rw [List.getLast?_eq_none_iff] at hl; rw [hl] at he; cases he
  | some x =>
    obtain ⟨l, rfl⟩ := List.getLast?_eq_some_iff.1 hl
    show e.1 ≤ x.1
    rcases List.mem_append.1 he with he | he
    · exact Nat.le_of_lt ((List.pairwise_append.1 hs).2.2 e he x (by simp))
    · rw [List.mem_singleton] at he; rw [he]; exact Nat.le_refl _

theorem top_mem {log : List (Nat × NetParts)} (h : log ≠ []) : ∃ e ∈ log, e.1 = topOf log := by
  unfold topOf lastStamp
  cases hl : log.getLast? with
  | none => rw [List.getLast?_eq_none_iff] at hl; exact absurd hl h
  | some x => exact ⟨x, List.mem_of_getLast? hl, rfl⟩

theorem top_nil : topOf [] = 0 := rfl

theorem top_mono {log log' : List (Nat × NetParts)} (h : log <+: log') (hs : Asc log') : topOf log ≤ topOf log' := by
  by_cases hn : log = []
  · rw [hn, top_nil]; exact Nat.zero_le _
  · obtain ⟨e, he, ht⟩ := top_mem hn
    rw [← ht]; exact top_ge hs (h.subset he)

theorem between_mono {log log' : List (Nat × NetParts)} (h : log <+: log') (hs : Asc log') {a q : Nat} (hq : q ≤ topOf log) :
    between log' a q = between log a q := by
  obtain ⟨r, rfl⟩ := h
  unfold between
  rw [List.filter_append]
  have : r.filter (fun e => decide (a < e.1) && decide (e.1 ≤ q)) = [] := by
    rw [List.filter_eq_nil_iff]
    intro e he hx
    rw [Bool.and_eq_true, decide_eq_true_iff, decide_eq_true_iff] at hx
    by_cases hn : log = []
    · rw [hn, top_nil] at hq; omega
    · obtain ⟨x, hx1, hx2⟩ := top_mem hn
      have := (List.pairwise_append.1 hs).2.2 x hx1 e he
      omega
  rw [this, List.append_nil]

theorem between_snoc {P R : List (Nat × NetParts)} {e : Nat × NetParts} (hs : Asc (P ++ e :: R)) {a pos : Nat} (hP : ∀ x ∈ P, x.1 ≤ pos)
    (he : pos < e.1) (ha : a ≤ pos) : between (P ++ e :: R) a e.1 = between (P ++ e :: R) a pos ++ [e] := by
  unfold between
  obtain ⟨_, h2, h3⟩ := List.pairwise_append.1 hs
  rw [List.pairwise_cons] at h2
  rw [List.filter_append, List.filter_append, List.filter_cons, List.filter_cons]
  rw [if_pos (by rw [Bool.and_eq_true, decide_eq_true_iff, decide_eq_true_iff]; omega)]
  rw [if_neg (by rw [Bool.and_eq_true, decide_eq_true_iff, decide_eq_true_iff]; omega)]
  have e1 : R.filter (fun x => decide (a < x.1) && decide (x.1 ≤ e.1)) = [] := by
    rw [List.filter_eq_nil_iff]
    intro x hx
    have := h2.1 x hx
    rw [Bool.and_eq_true, decide_eq_true_iff, decide_eq_true_iff]; omega
  have e2 : R.filter (fun x => decide (a < x.1) && decide (x.1 ≤ pos)) = [] := by
    rw [List.filter_eq_nil_iff]
    intro x hx
    have := h2.1 x hx
    rw [Bool.and_eq_true, decide_eq_true_iff, decide_eq_true_iff]; omega
  have e3 : P.filter (fun x => decide (a < x.1) && decide (x.1 ≤ e.1)) = P.filter (fun x => decide (a < x.1) && decide (x.1 ≤ pos)) := by
    refine List.filter_congr fun x hx => ?_
    have := hP x hx
    rw [decide_eq_true (p := x.1 ≤ e.1) (by omega), decide_eq_true (p := x.1 ≤ pos) this]
  rw [e1, e2, e3, List.append_nil]

theorem between_same (log : List (Nat × NetParts)) (a : Nat) : between log a a = [] := by
  unfold between
  rw [List.filter_eq_nil_iff]
  intro x _
  rw [Bool.and_eq_true, decide_eq_true_iff, decide_eq_true_iff]; omega

/-! ### entries -/

theorem Entry.mono {h : List Ev} {log log' : List (Nat × NetParts)} {pos : Nat} {w : Watch (Nat × C)} (he : Entry h log pos w)
    (hl : log <+: log') (hs : Asc log') (hp : pos ≤ topOf log) : Entry h log' pos w := by
  obtain ⟨b, w0, out, h1, h2, h3, h4, h5, h6, h7, h8⟩ := he
  exact ⟨b, w0, out, h1, h2, h3, h4, h5.trans hl, h6, by rwa [between_mono hl hs hp], h8⟩

theorem Entry.ctx {h : List Ev} {log : List (Nat × NetParts)} {pos : Nat} {w : Watch (Nat × C)} (he : Entry h log pos w) (c : C) :
    Entry h log pos { w with ctx := (w.ctx.1, c) } := by
  obtain ⟨b, w0, out, h1, h2, h3, h4, h5, h6, h7, h8⟩ := he
  exact ⟨b, w0, out, h1, h2, h3, h4, h5, h6, h7, h8⟩

theorem Done.mono {h : List Ev} {log log' : List (Nat × NetParts)} {n : Nat} (hd : Done h log n) (hl : log <+: log') (hs : Asc log') :
    Done h log' n := by
  have hs0 : Asc log := List.Pairwise.sublist hl.sublist hs
  obtain ⟨b, calls, bk, why, h1, h2, h3, h4, h5⟩ := hd
  refine ⟨b, calls, bk, why, h1, h2, h3.trans hl, h4, ?_⟩
  have key : ∀ w0 : Watch Unit, ∀ q : Nat, q ≤ topOf log → between log' b.db.logHead q = between log b.db.logHead q :=
    fun _ q hq => between_mono hl hs hq
  have idle : ∀ P : Prop, (P ∧ ∃ w0 q w1 out, Watch.new b.id b.preds b.nth () = .ok w0 ∧ b.db.logHead ≤ q ∧
      q ≤ topOf log ∧ Sees w0 (between log b.db.logHead q) w1 out ∧ calls = b.found ++ out) →
      (P ∧ ∃ w0 q w1 out, Watch.new b.id b.preds b.nth () = .ok w0 ∧ b.db.logHead ≤ q ∧
      q ≤ topOf log' ∧ Sees w0 (between log' b.db.logHead q) w1 out ∧ calls = b.found ++ out) := by
    rintro P ⟨hP, w0, q, w1, out, f1, f2, f3, f4, f5⟩
    exact ⟨hP, w0, q, w1, out, f1, f2, Nat.le_trans f3 (top_mono hl hs), by rwa [key w0 q f3], f5⟩
  have act : ∀ r, (∃ w0 q w1 out w2 e ok over, Watch.new b.id b.preds b.nth () = .ok w0 ∧ b.db.logHead ≤ q ∧ e ∈ log ∧
      between log b.db.logHead e.1 = between log b.db.logHead q ++ [e] ∧ Sees w0 (between log b.db.logHead q) w1 out ∧
      w1.test e.1 e.2 = .ok (w2, ok, over) ∧ calls = b.found ++ out ++ (if ok then [e] else []) ∧ (bk = true → ok = true) ∧
      (if over then r = Reason.brk else r = Reason.finish ∧ bk = true)) →
      (∃ w0 q w1 out w2 e ok over, Watch.new b.id b.preds b.nth () = .ok w0 ∧ b.db.logHead ≤ q ∧ e ∈ log' ∧
      between log' b.db.logHead e.1 = between log' b.db.logHead q ++ [e] ∧ Sees w0 (between log' b.db.logHead q) w1 out ∧
      w1.test e.1 e.2 = .ok (w2, ok, over) ∧ calls = b.found ++ out ++ (if ok then [e] else []) ∧ (bk = true → ok = true) ∧
      (if over then r = Reason.brk else r = Reason.finish ∧ bk = true)) := by
    rintro r ⟨w0, q, w1, out, w2, e, ok, over, f1, f2, f3, f4, f5, f6, f7, f8, f9⟩
    have hte := top_ge hs0 f3
    have hqe : q < e.1 := by
      have : e ∉ between log b.db.logHead q := by
        intro hm
        have h2 := congrArg (fun l => l.count e) f4
        have hnd : (between log b.db.logHead e.1).Pairwise (fun a b => a.1 < b.1) := List.Pairwise.filter _ hs0
        rw [f4] at hnd
        have := (List.pairwise_append.1 hnd).2.2 e hm e (by simp)
        omega
      have hm : e ∈ between log b.db.logHead e.1 := by rw [f4]; simp
      unfold between at hm this
      rw [List.mem_filter, Bool.and_eq_true, decide_eq_true_iff, decide_eq_true_iff] at hm this
      have h1 := hm.2.1
      rcases Nat.lt_or_ge q e.1 with h | h
      · exact h
      · exact absurd ⟨f3, h1, h⟩ this
    refine ⟨w0, q, w1, out, w2, e, ok, over, f1, f2, hl.subset f3, ?_, ?_, f6, f7, f8, f9⟩
    · rw [key w0 _ hte, key w0 q (by omega), f4]
    · rwa [key w0 q (by omega)]
  cases why with
  | inDb => exact h5
  | unmade => exact h5
  | late => exact ⟨idle _ h5.1, h5.2⟩
  | collected => exact ⟨idle _ h5.1, h5.2⟩
  | closed => exact ⟨idle _ h5.1, h5.2⟩
  | stopped r =>
    cases r with
    | brk => exact act _ h5
    | finish => exact act _ h5
    | replaced => exact idle _ h5
    | closed => exact h5.elim

theorem Sees.recv {w w' : Watch Unit} {L out : List (Nat × NetParts)} (h : Sees w L w' out) : w'.recv = w.recv := by
  induction h with
  | nil => rfl
  | snoc _ ht ih => rw [(test_id ht).2.1, ih]

/-- The reason fits the watch. -/
def Fits (w : Watch (Nat × C)) : Why → Prop
  | .late now | .collected now => w.recv.high.toNat ≤ now
  | .closed id range => w.queryId = id ∨ range = true ∧ id <+: w.queryId
  | .stopped .replaced => True
  | _ => False

/-- A watch that is stopped from outside. -/
theorem Entry.idle {h : List Ev} {log : List (Nat × NetParts)} {pos : Nat} {w : Watch (Nat × C)} (he : Entry h log pos w) (hp : pos ≤ topOf log)
    {why : Why} (hw : Fits w why) : Done (h ++ [.gone w.ctx.1 why]) log w.ctx.1 := by
  obtain ⟨b, w0, out, h1, h2, h3, h4, h5, h6, h7, h8⟩ := he
  refine ⟨b, b.found ++ out, false, why, h1, h2, h5, by rw [h8]; simp, ?_⟩
  have hi : Idle b log (b.found ++ out) false := ⟨rfl, w0, pos, bare w, out, h4, h6, hp, h7, rfl⟩
  have hr : w.recv = b.preds.recv := h7.recv.trans (new_same h4).2.2.2
  cases why with
  | late now => exact ⟨hi, hr ▸ hw⟩
  | collected now => exact ⟨hi, hr ▸ hw⟩
  | closed id range => exact ⟨hi, by rw [h3]; exact hw⟩
  | stopped r => cases r with
    | replaced => exact hi
    | _ => exact hw.elim
  | _ => exact hw.elim

/-! ### histories -/

theorem about_append (n : Nat) (t u : List Ev) : about n (t ++ u) = about n t ++ about n u := List.filter_append ..
theorem about_eq {e : Ev} {n : Nat} (h : Ev.num e = n) : about n [e] = [e] := by simp [about, h]
theorem about_ne {e : Ev} {n : Nat} (h : Ev.num e ≠ n) : about n [e] = [] := by simp [about, h]

theorem note_eq (rt : RT C) {e : Ev} {n : Nat} (h : Ev.num e = n) : about n (rt.note e).trace = about n rt.trace ++ [e] := by
  show about n (rt.trace ++ [e]) = _
  rw [about_append, about_eq h]
theorem note_ne (rt : RT C) {e : Ev} {n : Nat} (h : Ev.num e ≠ n) : about n (rt.note e).trace = about n rt.trace := by
  show about n (rt.trace ++ [e]) = _
  rw [about_append, about_ne h, List.append_nil]

/-! ### the invariant -/

def pendNum : Pending C → Option Nat
  | .new w => some w.ctx.1
  | .stop _ _ => none
/-- The watches that are there or requested. -/
def pendNums (l : List (Pending C)) : List Nat := l.filterMap pendNum
def nums (m : List (Watch (Nat × C))) : List Nat := m.map (fun w => w.ctx.1)
/-- The watches that are there, requested, or held by a function that is running (`X`). -/
def owned (rt : RT C) (X : List Nat) : List Nat := nums rt.watches ++ pendNums rt.pending ++ X

/-- The invariant. `pos`: the watches have seen everything up to there. -/
structure Inv (rt : RT C) (pos : Nat) (X : List Nat) : Prop where
  disk : Consistent rt.disk
  snap : Consistent rt.snap
  pre : rt.snap.log <+: rt.disk.log
  sorted : Sorted rt.watches
  own : (owned rt X).Nodup
  lt : ∀ n ∈ owned rt X, n < rt.next
  fresh : ∀ n, rt.next ≤ n → about n rt.trace = []
  posle : pos ≤ topOf rt.snap.log
  watch : ∀ w ∈ rt.watches, Entry (about w.ctx.1 rt.trace) rt.snap.log pos w
  pend : ∀ w, .new w ∈ rt.pending → Entry (about w.ctx.1 rt.trace) rt.snap.log (topOf rt.snap.log) w
  free : rt.locked = false → pos = topOf rt.snap.log ∧ rt.upto = pos ∧ rt.draining = false
  done : ∀ n, n < rt.next → n ∉ owned rt X → Done (about n rt.trace) rt.snap.log n

/-- What a callback leaves as it was. -/
structure Rel (rt rt' : RT C) (X : List Nat) : Prop where
  locked : rt'.locked = rt.locked
  draining : rt'.draining = rt.draining
  snap : rt'.snap = rt.snap
  upto : rt'.upto = rt.upto
  next : rt.next ≤ rt'.next
  keep : ∀ x ∈ X, about x rt'.trace = about x rt.trace
  lockW : rt.locked = true → rt'.watches = rt.watches
  drainP : rt.draining = true → rt'.pending = rt.pending

theorem Rel.refl (rt : RT C) (X : List Nat) : Rel rt rt X := ⟨rfl, rfl, rfl, rfl, Nat.le_refl _, fun _ _ => rfl, fun _ => rfl, fun _ => rfl⟩
theorem Rel.trans {a b c : RT C} {X : List Nat} (h1 : Rel a b X) (h2 : Rel b c X) : Rel a c X :=
  ⟨h2.locked.trans h1.locked, h2.draining.trans h1.draining, h2.snap.trans h1.snap, h2.upto.trans h1.upto, Nat.le_trans h1.next h2.next,
    fun x hx => (h2.keep x hx).trans (h1.keep x hx), fun h => (h2.lockW (h1.locked.trans h)).trans (h1.lockW h),
    fun h => (h2.drainP (h1.draining.trans h)).trans (h1.drainP h)⟩
theorem Rel.sub {a b : RT C} {X Y : List Nat} (h : Rel a b X) (hs : ∀ y ∈ Y, y ∈ X) : Rel a b Y := { h with keep := fun x hx => h.keep x (hs x hx) }

/-- Changing who holds what. -/
theorem Inv.change {rt rt' : RT C} {pos pos' : Nat} {X X' : List Nat} (h : Inv rt pos X) (e1 : rt'.disk = rt.disk) (e2 : rt'.snap = rt.snap)
    (e3 : rt'.trace = rt.trace) (e4 : rt'.next = rt.next) (hs : Sorted rt'.watches) (hp : (owned rt' X').Perm (owned rt X))
    (hle : pos' ≤ topOf rt.snap.log) (hw : ∀ w ∈ rt'.watches, Entry (about w.ctx.1 rt.trace) rt.snap.log pos' w)
    (hpe : ∀ w, .new w ∈ rt'.pending → Entry (about w.ctx.1 rt.trace) rt.snap.log (topOf rt.snap.log) w)
    (hf : rt'.locked = false → pos' = topOf rt.snap.log ∧ rt'.upto = pos' ∧ rt'.draining = false) : Inv rt' pos' X' := by
  refine ⟨e1 ▸ h.disk, e2 ▸ h.snap, by rw [e1, e2]; exact h.pre, hs, hp.nodup_iff.2 h.own, fun n hn => ?_, fun n hn => ?_, by rw [e2]; exact hle,
    by rw [e2, e3]; exact hw, by rw [e2, e3]; exact hpe, by rw [e2]; exact hf, fun n hn ho => ?_⟩
  · rw [e4]; exact h.lt n (hp.mem_iff.1 hn)
  · rw [e3]; exact h.fresh n (e4 ▸ hn)
  · rw [e3, e2]; exact h.done n (e4 ▸ hn) (fun hx => ho (hp.mem_iff.2 hx))

theorem Inv.perm {rt : RT C} {pos : Nat} {X X' : List Nat} (h : Inv rt pos X) (hp : X'.Perm X) : Inv rt pos X' :=
  h.change rfl rfl rfl rfl h.sorted (List.Perm.append_left _ hp) h.posle h.watch h.pend h.free

theorem Inv.held {rt : RT C} {pos : Nat} {X : List Nat} (h : Inv rt pos X) {n : Nat} (hn : n ∈ X) :
    (∀ w ∈ rt.watches, w.ctx.1 ≠ n) ∧ ∀ w, .new w ∈ rt.pending → w.ctx.1 ≠ n := by
  have := h.own
  unfold owned at this
  rw [List.nodup_append] at this
  refine ⟨fun w hw => this.2.2 _ (List.mem_append_left _ (List.mem_map_of_mem hw)) n hn, fun w hw => this.2.2 _ ?_ n hn⟩
  refine List.mem_append_right _ (List.mem_filterMap.2 ⟨_, hw, rfl⟩)

/-- An event of a watch that is held. -/
theorem Inv.note {rt : RT C} {pos : Nat} {X : List Nat} (h : Inv rt pos X) {e : Ev} (he : Ev.num e ∈ X) : Inv (rt.note e) pos X := by
  refine ⟨h.disk, h.snap, h.pre, h.sorted, h.own, h.lt, fun n hn => ?_, h.posle, fun w hw => ?_, fun w hw => ?_, h.free, fun n hn ho => ?_⟩
  · rw [note_ne, h.fresh n hn]
    intro hx
    have := h.lt n (List.mem_append_right _ (hx ▸ he))
    have hn : rt.next ≤ n := hn
    omega
  · rw [note_ne]
    · exact h.watch w hw
    · exact fun hx => (h.held he).1 w hw hx.symm
  · rw [note_ne]
    · exact h.pend w hw
    · exact fun hx => (h.held he).2 w hw hx.symm
  · rw [note_ne]
    · exact h.done n hn ho
    · exact fun hx => ho (List.mem_append_right _ (hx ▸ he))

theorem Inv.nodupX {rt : RT C} {pos : Nat} {X : List Nat} (h : Inv rt pos X) : X.Nodup := by
  have := h.own
  unfold owned at this
  rw [List.nodup_append] at this
  exact this.2.1

/-- A watch that was held is over. -/
theorem Inv.finish {rt : RT C} {pos n : Nat} {X : List Nat} (h : Inv rt pos (n :: X)) (hd : Done (about n rt.trace) rt.snap.log n) : Inv rt pos X := by
  have hsub : (owned rt X).Sublist (owned rt (n :: X)) := (List.sublist_cons_self n X).append_left _
  refine ⟨h.disk, h.snap, h.pre, h.sorted, h.own.sublist hsub, fun m hm => h.lt m (hsub.subset hm), h.fresh, h.posle, h.watch, h.pend, h.free,
    fun m hm ho => ?_⟩
  by_cases e : m = n
  · rw [e]; exact hd
  · refine h.done m hm fun hx => ho ?_
    unfold owned at hx ⊢
    rw [List.mem_append, List.mem_cons] at hx
    rw [List.mem_append]
    rcases hx with hx | hx | hx
    · exact .inl hx
    · exact absurd hx e
    · exact .inr hx

/-- A new watch begins. -/
theorem Inv.begin {rt : RT C} {pos : Nat} {X : List Nat} (h : Inv rt pos X) {e : Ev} (he : Ev.num e = rt.next) :
    Inv ({ rt with next := rt.next + 1 }.note e) pos (rt.next :: X) ∧ about rt.next ({ rt with next := rt.next + 1 }.note e).trace = [e] := by
  have hnew : ∀ n ∈ owned rt X, n ≠ rt.next := fun n hn hx => by have := h.lt n hn; omega
  constructor
  · refine ⟨h.disk, h.snap, h.pre, h.sorted, ?_, fun n hn => ?_, fun n hn => ?_, h.posle, fun w hw => ?_, fun w hw => ?_, h.free, fun n hn ho => ?_⟩
    · have hp : (owned ({ rt with next := rt.next + 1 }.note e) (rt.next :: X)).Perm (rt.next :: owned rt X) := List.perm_middle
      rw [hp.nodup_iff, List.nodup_cons]
      exact ⟨fun hx => hnew _ hx rfl, h.own⟩
    · have hn : n ∈ nums rt.watches ++ pendNums rt.pending ++ rt.next :: X := hn
      show n < rt.next + 1
      rw [List.mem_append, List.mem_cons] at hn
      rcases hn with hn | hn | hn
      · have := h.lt n (List.mem_append_left _ hn); omega
      · omega
      · have := h.lt n (List.mem_append_right _ hn); omega
    · have hn : rt.next + 1 ≤ n := hn
      rw [note_ne]
      · exact h.fresh n (by omega)
      · omega
    · rw [note_ne]
      · exact h.watch w hw
      · intro hx
        exact hnew _ (List.mem_append_left _ (List.mem_append_left _ (List.mem_map_of_mem hw))) (hx.symm.trans he)
    · rw [note_ne]
      · exact h.pend w hw
      · intro hx
        exact hnew _ (List.mem_append_left _ (List.mem_append_right _ (List.mem_filterMap.2 ⟨_, hw, rfl⟩))) (hx.symm.trans he)
    · have hn : n < rt.next + 1 := hn
      have ho : n ∉ nums rt.watches ++ pendNums rt.pending ++ rt.next :: X := ho
      rw [List.mem_append, List.mem_cons, not_or, not_or] at ho
      rw [note_ne]
      · refine h.done n (by omega) ?_
        intro hx
        rcases List.mem_append.1 hx with hx | hx
        · exact ho.1 hx
        · exact ho.2.2 hx
      · omega
  · rw [note_eq _ he]
    show about rt.next rt.trace ++ [e] = [e]
    rw [h.fresh _ (Nat.le_refl _), List.nil_append]

/-! ### dropping -/

/-- Running a callback keeps the invariant. -/
def Good (call : Call C) : Prop := ∀ (pos : Nat) (X : List Nat) (rt : RT C) (a : Act C) (rt' : RT C) (r : C × Bool), Quiet a → Inv rt pos X →
  call rt a = .ok (rt', r) → Inv rt' pos X ∧ Rel rt rt' X

variable {p : Prog C} {call : Call C}

theorem dropWatch_spec (hq : QuietProg p) (hg : Good call) {rt rt' : RT C} {pos : Nat} {X : List Nat} {w : Watch (Nat × C)} {why : Why} {r : Reason}
    (h : Inv rt pos (w.ctx.1 :: X)) (hd : Done (about w.ctx.1 rt.trace ++ [.gone w.ctx.1 why]) rt.snap.log w.ctx.1)
    (ho : dropWatch p call rt w why r = .ok rt') : Inv rt' pos X ∧ Rel rt rt' X := by
  unfold dropWatch at ho
  cases hc : call (rt.note (.gone w.ctx.1 why)) (p.stopped w.ctx.2 r) with
  | error e => rw [hc] at ho; cases ho
  | ok x =>
    obtain ⟨rt1, y⟩ := x
    rw [hc] at ho
    cases ho
    have h1 : Inv (rt.note (.gone w.ctx.1 why)) pos X := by
      refine (h.note (e := .gone w.ctx.1 why) (by simp [Ev.num])).finish ?_
      rw [note_eq (n := w.ctx.1) _ rfl]; exact hd
    obtain ⟨i, rl⟩ := hg _ _ _ _ _ _ (hq.2 _ _) h1 hc
    refine ⟨i, ⟨rl.locked, rl.draining, rl.snap, rl.upto, rl.next, fun x hx => ?_, rl.lockW, rl.drainP⟩⟩
    rw [rl.keep x hx, note_ne]
    intro hx'
    have hx' : w.ctx.1 = x := hx'
    have := h.nodupX
    rw [List.nodup_cons] at this
    exact this.1 (hx' ▸ hx)

theorem dropWatches_spec (hq : QuietProg p) (hg : Good call) {why : Why} {r : Reason} {ws : List (Watch (Nat × C))} (hf : ∀ w ∈ ws, Fits w why) {rt rt' : RT C}
    {pos : Nat} {X : List Nat} (h : Inv rt pos (nums ws ++ X)) (he : ∀ w ∈ ws, Entry (about w.ctx.1 rt.trace) rt.snap.log pos w)
    (ho : dropWatches p call why r rt ws = .ok rt') : Inv rt' pos X ∧ Rel rt rt' X := by
  induction ws generalizing rt with
  | nil => cases ho; exact ⟨h, Rel.refl _ _⟩
  | cons w ws ih =>
    unfold dropWatches at ho
    cases hc : dropWatch p call rt w why r with
    | error e => rw [hc] at ho; cases ho
    | ok rt1 =>
      rw [hc] at ho
      obtain ⟨i1, r1⟩ := dropWatch_spec hq hg (X := nums ws ++ X) h
        ((he w (by simp)).idle h.posle (hf w (by simp))) hc
      obtain ⟨i2, r2⟩ := ih (fun v hv => hf v (by simp [hv])) i1 (fun v hv => by
        rw [r1.keep v.ctx.1 (List.mem_append_left _ (List.mem_map_of_mem hv)), r1.snap]
        exact he v (by simp [hv])) ho
      exact ⟨i2, (r1.sub (fun y hy => List.mem_append_right _ hy)).trans r2⟩

end Verif.Rt
