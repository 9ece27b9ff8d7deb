import Verif.Model.MultiWatch
import Verif.Spec.MultiWatch
import Verif.Props.Predicates
import Verif.Lemmas.QueryText
/-!
# Lemmas on what failing statements leave behind
-/
namespace Verif.Multi
open Verif Verif.Abl Verif.Abe Verif.Pkt Verif.Pred Verif.QText Verif.Opt Verif.Eval Verif.Spec Verif.Props

/-! ### the outcomes are those of the other model -/

def Left.res {σ : Type} : Left σ → PRes σ
  | (s, .ok ()) => .ok s
  | (_, .error e) => .error e

theorem res_next {σ : Type} (x : Left σ) (k : σ → Left σ) : (x.next k).res = match x.res with
    | .ok s => (k s).res
    | .error e => .error e := by
  obtain ⟨s, r⟩ := x
  cases r <;> rfl
theorem res_get {σ α : Type} (s : σ) (x : PRes α) (k : α → Left σ) : (Left.get s x k).res = match x with
    | .ok a => (k a).res
    | .error e => .error e := by
  cases x <;> rfl

theorem addTo_res (dbg : Bool) (s : Preds) (f : VF) (op : TestOp) (v : BitVec f.width) : (addTo dbg s f op v).res = s.addTo dbg f op v := by
  simp only [addTo, Preds.addTo, TestSet.tryAdd]
  cases ((s.set f).add op v).hasAny dbg with
  | error e => rfl
  | ok b => cases b <;> rfl
theorem addState_res (dbg : Bool) (s : Preds) (q : QScope) (op : TestOp) (v : BitVec 32) : (addState dbg s q op v).res =
    match (s.state q).tryAdd dbg op v with
    | .ok t => .ok (s.putState q t)
    | .error e => .error e := by
  simp only [addState, TestSet.tryAdd]
  cases ((s.state q).add op v).hasAny dbg with
  | error e => rfl
  | ok b => cases b <;> rfl

theorem checkSpace_res (dbg : Bool) (s : Preds) : (checkSpace dbg s).res = s.checkSpace dbg := by
  unfold checkSpace Preds.checkSpace
  rw [res_next]
  have e : (if s.preDepth = 0 then (s, .ok ()) else addTo dbg s .depth .greater (BitVec.ofNat _ (s.preDepth.toNat - 1)) : Left Preds).res =
      if s.preDepth = 0 then .ok s else s.addTo dbg .depth .greater (BitVec.ofNat _ (s.preDepth.toNat - 1)) := by
    split
    · rfl
    · exact addTo_res ..
  rw [e]
  generalize (if s.preDepth = 0 then _ else _ : PRes Preds) = o
  cases o with
  | error e => rfl
  | ok s =>
    simp only [res_get]
    cases (s.set .depth).info dbg (BitVec.ofNat _ s.preDepth.toNat) with
    | error e => rfl
    | ok i => simp only; split <;> rfl

theorem addPrefix_res (dbg : Bool) (s : Preds) (sp : Bytes) : (addPrefix dbg s sp).res = s.addPrefix dbg sp := by
  unfold addPrefix Preds.addPrefix
  split
  · rfl
  · split
    · rw [res_get]
      cases root dbg sp with
      | error e => rfl
      | ok r => exact checkSpace_res ..
    · rfl

theorem after_res (dbg : Bool) (s : Preds) (f : VF) (op : TestOp) : (after dbg s f op).res = s.after dbg f op := by
  cases f <;> first
    | rfl
    | exact checkSpace_res ..
    | (simp only [after, Preds.after]; split
       · exact addState_res ..
       · rfl)

theorem andField_res (dbg : Bool) (s : Preds) (f : VF) (op : TestOp) (val : ABList) : (andField dbg s f op val).res = s.andField dbg f op val := by
  unfold andField Preds.andField
  rw [res_next, show (addTo dbg s .type .mask1 f.pkts).res = s.addTo dbg .type .mask1 f.pkts from addTo_res ..]
  cases s.addTo dbg .type .mask1 f.pkts with
  | error e => rfl
  | ok s =>
    simp only [res_get]
    cases f.read val with
    | error e => rfl
    | ok b =>
      simp only [res_next, addTo_res]
      cases s.addTo dbg f op (BitVec.ofNat _ (beNat b)) with
      | error e => rfl
      | ok s => exact after_res ..

theorem andSpacename_res (dbg : Bool) (s : Preds) (op : TestOp) (val : ABList) : (andSpacename dbg s op val).res = s.andSpacename dbg op val := by
  unfold andSpacename Preds.andSpacename
  rw [res_next, show (addTo dbg s .type .mask1 2#8).res = s.addTo dbg .type .mask1 2#8 from addTo_res ..]
  cases s.addTo dbg .type .mask1 2#8 with
  | error e => rfl
  | ok s =>
    simp only
    split
    · rfl
    · rw [res_get]
      cases readSpace val with
      | error e => rfl
      | ok sp =>
        simp only [res_get]
        cases root dbg sp with
        | error e => rfl
        | ok r =>
          simp only [res_next, addTo_res]
          cases s.addTo dbg .depth .equal (BitVec.ofNat _ (r.headD 0).toNat) with
          | error e => rfl
          | ok s =>
            simp only
            split
            · exact checkSpace_res ..
            · rfl

theorem and_res (dbg : Bool) (s : Preds) (r : Stmt) : (and dbg s r).res = s.and dbg r := by
  obtain ⟨k, op, val⟩ := r
  cases k with
  | field f => exact andField_res ..
  | spacename => exact andSpacename_res ..
  | todo pkts =>
    simp only [and, Preds.and, res_next]
    rw [show (addTo dbg s .type .mask1 pkts).res = s.addTo dbg .type .mask1 pkts from addTo_res ..]
    cases s.addTo dbg .type .mask1 pkts <;> rfl
  | recv =>
    simp only [and, Preds.and, res_get]
    cases readExact 8 val with
    | error e => rfl
    | ok b =>
      simp only [Bound.tryAdd]
      split <;> rfl
  | pre =>
    simp only [and, Preds.and]
    split
    · rfl
    · rw [res_get]
      cases readSpace val with
      | error e => rfl
      | ok sp => exact addPrefix_res ..
  | limit q =>
    simp only [and, Preds.and, res_get]
    cases readExact 4 val with
    | error e => rfl
    | ok b =>
      simp only
      cases Preds.isValid dbg (s.putState q ((s.state q).add op (BitVec.ofNat 32 (beNat b)))) <;> rfl

theorem run_res (dbg : Bool) (s : Preds) (rs : List Stmt) : (run dbg s rs).res = s.run dbg rs := by
  induction rs generalizing s with
  | nil => rfl
  | cons r rs ih =>
    rw [run, Preds.run, res_next, and_res]
    cases s.and dbg r with
    | error e => rfl
    | ok s => exact ih s

theorem addStmt_res (dbg : Bool) (q : Query) (stmt : ABList) : (addStmt dbg q stmt).res = q.addStmt dbg stmt := by
  unfold addStmt Query.addStmt
  split
  · rfl
  · rw [res_get]
    cases addOptionAbl q.conf _ <;> rfl
  · rw [res_get]
    cases extOf _ with
    | error e => rfl
    | ok e =>
      simp only [addExt, Preds.addExt]
      cases e.stmts with
      | error f => rfl
      | ok rs =>
        have := run_res dbg q.preds rs
        simp only [Left.get]
        generalize run dbg q.preds rs = x at *
        obtain ⟨s, o⟩ := x
        cases o <;> (rw [← this]; rfl)

theorem addLines_res (dbg : Bool) (sc : Scope) (n : Nat) (q : Query) (ls : List Bytes) : (addLines dbg sc n q ls).res = q.addLines dbg sc n ls := by
  induction ls generalizing q with
  | nil => rfl
  | cons line r ih =>
    unfold addLines Query.addLines
    split
    · exact ih q
    · rw [res_get]
      cases evalLine dbg sc n line with
      | error e => rfl
      | ok l =>
        simp only [res_next, addStmt_res]
        cases q.addStmt dbg l with
        | error e => rfl
        | ok q => exact ih q

theorem parse_res (dbg : Bool) (sc : Scope) (n : Nat) (q : Query) (t : Bytes) : (parse dbg sc n q t).res = q.parse dbg sc n t :=
  addLines_res ..

theorem res_ok {σ : Type} {x : Left σ} {s : σ} (h : x = (s, .ok ())) : x.res = .ok s := by rw [h]; rfl
theorem res_error {σ : Type} {x : Left σ} {s : σ} {e} (h : x = (s, .error e)) : x.res = .error e := by rw [h]; rfl

/-! ### what is left behind -/

/-- A state with a well formed prefix; its sets may be empty. -/
def Sound (s : Preds) : Prop := ∃ a : Abs, a.Good ∧ s = a.preds

theorem sound_next {x : Left Preds} {k : Preds → Left Preds} (h : Sound x.1) (hk : Sound x.1 → Sound (k x.1).1) : Sound (x.next k).1 := by
  obtain ⟨s, r⟩ := x
  cases r with
  | ok _ => exact hk h
  | error e => exact h
theorem sound_get {α : Type} {s : Preds} {x : PRes α} {k : α → Left Preds} (h : Sound s) (hk : ∀ a, x = .ok a → Sound (k a).1) :
    Sound (Left.get s x k).1 := by
  cases x with
  | ok a => exact hk a rfl
  | error e => exact h

theorem sound_addTo {s : Preds} (h : Sound s) (dbg : Bool) (f : VF) (op : TestOp) (v : BitVec f.width) : Sound (addTo dbg s f op v).1 := by
  obtain ⟨a, hg, rfl⟩ := h
  exact ⟨a.addSet f op v, good_addSet hg f op v, rfl⟩

/-- `check_space` leaves the prefix and the lower bound of the depth. -/
theorem checkSpace_left (a : Abs) (h : a.pc.length ≤ 8) : (checkSpace true a.preds).1 = a.addGt.preds := by
  have hk : ∀ s : Preds, (Left.get s ((s.set .depth).info true (BitVec.ofNat _ s.preDepth.toNat)) fun i =>
      if i.val.isSome then (s, .ok ()) else (s, .error (.err ())) : Left Preds).1 = s := by
    intro s
    unfold Left.get
    split
    · simp only; split <;> rfl
    · rfl
  have hn : ∀ x : Left Preds, (x.next fun s => Left.get s ((s.set .depth).info true (BitVec.ofNat _ s.preDepth.toNat)) fun i =>
      if i.val.isSome then (s, .ok ()) else (s, .error (.err ()))).1 = x.1 := by
    rintro ⟨s, r⟩
    cases r with
    | ok _ => exact hk s
    | error e => rfl
  unfold checkSpace
  rw [hn]
  unfold Abs.addGt
  by_cases h0 : a.pc.length = 0
  · rw [if_pos ((preDepth_zero a h).2 h0), if_pos h0]
  · rw [if_neg (fun h' => h0 ((preDepth_zero a h).1 h')), if_neg h0, preDepth_toNat a h]
    rfl

theorem good_pc {a : Abs} {cs : List Bytes} (hs : IsSpace (encodeSpace cs) cs) (h8 : cs.length ≤ 8) :
    (Abs.addGt { a with pc := cs }).Good :=
  ⟨by rw [addGt_pc]; exact hs, by rw [addGt_pc]; exact h8, by rw [addGt_pc]; exact addGt_low { a with pc := cs } h8⟩

theorem sound_root {s : Preds} (h : Sound s) {sp r : Bytes} {cs : List Bytes} (hs : IsSpace sp cs) (hr : root true sp = .ok r) :
    Sound (checkSpace true { s with rspace := r }).1 := by
  obtain ⟨a, hg, rfl⟩ := h
  rw [root_eq hs] at hr
  cases hr
  have h8 : (cs.take 8).length ≤ 8 := by simp; omega
  exact ⟨_, good_pc (a := a) (isSpace_take hs 8) h8, checkSpace_left { a with pc := cs.take 8 } h8⟩

theorem sound_checkSpace {s : Preds} (h : Sound s) : Sound (checkSpace true s).1 := by
  obtain ⟨a, hg, rfl⟩ := h
  rw [checkSpace_left a hg.depth, addGt_id hg]
  exact ⟨a, hg, rfl⟩

theorem sound_state {s : Preds} (h : Sound s) (q : QScope) (t : TestSet 32) : Sound (s.putState q t) := by
  obtain ⟨a, hg, rfl⟩ := h
  exact ⟨⟨a.set, a.recv, fun r => if r = q then t else a.state r, a.pc⟩, ⟨hg.space, hg.depth, hg.low⟩, rfl⟩

theorem sound_and {s : Preds} (h : Sound s) (r : Stmt) : Sound (and true s r).1 := by
  obtain ⟨k, op, val⟩ := r
  cases k with
  | field f =>
    refine sound_next (sound_addTo h _ _ _ _) fun h => sound_get h fun b _ => sound_next (sound_addTo h _ _ _ _) fun h => ?_
    cases f <;> first
      | exact h
      | exact sound_checkSpace h
      | (unfold after; simp only; split
         · exact sound_state h _ _
         · exact h)
  | spacename =>
    refine sound_next (sound_addTo h _ _ _ _) fun h => ?_
    split
    · exact h
    · refine sound_get h fun sp hsp => sound_get h fun r hr => sound_next (sound_addTo h _ _ _ _) fun h => ?_
      obtain ⟨cs, hs⟩ := readSpace_isSpace hsp
      split
      · exact sound_root h hs hr
      · exact h
  | todo pkts => exact sound_next (sound_addTo h _ _ _ _) fun h => h
  | recv =>
    refine sound_get h fun b _ => ?_
    obtain ⟨a, hg, rfl⟩ := h
    exact ⟨⟨a.set, a.recv.add op (BitVec.ofNat 64 (beNat b)), a.state, a.pc⟩, ⟨hg.space, hg.depth, hg.low⟩, rfl⟩
  | pre =>
    simp only [and]
    split
    · exact h
    · refine sound_get h fun sp hsp => ?_
      obtain ⟨cs, hs⟩ := readSpace_isSpace hsp
      unfold addPrefix
      split
      · exact h
      · split
        · exact sound_get h fun r hr => sound_root h hs hr
        · exact h
  | limit q => exact sound_get h fun b _ => sound_state h _ _

theorem sound_run {s : Preds} (h : Sound s) (rs : List Stmt) : Sound (run true s rs).1 := by
  induction rs generalizing s with
  | nil => exact h
  | cons r rs ih => exact sound_next (sound_and h r) fun h => ih h

theorem sound_addStmt {q : Query} (h : Sound q.preds) (l : ABList) : Sound (addStmt true q l).1.preds := by
  unfold addStmt
  split
  · exact h
  · cases addOptionAbl q.conf _ <;> exact h
  · cases extOf _ with
    | error e => exact h
    | ok e => exact sound_get h fun rs _ => sound_run h rs

theorem sound_addLines {q : Query} (h : Sound q.preds) (sc : Scope) (n : Nat) (ls : List Bytes) : Sound (addLines true sc n q ls).1.preds := by
  induction ls generalizing q with
  | nil => exact h
  | cons line r ih =>
    unfold addLines
    split
    · exact ih h
    · cases evalLine true sc n line with
      | error e => exact h
      | ok l =>
        have h1 := sound_addStmt h l
        simp only [Left.get]
        generalize addStmt true q l = x at *
        obtain ⟨q1, o⟩ := x
        cases o with
        | ok _ => exact ih h1
        | error e => exact h1

/-! ### what an accepted statement enforces, whatever was left behind -/

/-- From `a` to `a'` by these effects; a set that has members keeps some, and the sets touched have some. -/
structure Step (a a' : Abs) (es : List Eff) : Prop where
  effs : a.effs es = some a'
  ok : ∀ e ∈ es, e.Ok
  keep : ∀ f, (∃ x, (a.set f).Mem x) → ∃ x, (a'.set f).Mem x
  touch : ∀ f op v, Eff.add f op v ∈ es → ∃ x, (a'.set f).Mem x

theorem Step.trans {a b c : Abs} {es fs : List Eff} (h : Step a b es) (h' : Step b c fs) : Step a c (es ++ fs) := by
  refine ⟨by rw [Abs.effs_append, h.effs]; exact h'.effs, ?_, fun f hf => h'.keep f (h.keep f hf), ?_⟩
  · intro e he
    rcases List.mem_append.1 he with he | he
    · exact h.ok e he
    · exact h'.ok e he
  · intro f op v he
    rcases List.mem_append.1 he with he | he
    · exact h'.keep f (h.touch f op v he)
    · exact h'.touch f op v he

theorem Step.good {a b : Abs} {es : List Eff} (h : Step a b es) (hg : a.Good) : b.Good := Abs.effs_good hg h.ok h.effs

theorem Step.refl (a : Abs) : Step a a [] := ⟨rfl, nofun, fun _ h => h, nofun⟩

theorem step_add {a : Abs} {f : VF} {op : TestOp} {v : BitVec f.width} {s : Preds} (h : a.preds.addTo true f op v = .ok s) :
    s = (a.addSet f op v).preds ∧ Step a (a.addSet f op v) [.add f op v] := by
  obtain ⟨rfl, hx⟩ := (Abs.addTo_iff _ _ _ _ _).1 h
  refine ⟨rfl, rfl, ?_, ?_, ?_⟩
  · intro e he; rw [List.mem_singleton.1 he]; trivial
  · intro g hg
    by_cases hh : g = f
    · subst hh; exact hx
    · rw [Abs.addSet_other _ _ _ _ _ hh]; exact hg
  · intro g op' v' he
    have := List.mem_singleton.1 he
    cases this
    exact hx

theorem step_state {a : Abs} {q : QScope} {op : TestOp} {v : BitVec 32} : Step a (a.addState q op v) [.st q op v] := by
  refine ⟨rfl, ?_, fun _ h => h, ?_⟩
  · intro e he; rw [List.mem_singleton.1 he]; trivial
  · intro g op' v' he
    cases List.mem_singleton.1 he

theorem checkSpace_ne {a : Abs} (h8 : a.pc.length ≤ 8) {s : Preds} (h : a.preds.checkSpace true = .ok s) : ∃ x, (a.set .depth).Mem x := by
  unfold Preds.checkSpace at h
  by_cases h0 : a.pc.length = 0
  · rw [if_pos ((preDepth_zero a h8).2 h0)] at h
    simp only at h
    rw [← hasAny_true_iff (width_gt .depth) (width_lt .depth)]
    unfold TestSet.info at h
    simp only [if_true] at h
    have e : a.preds.set .depth = a.set .depth := rfl
    rw [e] at h
    cases hh : (a.set .depth).hasAny true with
    | error e => rw [hh] at h; cases h
    | ok b =>
      cases b with
      | false => rw [hh] at h; cases h
      | true => rfl
  · rw [if_neg (fun h' => h0 ((preDepth_zero a h8).1 h'))] at h
    cases hc : a.preds.addTo true .depth .greater (BitVec.ofNat _ (a.preds.preDepth.toNat - 1)) with
    | error e => rw [hc] at h; cases h
    | ok s1 =>
      obtain ⟨_, x, hx⟩ := (Abs.addTo_iff _ _ _ _ _).1 hc
      exact ⟨x, Abs.eff_mem (e := .add .depth .greater _) rfl hx⟩

theorem step_pc {a : Abs} {cs q : List Bytes} (hq : joinPre a.pc cs = some q) (hs : IsSpace (encodeSpace cs) cs) (h8 : cs.length ≤ 8) (hq8 : q.length ≤ 8)
    {s : Preds} (h : ({ a with pc := q } : Abs).preds.checkSpace true = .ok s) :
    s = (Abs.addGt { a with pc := q }).preds ∧ Step a (Abs.addGt { a with pc := q }) [.pre cs] := by
  obtain ⟨h1, h2⟩ := (checkSpace_iff { a with pc := q } hq8 (checkSpace_ne hq8 h) s).1 h
  refine ⟨h1, ?_, ?_, ?_, ?_⟩
  · rw [effs_one]; simp only [Abs.eff, hq, Option.map_some]
  · intro e he; rw [List.mem_singleton.1 he]; exact ⟨hs, h8⟩
  · intro f hf
    by_cases hd : f = .depth
    · subst hd; exact h2
    · rw [addGt_other _ _ hd]; exact hf
  · intro g op' v' he
    cases List.mem_singleton.1 he

theorem step_checkSpace {a : Abs} (hg : a.Good) {s : Preds} (h : a.preds.checkSpace true = .ok s) : s = a.preds := by
  obtain ⟨h1, _⟩ := (checkSpace_iff a hg.depth (checkSpace_ne hg.depth h) s).1 h
  rw [h1, addGt_id hg]

theorem step_prefix {a : Abs} (hg : a.Good) {sp : Bytes} {cs : List Bytes} (hs : IsSpace sp cs) {s : Preds} (h : a.preds.addPrefix true sp = .ok s) :
    ∃ a', s = a'.preds ∧ Step a a' [.pre (cs.take 8)] := by
  have e1 : Space.startsWith (spaceOf a.preds.rspace) sp = true ↔ cs <+: a.pc := by
    rw [spaceOf_pc]; exact space_starts_with hg.space hs
  have e2 : Space.startsWith sp (spaceOf a.preds.rspace) = true ↔ a.pc <+: cs := by
    rw [spaceOf_pc]; exact space_starts_with hs hg.space
  have h8 : (cs.take 8).length ≤ 8 := by simp; omega
  unfold Preds.addPrefix at h
  by_cases h1 : cs <+: a.pc
  · rw [if_pos (e1.2 h1)] at h
    cases h
    have ht : cs.take 8 = cs := List.take_of_length_le (Nat.le_trans h1.length_le hg.depth)
    have hj : joinPre a.pc (cs.take 8) = some a.pc := by rw [ht]; unfold joinPre; rw [if_pos h1]
    refine ⟨a, rfl, ?_, ?_, fun _ h => h, ?_⟩
    · rw [effs_one]; simp only [Abs.eff, hj, Option.map_some]; rw [addGt_id (a := { a with pc := a.pc }) hg]
    · intro e he; rw [List.mem_singleton.1 he]; exact ⟨isSpace_take hs 8, h8⟩
    · intro g op' v' he; cases List.mem_singleton.1 he
  · rw [if_neg (fun h => h1 (e1.1 h))] at h
    by_cases h2 : a.pc <+: cs
    · rw [if_pos (e2.2 h2), root_eq hs] at h
      have h2' := (prefix_take hg.depth).1 h2
      have hj : joinPre a.pc (cs.take 8) = some (cs.take 8) := by
        unfold joinPre
        by_cases h3 : cs.take 8 <+: a.pc
        · rw [if_pos h3, h3.eq_of_length (Nat.le_antisymm h3.length_le h2'.length_le)]
        · rw [if_neg h3, if_pos h2']
      exact ⟨_, step_pc hj (isSpace_take hs 8) h8 h8 h⟩
    · rw [if_neg (fun h => h2 (e2.1 h))] at h
      cases h

theorem step_after {a : Abs} (hg : a.Good) {f : VF} {op : TestOp} {s : Preds} (h : a.preds.after true f op = .ok s) :
    ∃ a', s = a'.preds ∧ Step a a' (if f = .hash ∧ op = .equal then [.st .query .equal 0#32] else []) := by
  by_cases hh : f = .hash
  · subst hh
    by_cases ho : op = .equal
    · rw [if_pos ⟨rfl, ho⟩]
      simp only [Preds.after, if_pos ho] at h
      split at h
      · rename_i t ht
        obtain ⟨rfl, _⟩ := (tryAdd_true_iff (by decide) (by decide) _ _ _ _).1 ht
        cases h
        exact ⟨a.addState .query .equal 0#32, rfl, step_state⟩
      · cases h
    · rw [if_neg (fun h => ho h.2)]
      simp only [Preds.after, if_neg ho] at h
      cases h
      exact ⟨a, rfl, .refl a⟩
  · rw [if_neg (fun h => hh h.1)]
    by_cases hd : f = .depth
    · subst hd
      exact ⟨a, step_checkSpace hg h, .refl a⟩
    · have : a.preds.after true f op = .ok a.preds := by
        cases f <;> first | rfl | exact absurd rfl hh | exact absurd rfl hd
      rw [this] at h
      cases h
      exact ⟨a, rfl, .refl a⟩

theorem step_and {a : Abs} (hg : a.Good) {r : Stmt} {s : Preds} (h : a.preds.and true r = .ok s) :
    ∃ es a', r.effs = some es ∧ s = a'.preds ∧ Step a a' es := by
  obtain ⟨k, op, val⟩ := r
  cases k with
  | field f =>
    simp only [Preds.and, Preds.andField] at h
    cases h1 : a.preds.addTo true .type .mask1 f.pkts with
    | error e => rw [h1] at h; cases h
    | ok s1 =>
      obtain ⟨rfl, st1⟩ := step_add h1
      rw [h1] at h
      simp only at h
      cases hr : f.read val with
      | error e => rw [hr] at h; cases h
      | ok b =>
        rw [hr] at h
        simp only at h
        cases h2 : (a.addSet .type .mask1 f.pkts).preds.addTo true f op (BitVec.ofNat _ (beNat b)) with
        | error e => rw [h2] at h; cases h
        | ok s2 =>
          obtain ⟨rfl, st2⟩ := step_add h2
          rw [h2] at h
          simp only at h
          obtain ⟨a', rfl, st3⟩ := step_after (good_addSet (good_addSet hg _ _ _) _ _ _) h
          exact ⟨_, a', by simp only [Stmt.effs, hr]; rfl, rfl, (st1.trans st2).trans st3⟩
  | spacename =>
    simp only [Preds.and, Preds.andSpacename] at h
    cases h1 : a.preds.addTo true .type .mask1 2#8 with
    | error e => rw [h1] at h; cases h
    | ok s1 =>
      obtain ⟨rfl, st1⟩ := step_add h1
      rw [h1] at h
      simp only at h
      split at h
      · cases h
      · rename_i ho
        have ho : op = .equal := Decidable.not_not.1 ho
        cases hr : readSpace val with
        | error e => rw [hr] at h; cases h
        | ok sp =>
          rw [hr] at h
          simp only at h
          obtain ⟨full, hf⟩ := readSpace_isSpace hr
          have hsa := spaceArg_eq hr hf
          rw [root_eq hf] at h
          simp only at h
          obtain ⟨cs, hcs⟩ : ∃ cs, cs = full.take 8 := ⟨_, rfl⟩
          rw [← hcs] at h hsa
          have hs : IsSpace (encodeSpace cs) cs := hcs ▸ isSpace_take hf 8
          have h8 : cs.length ≤ 8 := by rw [hcs]; simp; omega
          have hd : ((rootedOf cs).headD 0).toNat = cs.length := preDepth_toNat ⟨a.set, a.recv, a.state, cs⟩ h8
          have hsp : spaceOf (rootedOf cs) = encodeSpace cs := spaceOf_pc ⟨a.set, a.recv, a.state, cs⟩
          rw [hd, hsp] at h
          cases h2 : (a.addSet .type .mask1 2#8).preds.addTo true .depth .equal (BitVec.ofNat _ cs.length) with
          | error e => rw [h2] at h; cases h
          | ok s2 =>
            obtain ⟨rfl, st2⟩ := step_add h2
            rw [h2] at h
            simp only at h
            split at h
            · rename_i hst
              let a2 := (a.addSet .type .mask1 2#8).addSet .depth .equal (BitVec.ofNat _ cs.length)
              have hg2 : a2.Good := good_addSet (good_addSet hg _ _ _) _ _ _
              have hpre : a2.pc <+: cs := by
                rw [show spaceOf a2.preds.rspace = encodeSpace a2.pc from spaceOf_pc a2] at hst
                exact (space_starts_with hs hg2.space).1 hst
              have hj : joinPre a2.pc cs = some cs := by
                unfold joinPre
                by_cases h3 : cs <+: a2.pc
                · rw [if_pos h3, hpre.eq_of_length (Nat.le_antisymm hpre.length_le h3.length_le)]
                · rw [if_neg h3, if_pos hpre]
              obtain ⟨rfl, st3⟩ := step_pc (a := a2) hj hs h8 h8 h
              refine ⟨_, _, ?_, rfl, (st1.trans st2).trans st3⟩
              simp only [Stmt.effs, ho, if_true, hsa, Option.map_some]
              rfl
            · cases h
  | todo pkts =>
    simp only [Preds.and] at h
    split at h <;> cases h
  | recv =>
    simp only [Preds.and] at h
    cases hr : readExact 8 val with
    | error e => rw [hr] at h; cases h
    | ok b =>
      rw [hr] at h
      simp only at h
      split at h
      · rename_i t ht
        unfold Bound.tryAdd at ht
        simp only at ht
        split at ht
        · cases ht
          cases h
          refine ⟨[.rcv op (BitVec.ofNat 64 (beNat b))], { a with recv := a.recv.add op (BitVec.ofNat 64 (beNat b)) }, by simp only [Stmt.effs, hr], rfl, rfl, ?_, fun _ h => h, ?_⟩
          · intro e he; rw [List.mem_singleton.1 he]; trivial
          · intro g op' v' he; cases List.mem_singleton.1 he
        · cases ht
      · cases h
  | pre =>
    simp only [Preds.and] at h
    split at h
    · cases h
    · rename_i ho
      have ho : op = .equal := Decidable.not_not.1 ho
      cases hr : readSpace val with
      | error e => rw [hr] at h; cases h
      | ok sp =>
        rw [hr] at h
        simp only at h
        obtain ⟨full, hf⟩ := readSpace_isSpace hr
        obtain ⟨a', rfl, st⟩ := step_prefix hg hf h
        exact ⟨_, a', by simp only [Stmt.effs, ho, if_true, spaceArg_eq hr hf, Option.map_some], rfl, st⟩
  | limit q =>
    simp only [Preds.and] at h
    cases hr : readExact 4 val with
    | error e => rw [hr] at h; cases h
    | ok b =>
      rw [hr] at h
      simp only at h
      split at h
      · cases h
      · cases h
        exact ⟨_, a.addState q op (BitVec.ofNat 32 (beNat b)), by simp only [Stmt.effs, hr], rfl, step_state⟩

theorem step_run {a : Abs} (hg : a.Good) {rs : List Stmt} {s : Preds} (h : a.preds.run true rs = .ok s) :
    ∃ es a', effsOf rs = some es ∧ s = a'.preds ∧ Step a a' es := by
  induction rs generalizing a with
  | nil => cases h; exact ⟨[], a, rfl, rfl, .refl a⟩
  | cons r rs ih =>
    unfold Preds.run at h
    split at h
    · cases h
    · rename_i s1 h1
      obtain ⟨es, a1, he, rfl, st⟩ := step_and hg h1
      obtain ⟨fs, a2, hf, rfl, st2⟩ := ih (st.good hg) h
      exact ⟨es ++ fs, a2, by unfold effsOf; rw [he, hf], rfl, st.trans st2⟩

theorem effs_mono {a b : Abs} {es : List Eff} (h : a.effs es = some b) :
    (∀ f (x : BitVec f.width), (b.set f).Mem x → (a.set f).Mem x) ∧ (∀ x, b.recv.Mem x → a.recv.Mem x) ∧
    (∀ q x, (b.state q).Mem x → (a.state q).Mem x) ∧ a.pc <+: b.pc := by
  induction es generalizing a with
  | nil => cases h; exact ⟨fun _ _ h => h, fun _ h => h, fun _ _ h => h, List.prefix_refl _⟩
  | cons e es ih =>
    simp only [Abs.effs] at h
    cases hc : a.eff e with
    | none => rw [hc] at h; cases h
    | some d =>
      rw [hc] at h
      obtain ⟨i1, i2, i3, i4⟩ := ih h
      refine ⟨fun f x hx => Abs.eff_mem hc (i1 f x hx), ?_, ?_, ?_⟩
      · intro x hx
        have := i2 x hx
        cases e with
        | add f op v => cases hc; exact this
        | st q op v => cases hc; exact this
        | rcv op v => cases hc; exact recv_add_mem this
        | pre cs =>
          simp only [Abs.eff] at hc
          cases hq : joinPre a.pc cs with
          | none => rw [hq] at hc; cases hc
          | some q => rw [hq] at hc; cases hc; rwa [addGt_recv] at this
      · intro q x hx
        have := i3 q x hx
        cases e with
        | add f op v => cases hc; exact this
        | st q' op v =>
          cases hc
          by_cases hr : q = q'
          · subst hr
            simp only [Abs.addState, if_true] at this
            exact ((add_mem (by decide) _ _ _ _).1 this).1
          · simpa [Abs.addState, hr] using this
        | rcv op v => cases hc; exact this
        | pre cs =>
          simp only [Abs.eff] at hc
          cases hq : joinPre a.pc cs with
          | none => rw [hq] at hc; cases hc
          | some q => rw [hq] at hc; cases hc; rwa [addGt_state] at this
      · refine List.IsPrefix.trans ?_ i4
        cases e with
        | add f op v => cases hc; exact List.prefix_refl _
        | st q op v => cases hc; exact List.prefix_refl _
        | rcv op v => cases hc; exact List.prefix_refl _
        | pre cs =>
          simp only [Abs.eff] at hc
          cases hq : joinPre a.pc cs with
          | none => rw [hq] at hc; cases hc
          | some q => rw [hq] at hc; cases hc; rw [addGt_pc]; exact (joinPre_some hq).1

/-- What passes the state after the effects satisfies them. -/
theorem passes_sat {a b : Abs} {es : List Eff} (h : Step a b es) {x : Seen} (hx : Wf x)
    (hsets : ∀ f, (∃ y, (b.set f).Mem y) → (b.set f).Mem (BitVec.ofNat _ (x.num f))) (hspace : b.pc = [] ∨ ∃ xs, x.space = some xs ∧ b.pc <+: xs) :
    ∀ e ∈ es, e.Packet x ∧ ∀ t c, b.recv.Mem t → (∀ q op v, e = .st q op v → (b.state q).Mem (c q)) → e.Sat x t c := by
  obtain ⟨h1, hok, _, ht⟩ := h
  have key : ∀ (es : List Eff) (a : Abs), a.effs es = some b → (∀ f op v, Eff.add f op v ∈ es → ∃ x, (b.set f).Mem x) →
      ∀ e ∈ es, e.Packet x ∧ ∀ t c, b.recv.Mem t → (∀ q op v, e = .st q op v → (b.state q).Mem (c q)) → e.Sat x t c := by
    intro es
    induction es with
    | nil => intro _ _ _ e he; cases he
    | cons e es ih =>
      intro a ha ht e' he'
      simp only [Abs.effs] at ha
      cases hc : a.eff e with
      | none => rw [hc] at ha; cases ha
      | some d =>
        rw [hc] at ha
        rcases List.mem_cons.1 he' with rfl | he'
        · obtain ⟨m1, m2, m3, m4⟩ := effs_mono (show d.effs es = some b from ha)
          cases e' with
          | add f op v =>
            have hm := m1 f _ (hsets f (ht f op v List.mem_cons_self))
            cases hc
            rw [Abs.addSet_same, add_mem (width_pos _), ofNat_small _ (hx.small _)] at hm
            exact ⟨hm.2, fun _ _ _ _ => hm.2⟩
          | st q op v =>
            refine ⟨trivial, fun t c _ hq => ?_⟩
            have hm := m3 q _ (hq q op v rfl)
            cases hc
            simp only [Abs.addState, if_true] at hm
            exact ((add_mem (by decide) _ _ _ _).1 hm).2
          | rcv op v =>
            refine ⟨trivial, fun t c hr _ => ?_⟩
            have hm := m2 _ hr
            cases hc
            exact ((recv_mem _ _ _ _).1 hm).2
          | pre cs =>
            simp only [Abs.eff] at hc
            cases hq : joinPre a.pc cs with
            | none => rw [hq] at hc; cases hc
            | some q =>
              rw [hq] at hc
              cases hc
              rw [addGt_pc] at m4
              have hcs := (joinPre_some hq).2.1.trans m4
              have : cs = [] ∨ ∃ xs, x.space = some xs ∧ cs <+: xs := by
                rcases hspace with h0 | ⟨xs, e, hxs⟩
                · rw [h0] at hcs; exact .inl (List.prefix_nil.1 hcs)
                · exact .inr ⟨xs, e, hcs.trans hxs⟩
              exact ⟨this, fun _ _ _ _ => this⟩
        · exact ih d ha (fun f op v h => ht f op v (List.mem_cons_of_mem _ h)) e' he'
  exact key es a h1 ht

/-- The compiled tests, whatever the sets. -/
theorem test_passes {a : Abs} (hg : a.Good) {p : NetParts} {x : Seen} (hp : Shows p x) (h : a.preds.test p = true) :
    (∀ f, (∃ y, (a.set f).Mem y) → (a.set f).Mem (BitVec.ofNat _ (x.num f))) ∧ (a.pc = [] ∨ ∃ xs, x.space = some xs ∧ a.pc <+: xs) := by
  unfold Preds.test Preds.compile at h
  rw [List.all_append, Bool.and_eq_true, List.all_eq_true, List.all_eq_true] at h
  constructor
  · intro f hne
    have hv : f.val p = BitVec.ofNat _ (x.num f) := by unfold VF.val; rw [get_shown hp f]
    rw [← hv, ← compileTest_iff _ hne]
    have := fun t ht => h.1 t (List.mem_flatMap.2 ⟨f, mem_order f, ht⟩)
    unfold Preds.fieldTest at this
    have e : a.preds.set f = a.set f := rfl
    rw [e] at this
    cases hc : compileTest (a.set f) with
    | none => trivial
    | some t =>
      rw [hc] at this
      exact this _ (List.mem_singleton.2 rfl)
  · by_cases h0 : a.pc = []
    · exact .inl h0
    · have hr : a.preds.rspace ≠ [] := by
        simp only [Abs.preds]
        unfold rootedOf
        rw [if_neg h0]
        intro h'
        have := Rooted.rootedWith_not_empty (UInt8.ofNat a.pc.length) a.pc
        rw [h'] at this; cases this
      have := h.2
      rw [if_neg hr] at this
      have := this _ (List.mem_singleton.2 rfl)
      rw [spaceOf_pc] at this
      exact .inr ((prefix_shown hp hg.space).1 this)

/-! ### texts -/

/-- Reading a text adds what it says. -/
theorem addLines_says (sc : Scope) (n : Nat) (ls : List Bytes) (q q' : Query) : q.addLines true sc n ls = .ok q' ↔
    ∃ rs os, Says sc n ls rs os ∧ q.preds.run true rs = .ok q'.preds ∧ q'.conf = q.conf ++ os := by
  induction ls generalizing q with
  | nil =>
    constructor
    · intro h; cases h; exact ⟨[], [], .nil, rfl, by simp⟩
    · rintro ⟨rs, os, h, h1, h2⟩
      cases h
      obtain ⟨p, c⟩ := q'
      obtain ⟨p', c'⟩ := q
      cases h1
      simp only [List.append_nil] at h2
      subst h2
      rfl
  | cons line ls ih =>
    by_cases hl : line = []
    · subst hl
      rw [Query.addLines, if_pos rfl, ih]
      constructor
      · rintro ⟨rs, os, h, h1⟩; exact ⟨rs, os, .blank h, h1⟩
      · rintro ⟨rs, os, h, h1⟩
        cases h with
        | blank h => exact ⟨rs, os, h, h1⟩
        | option h => exact absurd rfl h
        | stmt h => exact absurd rfl h
    · rw [Query.addLines, if_neg hl]
      constructor
      · intro h
        split at h
        · cases h
        · rename_i l he
          split at h
          · cases h
          · rename_i q1 hq
            obtain ⟨rs, os, h1, h2, h3⟩ := (ih q1).1 h
            unfold Query.addStmt at hq
            split at hq
            · cases hq
            · simp only [addOptionAbl] at hq
              cases hq
              exact ⟨rs, _ :: os, .option hl he h1, h2, by rw [h3]; simp⟩
            · cases hx : extOf _ with
              | error e => rw [hx] at hq; cases hq
              | ok e =>
                rw [hx] at hq
                simp only [Preds.addExt] at hq
                cases hs : e.stmts with
                | error e => rw [hs] at hq; cases hq
                | ok rs1 =>
                  rw [hs] at hq
                  simp only at hq
                  cases hr : q.preds.run true rs1 with
                  | error e => rw [hr] at hq; cases hq
                  | ok p =>
                    rw [hr] at hq
                    cases hq
                    refine ⟨rs1 ++ rs, os, .stmt hl he hx hs h1, ?_, h3⟩
                    rw [run_append, hr]; exact h2
      · rintro ⟨rs, os, h, h1, h2⟩
        cases h with
        | blank h => exact absurd rfl hl
        | @option _ c b l _ _ os1 _ he hs =>
          rw [he]
          simp only [Query.addStmt, addOptionAbl]
          exact (ih _).2 ⟨rs, os1, hs, h1, by rw [h2]; simp⟩
        | @stmt _ b l e rs1 _ rs2 _ _ he hx hst hs =>
          rw [he]
          simp only [Query.addStmt, hx, Preds.addExt, hst]
          rw [run_append] at h1
          cases hr : q.preds.run true rs1 with
          | error e => rw [hr] at h1; cases h1
          | ok p =>
            rw [hr] at h1
            exact (ih _).2 ⟨rs2, os, hs, h1, h2⟩

/-- A text says one thing. -/
theorem says_unique {sc : Scope} {n : Nat} {ls : List Bytes} {rs rs' : List Stmt} {os os' : List ABList} (h : Says sc n ls rs os)
    (h' : Says sc n ls rs' os') : rs = rs' ∧ os = os' := by
  induction h generalizing rs' os' with
  | nil => cases h'; exact ⟨rfl, rfl⟩
  | blank _ ih =>
    cases h' with
    | blank h => exact ih h
    | option h => exact absurd rfl h
    | stmt h => exact absurd rfl h
  | option hl he _ ih =>
    cases h' with
    | blank h => exact absurd rfl hl
    | option _ he' h =>
      rw [he] at he'
      cases he'
      obtain ⟨rfl, rfl⟩ := ih h
      exact ⟨rfl, rfl⟩
    | stmt _ he' => rw [he] at he'; cases he'
  | stmt hl he hx hs _ ih =>
    cases h' with
    | blank h => exact absurd rfl hl
    | option _ he' => rw [he] at he'; cases he'
    | stmt _ he' hx' hs' h =>
      rw [he] at he'
      cases he'
      rw [hx] at hx'
      cases hx'
      rw [hs] at hs'
      cases hs'
      obtain ⟨rfl, rfl⟩ := ih h
      exact ⟨rfl, rfl⟩

theorem sound_default : Sound Preds.default := ⟨Abs.default, default_good, Abs.default_preds.symm⟩

theorem sound_of_run {s s' : Preds} (h : Sound s) {rs : List Stmt} (hr : s.run true rs = .ok s') : Sound s' := by
  obtain ⟨a, hg, rfl⟩ := h
  obtain ⟨es, a', _, rfl, st⟩ := step_run hg hr
  exact ⟨a', st.good hg, rfl⟩

/-- The alternative that is accepted, with what the ones before it left behind. -/
theorem tryOr_ok {sc : Scope} {n : Nat} {q q' : Query} {or : List Bytes} (hs : Sound q.preds) (h : tryOr true sc n q or = .ok q') :
    ∃ o ∈ or, ∃ q1 : Query, Sound q1.preds ∧ q1.parse true sc n o = .ok q' := by
  induction or generalizing q with
  | nil => cases h
  | cons o os ih =>
    unfold tryOr at h
    split at h
    · rename_i q1 hp
      cases h
      refine ⟨o, List.mem_cons_self, q, hs, ?_⟩
      rw [← parse_res]; exact res_ok hp
    · cases h
    · rename_i q1 u hp
      have : Sound q1.preds := by
        have := sound_addLines hs sc n (splitLines o)
        unfold parse at hp
        rw [hp] at this
        exact this
      obtain ⟨o', ho, q2, h1, h2⟩ := ih this h
      exact ⟨o', List.mem_cons_of_mem _ ho, q2, h1, h2⟩

/-- The line of a list that has its delimiters. -/
theorem evalLine_display (dbg : Bool) (sc : Scope) (n : Nat) (l : ABList) (h : Delimited l) (h' : ¬ SilentHead l) :
    evalLine dbg sc (n + 1) (display l) = .ok l := by
  unfold evalLine
  rw [display_eq, (parse_print _).2 (norm_toAbe _ h)]
  simp only
  rw [eval_toAbe dbg sc n _ h, dropLead_of_not h']

/-- The compiled test of a set passes nothing outside of its bounds. -/
theorem compile_bound {w : Nat} (t : TestSet w) (v : BitVec w) (h : (compileTest t).elim True (fun f => f v = true)) : t.bound.Mem v := by
  unfold compileTest at h
  split at h
  · rename_i hd; rw [hd]; exact (default_mem w v).1
  · rw [← bound_iter_iff]
    unfold Bound.iter
    cases he : t.bound.asEq with
    | some e =>
      rw [he] at h
      simp only [Option.elim_some] at h
      simp only [List.all_cons, List.all_nil, Bool.and_true, h]
    | none =>
      rw [he] at h
      have e1 : ∀ (o : Option (BitVec w)) (op : TestOp),
          ((o.map (fun v => (op, v))).toList.all (fun r => r.1.holds v r.2)) = (o.map (op.holds v)).getD true := by
        intro o op; cases o <;> simp
      simp only [Option.elim_some, Bool.and_eq_true] at h
      rw [List.all_append, Bool.and_eq_true, e1, e1]
      exact h.1.1

theorem test_bound {s : Preds} {p : NetParts} (h : s.test p = true) (f : VF) : (s.set f).bound.Mem (f.val p) := by
  apply compile_bound
  unfold Preds.test Preds.compile at h
  rw [List.all_append, Bool.and_eq_true, List.all_eq_true] at h
  have := fun t ht => h.1 t (List.mem_flatMap.2 ⟨f, mem_order f, ht⟩)
  unfold Preds.fieldTest at this
  cases hc : compileTest (s.set f) with
  | none => trivial
  | some t =>
    rw [hc] at this
    exact this _ (List.mem_singleton.2 rfl)

end Verif.Multi
