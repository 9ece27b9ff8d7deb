import Verif.Lemmas.CliData
/-!
# C72: data fed to new points arrives complete and in order
-/
namespace Verif.Props
open Verif Verif.Pkt Verif.Pred Verif.Rd Verif.Spec

/-- C72: no block is longer than the space it is read for, in every mode. -/
theorem blocks_fit (ev : Bytes → PRes Bytes) (r : Reader) (fs : List Nat) : Within (blocks ev r fs).1 fs := by
  induction fs generalizing r with
  | nil => exact .nil
  | cons f fs ih =>
    rw [blocks_cons]
    rcases h : readNext ev r f [] with e | ⟨b, r', d⟩
    · exact .nil
    · cases b
      · exact .nil
      · exact .cons (readNext_fits h) (ih r')

theorem _root_.Verif.Spec.Asked.keep {r r' : Reader} {f : Nat} {fs : List Nat} (h : Asked r (f :: fs)) (k : Kept r r') : Asked r' fs := by
  intro g hg
  rw [k.takeMax, k.mode]
  exact h g (List.mem_cons_of_mem _ hg)

theorem plain_blocks (ev : Bytes → PRes Bytes) {r : Reader} {s : Src} (h : Plain r s) (hc : r.cycle = false) {fs : List Nat} (hf : Asked r fs)
    (hn : r.onOverflow = .split ∨ r.next = none) :
    (∃ left, r.left s = (blocks ev r fs).1.flatten ++ left) ∧ (∀ d ∈ (blocks ev r fs).1, d ≠ []) ∧ (∀ f, (blocks ev r fs).2 ≠ .stop f) ∧
    ((r.left s).length < fs.length → (r.left s).length ≤ r.calls → (blocks ev r fs).2 = .ended ∧ (blocks ev r fs).1.flatten = r.left s) := by
  induction fs generalizing r s with
  | nil => exact ⟨⟨_, rfl⟩, nofun, nofun, nofun⟩
  | cons f fs ih =>
    obtain ⟨hf1, hf2, hf3⟩ := hf f List.mem_cons_self
    rw [blocks_cons]
    by_cases hc0 : r.calls = 0
    · have e : readNext ev r f [] = .ok (false, r, []) := by unfold readNext; rw [if_pos hc0]
      rw [e]
      refine ⟨⟨_, rfl⟩, nofun, nofun, fun _ hl => ⟨rfl, ?_⟩⟩
      have : (r.left s).length = 0 := by omega
      exact (List.length_eq_zero_iff.1 this).symm
    · obtain ⟨h1, h2, -⟩ := plain_step (ev := ev) h hf1 hf2 (by
        rcases hn with hn | hn
        · exact .inl hn
        · rcases hf3 with h | h
          · exact .inl h
          · exact .inr ⟨hn, h⟩) (by omega)
      by_cases hl : r.left s = []
      · obtain ⟨r', b, e⟩ := h2 hl hc
        rw [e]
        exact ⟨⟨_, rfl⟩, nofun, nofun, fun _ _ => ⟨rfl, hl.symm⟩⟩
      · obtain ⟨r', s', d, e, hp, hk, hca, hd, hn', hls, -⟩ := h1 hl
        rw [e]
        obtain ⟨⟨left, i1⟩, i2, i3, i4⟩ := ih hp (by rw [hk.cycle]; exact hc) (hf.keep hk) (by rw [hk.mode]; exact hn')
        have hlen : (r.left s).length = d.length + (r'.left s').length := by rw [hls, List.length_append]
        have hdl := List.length_pos_iff.2 hd
        refine ⟨⟨left, ?_⟩, ?_, i3, fun hlt hle => ?_⟩
        · rw [hls, i1]; simp
        · intro x hx
          rcases List.mem_cons.1 hx with rfl | hx
          · exact hd
          · exact i2 x hx
        · simp only [List.length_cons] at hlt
          obtain ⟨j1, j2⟩ := i4 (by omega) (by omega)
          exact ⟨j1, by rw [List.flatten_cons, j2, hls]⟩

/-- C72: without a delimiter and without evaluation the blocks are the input in order, nothing lost and nothing
repeated; none is empty.  With as many calls and questions as there are bytes all of it is read. -/
theorem data_in_order (ev : Bytes → PRes Bytes) {r : Reader} {s : Src} (hi : r.input = some s) (hd : r.delim = none) (he : r.eval = false)
    (hn : r.next = none) (hc : r.cycle = false) {fs : List Nat} (hf : Asked r fs) :
    (∃ left, s.rest = (blocks ev r fs).1.flatten ++ left) ∧ (∀ d ∈ (blocks ev r fs).1, d ≠ []) ∧ (∀ f, (blocks ev r fs).2 ≠ .stop f) ∧
    (s.rest.length < fs.length → s.rest.length ≤ r.calls → (blocks ev r fs).2 = .ended ∧ (blocks ev r fs).1.flatten = s.rest) := by
  have hl : r.left s = s.rest := by unfold Reader.left; rw [hn]; rfl
  have := plain_blocks ev (r := r) (s := s) ⟨hi, hd, he, by rw [hn]; nofun⟩ hc hf (.inr hn)
  rw [hl] at this
  exact this

/-- C72: with `--data-repeat` the blocks are the rest of the input followed by repetitions of all of it, without end. -/
theorem data_repeats (ev : Bytes → PRes Bytes) {r : Reader} {s : Src} (hi : r.input = some s) (hd : r.delim = none) (he : r.eval = false)
    (hn0 : r.next = none) (hc : r.cycle = true) (ha : s.all ≠ []) {fs : List Nat} (hf : Asked r fs) (hcalls : fs.length ≤ r.calls) :
    (blocks ev r fs).2 = .running ∧ (blocks ev r fs).1.length = fs.length ∧ (∀ d ∈ (blocks ev r fs).1, d ≠ []) ∧
    ∃ n left, s.rest ++ (List.replicate n s.all).flatten = (blocks ev r fs).1.flatten ++ left := by
  have hl : r.left s = s.rest := by unfold Reader.left; rw [hn0]; rfl
  rw [← hl]
  have hp : Plain r s := ⟨hi, hd, he, by rw [hn0]; nofun⟩
  have hn : r.onOverflow = .split ∨ r.next = none := .inr hn0
  clear hl hi hd he hn0
  induction fs generalizing r s with
  | nil => exact ⟨rfl, rfl, nofun, 0, _, rfl⟩
  | cons f fs ih =>
    obtain ⟨hf1, hf2, hf3⟩ := hf f List.mem_cons_self
    simp only [List.length_cons] at hcalls
    rw [blocks_cons]
    obtain ⟨h1, -, h2⟩ := plain_step (ev := ev) hp hf1 hf2 (by
      rcases hn with hn | hn
      · exact .inl hn
      · rcases hf3 with h | h
        · exact .inl h
        · exact .inr ⟨hn, h⟩) (by omega)
    have go : ∀ r' s' d, Plain r' s' → Kept r r' → r.calls ≤ r'.calls + 1 → (r.onOverflow = .split ∨ r'.next = none) → s'.all = s.all → d ≠ [] →
        (blocks ev r' fs).2 = .running ∧ (d :: (blocks ev r' fs).1).length = (f :: fs).length ∧ (∀ x ∈ d :: (blocks ev r' fs).1, x ≠ []) ∧
        ∃ n left, d ++ (r'.left s' ++ (List.replicate n s.all).flatten) = (d :: (blocks ev r' fs).1).flatten ++ left := by
      intro r' s' d hp' hk hca hn' hall hd
      obtain ⟨i1, i2, i3, n, left, i4⟩ := ih (by rw [hk.cycle]; exact hc) (by rw [hall]; exact ha) (hf.keep hk) (by omega) hp' (by rw [hk.mode]; exact hn')
      refine ⟨i1, by simp [i2], ?_, n, left, ?_⟩
      · intro x hx
        rcases List.mem_cons.1 hx with rfl | hx
        · exact hd
        · exact i3 x hx
      · rw [hall] at i4
        rw [i4]; simp
    by_cases hl : r.left s = []
    · obtain ⟨r', s', d, e, hp', hk, hca, hd, hn', hls, hall, -⟩ := h2 hl hc ha
      rw [e]
      obtain ⟨g1, g2, g3, n, left, g4⟩ := go r' s' d hp' hk hca hn' hall hd
      refine ⟨g1, g2, g3, n + 1, left, ?_⟩
      rw [hl, List.replicate_succ, List.flatten_cons]
      rw [← List.append_assoc, ← hls] at g4
      exact g4
    · obtain ⟨r', s', d, e, hp', hk, hca, hd, hn', hls, hall, -⟩ := h1 hl
      rw [e]
      obtain ⟨g1, g2, g3, n, left, g4⟩ := go r' s' d hp' hk hca hn' hall hd
      refine ⟨g1, g2, g3, n, left, ?_⟩
      rw [hls, List.append_assoc]
      exact g4

/-! ### Records -/

/-- What follows the evaluation of a record. -/
def afterValue (r : Reader) (f : Nat) : PRes Bytes → PRes (Bool × Reader × Bytes)
  | .error e => .error e
  | .ok v => match checkSize r v f with
    | .error e => .error e
    | .ok (r, b) => .ok (true, r, b)

theorem record_have {ev : Bytes → PRes Bytes} {r : Reader} {d : UInt8} (hd : r.delim = some d) (f : Nat) {o w : Bytes}
    (hw : (if some d = o.getLast? then o.dropLast else o) = w) : haveRead ev r f o = afterValue r f (recordValue ev r w) := by
  unfold haveRead recordValue
  simp only [hd, Option.isSome_some, true_and, hw]
  have e : (if r.eval = true then ev w else Except.ok w) = (if r.eval = true then ev else Except.ok) w := by split <;> rfl
  rw [e]
  cases (if r.eval = true then ev else Except.ok) w with
  | error => rfl
  | ok v =>
    unfold afterValue
    simp only
    rcases checkSize r v f with e | ⟨a, b⟩ <;> rfl

theorem fresh_record {ev : Bytes → PRes Bytes} {r : Reader} {d : UInt8} {all t w : Bytes} {ws : List Bytes} (hd : r.delim = some d)
    (hi : r.input = some ⟨all, t⟩) (h : Records d t (w :: ws)) {f : Nat} (hl : w.length ≤ r.takeMax.getD f) :
    ∃ rest, Records d rest ws ∧
      readFresh ev r f [] = afterValue { r with calls := r.calls - 1, input := some ⟨all, rest⟩ } f (recordValue ev r w) := by
  obtain ⟨o, rest, h1, h2, h3, h4, h5⟩ := read_record (all := all) h hl
  refine ⟨rest, h2, ?_⟩
  refine Eq.trans ?_ (record_have (ev := ev) (r := { r with calls := r.calls - 1, input := some ⟨all, rest⟩ }) hd f h5)
  unfold readFresh
  simp only [hi, hd, h1]
  rw [if_neg (by rw [List.isEmpty_iff]; exact h3)]
  rfl

theorem readNext_fresh {ev : Bytes → PRes Bytes} {r : Reader} {f : Nat} (hc : r.calls ≠ 0) (hn : r.next = none) :
    readNext ev r f [] = readFresh ev r f [] := by
  unfold readNext; rw [if_neg hc, hn]

theorem fresh_none {ev : Bytes → PRes Bytes} {r : Reader} {d : UInt8} {all : Bytes} (hd : r.delim = some d) (hi : r.input = some ⟨all, []⟩)
    (hc : r.cycle = false) (f : Nat) : ∃ r', readFresh ev r f [] = .ok (false, r', []) := by
  unfold readFresh
  simp only [hi, hd, read_none, hc, Bool.false_eq_true, if_false, List.isEmpty_nil, if_true]
  exact ⟨_, rfl⟩

/-- C72: with a delimiter each block is the value of one record, in order, for as many records as `--data-reads`
allows, as long as records and values fit. -/
theorem records_in_order (ev : Bytes → PRes Bytes) {r : Reader} {d : UInt8} {all t : Bytes} {ws vs : List Bytes} {fs : List Nat}
    (hd : r.delim = some d) (hi : r.input = some ⟨all, t⟩) (hn : r.next = none) (hc : r.cycle = false) (h : Records d t ws)
    (hv : Values (recordValue ev r) r.takeMax ws fs vs) (f : Nat) (more : List Nat) :
    blocks ev r (fs ++ f :: more) = (vs.take r.calls, .ended) := by
  generalize hE : recordValue ev r = E at hv
  generalize hM : r.takeMax = M at hv
  induction hv generalizing r t with
  | nil =>
    rw [List.nil_append, blocks_cons]
    by_cases hc0 : r.calls = 0
    · have e : readNext ev r f [] = .ok (false, r, []) := by unfold readNext; rw [if_pos hc0]
      rw [e]; simp
    · cases h
      obtain ⟨r', e⟩ := fresh_none (ev := ev) hd hi hc f
      have e := (readNext_fresh hc0 hn).trans e
      rw [e]; simp
  | @cons w g v ws fs vs hl hev hvl hv ih =>
    rw [List.cons_append, blocks_cons]
    by_cases hc0 : r.calls = 0
    · have e : readNext ev r g [] = .ok (false, r, []) := by unfold readNext; rw [if_pos hc0]
      rw [e, hc0]; simp
    · obtain ⟨rest, hr, e⟩ := fresh_record (ev := ev) hd hi h (f := g) (by rw [hM]; exact hl)
      rw [hE, hev] at e
      simp only [afterValue, checkSize_small (r := { r with calls := r.calls - 1, input := some ⟨all, rest⟩ }) hvl hn] at e
      have e := (readNext_fresh hc0 hn).trans e
      rw [e]
      have := ih (r := { r with calls := r.calls - 1, input := some ⟨all, rest⟩ }) (t := rest) hd rfl hn hc hr hE hM
      simp only at this ⊢
      rw [this]
      obtain ⟨k, hk⟩ : ∃ k, r.calls = k + 1 := ⟨r.calls - 1, by omega⟩
      rw [hk]
      rfl

/-- C72: by default a record longer than the space for it ends the command with an error, after all records before
it. -/
theorem record_too_long (ev : Bytes → PRes Bytes) {r : Reader} {d : UInt8} {all t : Bytes} {ws vs ws' : List Bytes} {w : Bytes} {fs : List Nat}
    (hd : r.delim = some d) (hi : r.input = some ⟨all, t⟩) (hn : r.next = none) (hm : r.onOverflow = .error) (he : r.eval = false)
    (ht : r.takeMax = none) (h : Records d t (ws ++ w :: ws'))
    (hv : Values .ok none ws fs vs) (f : Nat) (hw : f < w.length) (hcalls : ws.length < r.calls) (more : List Nat) :
    blocks ev r (fs ++ f :: more) = (ws, .stop (.err ())) := by
  induction hv generalizing r t with
  | nil =>
    rw [List.nil_append, blocks_cons]
    rw [List.nil_append] at h
    simp only [List.length_nil] at hcalls
    obtain ⟨h1, h2⟩ := read_record_long (all := all) h hw
    have hne : w.take (f + 1) ≠ [] := by
      intro e
      have := congrArg List.length e
      rw [List.length_take] at this
      simp only [List.length_nil] at this
      omega
    have hlast : ¬ (r.delim.isSome ∧ r.delim = (w.take (f + 1)).getLast?) := by
      rw [hd]
      rintro ⟨-, e⟩
      exact h2 (List.mem_of_mem_take (List.mem_of_getLast? e.symm))
    have e : readNext ev r f [] = .error (.err ()) := by
      unfold readNext
      rw [if_neg (by omega), hn]
      simp only
      unfold readFresh
      simp only [hi, ht, hd, Option.getD_none]
      rw [h1, if_neg (by rw [List.isEmpty_iff]; exact hne)]
      unfold haveRead
      simp only [List.nil_append, he, Bool.false_eq_true, if_false]
      rw [hd] at hlast
      rw [if_neg hlast]
      unfold checkSize joined
      simp only [hm]
      rw [if_pos (by rw [List.length_take]; omega)]
    rw [e]
  | @cons x g v ws fs vs hl hev hvl hv ih =>
    simp only [List.length_cons] at hcalls
    have hxv : x = v := by injection hev
    rw [List.cons_append, blocks_cons]
    rw [List.cons_append] at h
    obtain ⟨rest, hr, e⟩ := fresh_record (ev := ev) hd hi h (f := g) (by rw [ht]; exact hl)
    have hvx : recordValue ev r x = .ok x := by unfold recordValue; rw [if_neg (by rw [he]; nofun)]
    rw [hvx] at e
    simp only [afterValue, checkSize_small (r := { r with calls := r.calls - 1, input := some ⟨all, rest⟩ }) (hxv ▸ hvl) hn] at e
    have e := (readNext_fresh (by omega) hn).trans e
    rw [e]
    have := ih (r := { r with calls := r.calls - 1, input := some ⟨all, rest⟩ }) (t := rest) hd rfl hn hm he ht hr (by simp only; omega)
    simp only at this ⊢
    rw [this]

theorem _root_.Verif.Spec.Mapped.length {ev : Bytes → PRes Bytes} {n : Nat} {ws vs : List Bytes} (h : Mapped ev n ws vs) : vs.length = ws.length := by
  induction h with
  | nil => rfl
  | cons _ _ _ ih => simp [ih]

/-- C72: with the mode `split` values longer than the space for them continue in the next blocks: joined, the blocks are
the values joined. -/
theorem split_in_order (ev : Bytes → PRes Bytes) {r : Reader} {d : UInt8} {all t : Bytes} {ws vs : List Bytes} {n : Nat} {fs : List Nat}
    (hd : r.delim = some d) (hi : r.input = some ⟨all, t⟩) (hn : r.next ≠ some []) (hc : r.cycle = false) (hm : r.onOverflow = .split)
    (ht : r.takeMax = some n) (h : Records d t ws) (hv : Mapped (recordValue ev r) n ws vs) (hf : ∀ f ∈ fs, 0 < f) :
    (∃ left, r.next.getD [] ++ vs.flatten = (blocks ev r fs).1.flatten ++ left) ∧ (∀ e, (blocks ev r fs).2 ≠ .stop e) ∧
    (ws.length + (r.next.getD [] ++ vs.flatten).length < fs.length → ws.length < r.calls →
      (blocks ev r fs).2 = .ended ∧ (blocks ev r fs).1.flatten = r.next.getD [] ++ vs.flatten) := by
  induction fs generalizing r t ws vs with
  | nil => exact ⟨⟨_, rfl⟩, nofun, nofun⟩
  | cons f fs ih =>
    have hf0 := hf f List.mem_cons_self
    rw [blocks_cons]
    by_cases hc0 : r.calls = 0
    · have e : readNext ev r f [] = .ok (false, r, []) := by unfold readNext; rw [if_pos hc0]
      rw [e]
      exact ⟨⟨_, rfl⟩, nofun, fun _ h => absurd h (by omega)⟩
    · -- the step gives a reader, with what it has and what it gives
      have key : (∃ r', readNext ev r f [] = .ok (false, r', []) ∧ r.next = none ∧ ws = []) ∨
          ∃ r' b t' ws' vs', readNext ev r f [] = .ok (true, r', b) ∧ r'.input = some ⟨all, t'⟩ ∧ Records d t' ws' ∧
            Mapped (recordValue ev r) n ws' vs' ∧ Kept r r' ∧ r'.next ≠ some [] ∧
            r.next.getD [] ++ vs.flatten = b ++ (r'.next.getD [] ++ vs'.flatten) ∧
            ((b ≠ [] ∧ ws' = ws ∧ r'.calls = r.calls) ∨ (ws.length = ws'.length + 1 ∧ r'.calls = r.calls - 1)) := by
        cases hne : r.next with
        | some b =>
          have hb : b ≠ [] := fun e => hn (by rw [hne, e])
          right
          have e : readNext ev r f [] = match checkSize { r with next := none } b f with
              | .error e => .error e | .ok (r, buf) => .ok (true, r, buf) := by
            unfold readNext
            rw [if_neg hc0, hne]
            simp only
            rw [if_neg (show ¬ r.onOverflow = .carry by rw [hm]; nofun)]
            simp only
            rcases checkSize { r with next := none } b f with e | ⟨q, b⟩ <;> rfl
          rw [e, checkSize_split (r := { r with next := none }) hm]
          by_cases hlt : f < b.length
          · rw [if_pos hlt]
            refine ⟨_, _, t, ws, vs, rfl, hi, h, hv, ⟨rfl, rfl, rfl, rfl, rfl⟩, ?_, ?_, .inl ⟨?_, rfl, rfl⟩⟩
            · intro hc
              have hc : b.drop f = [] := Option.some.inj hc
              have := List.drop_eq_nil_iff.1 hc
              omega
            · show b ++ _ = b.take f ++ (b.drop f ++ _)
              rw [← List.append_assoc, List.take_append_drop]
            · intro hc
              have := congrArg List.length hc
              rw [List.length_take] at this
              simp only [List.length_nil] at this
              omega
          · rw [if_neg hlt]
            exact ⟨_, _, t, ws, vs, rfl, hi, h, hv, ⟨rfl, rfl, rfl, rfl, rfl⟩, nofun, rfl, .inl ⟨hb, rfl, rfl⟩⟩
        | none =>
          have e0 : readNext ev r f [] = readFresh ev r f [] := by unfold readNext; rw [if_neg hc0, hne]
          rw [e0]
          cases hv with
          | nil =>
            cases h
            obtain ⟨r', e⟩ := fresh_none (ev := ev) hd hi hc f
            exact .inl ⟨r', e, rfl, rfl⟩
          | @cons w v ws vs hl hev hv =>
            right
            obtain ⟨rest, hr, e⟩ := fresh_record (ev := ev) hd hi h (f := f) (by rw [ht]; exact hl)
            rw [hev] at e
            simp only [afterValue, checkSize_split (r := { r with calls := r.calls - 1, input := some ⟨all, rest⟩ }) hm] at e
            rw [e]
            by_cases hlt : f < v.length
            · rw [if_pos hlt]
              refine ⟨_, _, rest, ws, vs, rfl, rfl, hr, hv, ⟨rfl, rfl, rfl, rfl, rfl⟩, ?_, ?_, .inr ⟨rfl, rfl⟩⟩
              · intro hc
                have hc : v.drop f = [] := Option.some.inj hc
                have := List.drop_eq_nil_iff.1 hc
                omega
              · show v ++ _ = v.take f ++ (v.drop f ++ _)
                rw [← List.append_assoc, List.take_append_drop]
            · rw [if_neg hlt]
              exact ⟨_, _, rest, ws, vs, rfl, rfl, hr, hv, ⟨rfl, rfl, rfl, rfl, rfl⟩, by simp only; rw [hne]; nofun,
                by simp only; rw [hne]; rfl, .inr ⟨rfl, rfl⟩⟩
      rcases key with ⟨r', e, hne, hws⟩ | ⟨r', b, t', ws', vs', e, hi', h', hv', hk, hn', heq, hcount⟩
      · rw [e]
        have : vs = [] := by subst hws; cases hv; rfl
        subst this
        exact ⟨⟨_, rfl⟩, nofun, fun _ _ => ⟨rfl, by rw [hne]; rfl⟩⟩
      · rw [e]
        have hvo : recordValue ev r' = recordValue ev r := by unfold recordValue; rw [hk.eval]
        obtain ⟨⟨left, i1⟩, i2, i3⟩ := ih (r := r') (by rw [hk.delim]; exact hd) hi' hn' (by rw [hk.cycle]; exact hc) (by rw [hk.mode]; exact hm)
          (by rw [hk.takeMax]; exact ht) h' (by rw [hvo]; exact hv') (fun g hg => hf g (List.mem_cons_of_mem _ hg))
        have hlen := congrArg List.length heq
        rw [List.length_append (as := b)] at hlen
        refine ⟨⟨left, by rw [heq, i1]; simp⟩, i2, fun hlt hcl => ?_⟩
        simp only [List.length_cons] at hlt
        obtain ⟨j1, j2⟩ := i3 (by
          rcases hcount with ⟨hb, hw, -⟩ | ⟨hw, -⟩
          · have := List.length_pos_iff.2 hb
            rw [hw]; omega
          · omega) (by
          rcases hcount with ⟨hb, hw, hq⟩ | ⟨hw, hq⟩
          · rw [hw, hq]; exact hcl
          · omega)
        exact ⟨j1, by rw [List.flatten_cons, j2, heq]⟩

/-! ### The commands -/

theorem tryDatapoint_eq (C : Crypto) {data : Bytes} (nh : Bytes) (h : data.length ≤ 65020) :
    tryDatapoint C data nh = .ok ⟨nh, C.hash (Content.data data).layout, (Content.data data).parts⟩ := by
  have hv : (Content.data data).Valid := ⟨by simp only [Content.size]; omega, trivial⟩
  have := newContentLen_eq hv (n := data.length) (by simp only [Content.size]; omega)
  unfold tryDatapoint
  rw [show tData = (Content.data data).type from rfl, this]
  rw [← segments_layout]
  rfl

/-- C72: `datapoint` writes one data point for each block, and ends as the reader does. -/
theorem datapoint_each (ev : Bytes → PRes Bytes) (C : Crypto) (nh : Bytes) (n : Nat) (r : Reader) :
    dataCmd ev C nh n r = ((blocks ev r (List.replicate n 65020)).1.map fun d => ⟨nh, C.hash (Content.data d).layout, (Content.data d).parts⟩,
      (blocks ev r (List.replicate n 65020)).2) := by
  induction n generalizing r with
  | zero => rfl
  | succ n ih =>
    rw [List.replicate_succ, blocks_cons]
    show (match readNext ev r 65020 [] with | .error e => _ | .ok (false, _, _) => _ | .ok (true, r, buf) => _) = _
    rcases h : readNext ev r 65020 [] with e | ⟨b, r', d⟩
    · rfl
    · cases b
      · rfl
      · simp only [dataPkt]
        rw [tryDatapoint_eq C nh (readNext_fits h), ih]
        rfl

theorem within_same {ds : List Bytes} {fs : List Nat} {g : Nat} (h : Within ds fs) : (∀ f ∈ fs, f = g) → ∀ d ∈ ds, d.length ≤ g := by
  induction h with
  | nil => nofun
  | cons hl _ ih =>
    intro hf d hd
    rcases List.mem_cons.1 hd with rfl | hd
    · have := hf _ List.mem_cons_self; omega
    · exact ih (fun f h => hf f (List.mem_cons_of_mem _ h)) d hd

theorem within_le {ds : List Bytes} {fs gs : List Nat} {g : Nat} (h : Within ds fs) (hl : fs.length = gs.length) (hg : ∀ f ∈ gs, g ≤ f)
    (hd : ∀ d ∈ ds, d.length ≤ g) : Within ds gs := by
  induction h generalizing gs with
  | nil => exact .nil
  | cons _ _ ih =>
    cases gs with
    | nil => cases hl
    | cons x gs =>
      exact .cons (Nat.le_trans (hd _ List.mem_cons_self) (hg x List.mem_cons_self))
        (ih (by simpa using hl) (fun f hf => hg f (List.mem_cons_of_mem _ hf)) (fun d h => hd d (List.mem_cons_of_mem _ h)))

/-- C72: `datapoint` writes data points which together hold exactly the input, in order. -/
theorem datapoint_complete (ev : Bytes → PRes Bytes) (C : Crypto) (nh : Bytes) {r : Reader} {s : Src} (hi : r.input = some s) (hd : r.delim = none)
    (he : r.eval = false) (hn : r.next = none) (hc : r.cycle = false) (hr : Asked r [65020]) (hcalls : s.rest.length ≤ r.calls)
    {n : Nat} (hlen : s.rest.length < n) :
    ∃ ds : List Bytes, ds.flatten = s.rest ∧ (∀ d ∈ ds, d ≠ [] ∧ (Content.data d).Valid) ∧
      dataCmd ev C nh n r = (ds.map fun d => ⟨nh, C.hash (Content.data d).layout, (Content.data d).parts⟩, .ended) := by
  obtain ⟨-, h2, -, h4⟩ := data_in_order ev hi hd he hn hc (fs := List.replicate n 65020) (by
    intro f hf
    rw [List.eq_of_mem_replicate hf]
    exact hr _ List.mem_cons_self)
  obtain ⟨h5, h6⟩ := h4 (by rw [List.length_replicate]; exact hlen) hcalls
  refine ⟨_, h6, fun d hd => ⟨h2 d hd, ?_, trivial⟩, ?_⟩
  · have := within_same (blocks_fit ev r (List.replicate n 65020)) (fun f hf => List.eq_of_mem_replicate hf) d hd
    simp only [Content.size]
    omega
  · rw [datapoint_each, h5]

theorem linkTo_length {C : Crypto} (c : PointCmd C) (i : Nat) (ptr : Bytes) : (c.links ++ linkTo c i ptr).length = laterLinks c := by
  unfold linkTo laterLinks
  cases c.tag <;> simp

theorem linkTo_sized {C : Crypto} {c : PointCmd C} {cs : List Bytes} (hs : CmdSized c cs) (i : Nat) {ptr : Bytes} (hp : ptr.length = 32) :
    LinksSized (c.links ++ linkTo c i ptr) := by
  intro l hl
  rcases List.mem_append.1 hl with hl | hl
  · exact hs.links l hl
  · unfold linkTo at hl
    cases ht : c.tag with
    | none => rw [ht] at hl; simp at hl
    | some t =>
      rw [ht] at hl
      simp at hl
      rw [hl]
      exact ⟨hs.tag t ht i, hp⟩

/-- One point: the reader is asked for the free space, and what it gives becomes the data of the point. -/
theorem buildRead_eq (ev : Bytes → PRes Bytes) {C : Crypto} (L : C.Laws) (nh : Bytes) {c : PointCmd C} {cs : List Bytes} (hs : CmdSized c cs)
    {links : List Link} (hl : LinksSized links) (hroom : Room c links.length) (i : Nat) (r : Reader) :
    (∀ e, readNext ev r (askedFor c links.length) [] = .error e → buildRead ev nh c links (c.stamp i) r = .error e) ∧
    (∀ r' b, readNext ev r (askedFor c links.length) [] = .ok (false, r', b) → buildRead ev nh c links (c.stamp i) r = .ok (none, r')) ∧
    (∀ r' d, readNext ev r (askedFor c links.length) [] = .ok (true, r', d) →
      (d.length ≤ freeFor c links.length → ∃ p, buildRead ev nh c links (c.stamp i) r = .ok (some p, r') ∧ p.hash.length = 32 ∧
        IsPoint C nh ⟨c.group, c.domain, c.stamp i, links, c.rspace, d⟩ c.key p) ∧
      (freeFor c links.length < d.length → buildRead ev nh c links (c.stamp i) r = .error .panic)) := by
  have hsp : spaceOf c.rspace = encodeSpace cs := by
    rw [hs.rspace]
    unfold spaceOf rootedOf
    split
    · rename_i h; rw [h]; rfl
    · exact Rooted.rootedWith_drop8 _ _
  have hfree : calcFreeSpace (spaceOf c.rspace) links [] c.key.isSome = (askedFor c links.length : Nat) := by
    rw [hsp, calc_eq hs.space, ← hs.rspace]
    unfold askedFor freeFor
    unfold Room at hroom
    simp only [List.length_nil]
    split <;> rename_i hk <;> simp only [hk, if_true, if_false] at hroom ⊢ <;> omega
  have e : buildRead ev nh c links (c.stamp i) r = match readNext ev r (askedFor c links.length) [] with
      | .error e => .error e
      | .ok (false, r, _) => .ok (none, r)
      | .ok (true, r, buf) =>
        match tryPoint C c.group c.domain c.rspace links buf (c.stamp i) c.key nh with
        | .ok p => .ok (some p, r)
        | .error _ => .error .panic := by
    unfold buildRead
    simp only [hfree]
    rw [if_neg (by omega), Int.toNat_natCast]
    rcases readNext ev r (askedFor c links.length) [] with e | ⟨b, r', d⟩
    · rfl
    · cases b
      · rfl
      · simp only
        rcases tryPoint C c.group c.domain c.rspace links d (c.stamp i) c.key nh with e | p <;> rfl
  refine ⟨fun x h => by rw [e, h], fun r' b h => by rw [e, h], fun r' d h => ?_⟩
  have hsized : LinkContent.Sized ⟨c.group, c.domain, c.stamp i, links, c.rspace, d⟩ :=
    ⟨hs.group, hs.domain, hs.stamp i, hl, by simp only; rw [hs.rspace]; exact rooted_check_accepts cs hs.space hs.eight⟩
  have ht := tryPoint_eq (C := C) hsized c.key nh
  have hsize : (contentOf C ⟨c.group, c.domain, c.stamp i, links, c.rspace, d⟩ c.key).size =
      64 + 48 * links.length + c.rspace.length + d.length + (if c.key.isSome then 96 else 0) := by
    cases c.key <;> rfl
  unfold Room at hroom
  refine ⟨fun hle => ?_, fun hlt => ?_⟩
  · unfold freeFor at hle
    rw [if_pos (by rw [hsize]; omega)] at ht
    refine ⟨_, by rw [e, h]; simp only; rw [ht], L.hash_len _, _, contentOf_valid L hsized c.key (by rw [hsize]; omega), contentOf_sealed L _ c.key, rfl, ?_, ?_⟩
    · intro hk; rw [hk]; rfl
    · intro k hk; rw [hk]; exact ⟨_, rfl⟩
  · unfold freeFor at hlt
    rw [if_neg (by rw [hsize]; omega)] at ht
    rw [e, h]
    simp only
    rw [ht]

theorem point_loop (ev : Bytes → PRes Bytes) {C : Crypto} (L : C.Laws) (nh : Bytes) {c : PointCmd C} {cs : List Bytes} (hs : CmdSized c cs)
    (hroom : Room c (laterLinks c)) (n i : Nat) {ptr : Bytes} (hp : ptr.length = 32) (r : Reader)
    (hcap : ∀ d ∈ (blocks ev r (List.replicate n (askedFor c (laterLinks c)))).1, d.length ≤ freeFor c (laterLinks c)) :
    ∃ ps, pointLoop ev nh c n i ptr r = (ps, (blocks ev r (List.replicate n (askedFor c (laterLinks c)))).2) ∧
      Chained nh c i (c.links ++ linkTo c i ptr) (blocks ev r (List.replicate n (askedFor c (laterLinks c)))).1 ps := by
  induction n generalizing i ptr r with
  | zero => exact ⟨[], rfl, .nil⟩
  | succ n ih =>
    rw [List.replicate_succ, blocks_cons] at hcap ⊢
    have hb := buildRead_eq ev L nh hs (linkTo_sized hs i hp) (by rw [linkTo_length]; exact hroom) i r
    rw [linkTo_length] at hb
    obtain ⟨b1, b2, b3⟩ := hb
    have e : pointLoop ev nh c (n + 1) i ptr r = match buildRead ev nh c (c.links ++ linkTo c i ptr) (c.stamp i) r with
        | .error e => ([], .stop e)
        | .ok (none, _) => ([], .ended)
        | .ok (some p, r) => (p :: (pointLoop ev nh c n (i + 1) p.hash r).1, (pointLoop ev nh c n (i + 1) p.hash r).2) := by
      show (match buildRead ev nh c (c.links ++ linkTo c i ptr) (c.stamp i) r with | .error e => _ | .ok (none, _) => _ | .ok (some p, r) => _) = _
      rcases buildRead ev nh c (c.links ++ linkTo c i ptr) (c.stamp i) r with e | ⟨_ | p, r'⟩ <;> rfl
    rw [e]
    rcases h : readNext ev r (askedFor c (laterLinks c)) [] with x | ⟨b, r', d⟩
    · rw [b1 x h]; exact ⟨[], rfl, .nil⟩
    · cases b
      · rw [b2 r' d h]; exact ⟨[], rfl, .nil⟩
      · rw [h] at hcap
        simp only at hcap ⊢
        obtain ⟨p, h1, h2, h3⟩ := (b3 r' d h).1 (hcap d List.mem_cons_self)
        obtain ⟨ps, i1, i2⟩ := ih (i + 1) h2 r' (fun x hx => hcap x (List.mem_cons_of_mem _ hx))
        rw [h1]
        simp only
        rw [i1]
        exact ⟨p :: ps, rfl, .cons h3 i2⟩

/-- C72: `linkpoint --multi` writes one point for each block, each later one with a link to the one before, and ends as the
reader does; no block at all is an error. -/
theorem linkpoint_each (ev : Bytes → PRes Bytes) {C : Crypto} (L : C.Laws) (nh : Bytes) {c : PointCmd C} {cs : List Bytes} (hs : CmdSized c cs)
    (hroom : Room c (laterLinks c)) (hmulti : c.multi = true) (n : Nat) (r : Reader)
    (hcap : Within (blocks ev r (asks c n)).1 (freeFor c c.links.length :: List.replicate n (freeFor c (laterLinks c)))) :
    ((blocks ev r (asks c n)).1 = [] ∧ ∃ e, pointCmd ev nh c n r = ([], .stop e)) ∨
    ∃ ps, pointCmd ev nh c n r = (ps, (blocks ev r (asks c n)).2) ∧ Chained nh c 0 c.links (blocks ev r (asks c n)).1 ps := by
  have hle : c.links.length ≤ laterLinks c := by unfold laterLinks; omega
  have hroom1 : Room c c.links.length := by unfold Room at hroom ⊢; omega
  obtain ⟨b1, b2, b3⟩ := buildRead_eq ev L nh hs hs.links hroom1 0 r
  unfold asks at hcap ⊢
  rw [blocks_cons] at hcap ⊢
  unfold pointCmd
  rcases h : readNext ev r (askedFor c c.links.length) [] with x | ⟨b, r', d⟩
  · rw [b1 x h]; exact .inl ⟨rfl, _, rfl⟩
  · cases b
    · rw [b2 r' d h]; exact .inl ⟨rfl, _, rfl⟩
    · rw [h] at hcap
      simp only at hcap ⊢
      cases hcap with
      | cons hc1 hc2 =>
      obtain ⟨p, h1, h2, h3⟩ := (b3 r' d h).1 hc1
      obtain ⟨ps, i1, i2⟩ := point_loop ev L nh hs hroom n 1 h2 r' (within_same hc2 (fun f hf => List.eq_of_mem_replicate hf))
      right
      rw [h1]
      simp only
      rw [if_pos hmulti, i1]
      exact ⟨p :: ps, rfl, .cons h3 i2⟩

theorem plain_cap (ev : Bytes → PRes Bytes) {r : Reader} {s : Src} (h : Plain r s) (hn : r.next = none) (hc : r.cycle = false) {t : Nat} (ht : r.takeMax = some t)
    (ht0 : 0 < t) {fs : List Nat} (hf : ∀ f ∈ fs, t ≤ f) : ∀ d ∈ (blocks ev r fs).1, d.length ≤ t := by
  induction fs generalizing r s with
  | nil => nofun
  | cons f fs ih =>
    have hf0 := hf f List.mem_cons_self
    rw [blocks_cons]
    by_cases hc0 : r.calls = 0
    · have e : readNext ev r f [] = .ok (false, r, []) := by unfold readNext; rw [if_pos hc0]
      rw [e]; nofun
    · obtain ⟨h1, h2, -⟩ := plain_step (ev := ev) h (f := f) (by omega) (by rw [ht]; exact ht0) (.inr ⟨hn, by rw [ht]; exact hf0⟩) (by omega)
      by_cases hl : r.left s = []
      · obtain ⟨r', b, e⟩ := h2 hl hc
        rw [e]; nofun
      · obtain ⟨r', s', d, e, hp, hk, -, -, -, -, -, hx⟩ := h1 hl
        obtain ⟨hx1, hx2⟩ := hx hn
        rw [e]
        intro x hx
        rcases List.mem_cons.1 hx with rfl | hx
        · rw [ht] at hx1; exact hx1
        · exact ih hp (hx2 (by rw [ht]; exact hf0)) (by rw [hk.cycle]; exact hc) (by rw [hk.takeMax]; exact ht) (fun g hg => hf g (List.mem_cons_of_mem _ hg)) x hx

/-- C72: `linkpoint --multi` writes a chain of points which together hold exactly the input, in order.  A signed
point needs a `--data-bufsize` that leaves room: see `signed_too_large`. -/
theorem linkpoint_complete_partial (ev : Bytes → PRes Bytes) {C : Crypto} (L : C.Laws) (nh : Bytes) {c : PointCmd C} {cs : List Bytes} (hs : CmdSized c cs)
    (hroom : Room c (laterLinks c)) (hmulti : c.multi = true) {r : Reader} {s : Src} (hi : r.input = some s) (hd : r.delim = none)
    (he : r.eval = false) (hn : r.next = none) (hc : r.cycle = false)
    (hr : (c.key = none ∧ Asked r [freeFor c c.links.length, freeFor c (laterLinks c)]) ∨
      ∃ t, r.takeMax = some t ∧ 0 < t ∧ t ≤ freeFor c (laterLinks c))
    (hcalls : s.rest.length ≤ r.calls) {n : Nat} (hlen : s.rest.length ≤ n) (hne : s.rest ≠ []) :
    ∃ ds ps, ds.flatten = s.rest ∧ (∀ d ∈ ds, d ≠ []) ∧ pointCmd ev nh c n r = (ps, .ended) ∧ Chained nh c 0 c.links ds ps := by
  have hle : c.links.length ≤ laterLinks c := by unfold laterLinks; omega
  have hfl : freeFor c (laterLinks c) ≤ freeFor c c.links.length := by unfold freeFor; omega
  have hak : ∀ l, freeFor c l ≤ askedFor c l := fun l => by unfold askedFor; omega
  have hmem : ∀ f ∈ asks c n, f = askedFor c c.links.length ∨ f = askedFor c (laterLinks c) := by
    intro f hf
    rcases List.mem_cons.1 hf with rfl | hf
    · exact .inl rfl
    · exact .inr (List.eq_of_mem_replicate hf)
  have both : Asked r (asks c n) ∧ Within (blocks ev r (asks c n)).1 (freeFor c c.links.length :: List.replicate n (freeFor c (laterLinks c))) := by
    rcases hr with ⟨hk, hr⟩ | ⟨t, ht, ht0, htf⟩
    · have ha : ∀ l, askedFor c l = freeFor c l := fun l => by unfold askedFor; rw [hk]; rfl
      constructor
      · intro f hf
        rcases hmem f hf with rfl | rfl
        · rw [ha]; exact hr _ List.mem_cons_self
        · rw [ha]; exact hr _ (List.mem_cons_of_mem _ List.mem_cons_self)
      · have := blocks_fit ev r (asks c n)
        rwa [show asks c n = freeFor c c.links.length :: List.replicate n (freeFor c (laterLinks c)) by unfold asks; rw [ha, ha]] at this ⊢
    · have hge : ∀ f ∈ asks c n, t ≤ f := by
        intro f hf
        have h1 := hak c.links.length
        have h2 := hak (laterLinks c)
        rcases hmem f hf with rfl | rfl <;> omega
      constructor
      · intro f hf
        have := hge f hf
        rw [ht]
        exact ⟨by omega, ht0, .inr this⟩
      · refine within_le (blocks_fit ev r (asks c n)) (g := t) (by simp [asks]) ?_
          (plain_cap ev (s := s) ⟨hi, hd, he, by rw [hn]; nofun⟩ hn hc ht ht0 hge)
        intro f hf
        rcases List.mem_cons.1 hf with rfl | hf
        · omega
        · rw [List.eq_of_mem_replicate hf]; exact htf
  obtain ⟨-, h2, -, h4⟩ := data_in_order ev hi hd he hn hc both.1
  obtain ⟨h5, h6⟩ := h4 (by simp only [asks, List.length_cons, List.length_replicate]; omega) hcalls
  rcases linkpoint_each ev L nh hs hroom hmulti n r both.2 with ⟨hx, -⟩ | ⟨ps, h7, h8⟩
  · rw [hx] at h6
    exact absurd h6.symm hne
  · exact ⟨_, ps, h6, h2, by rw [h7, h5], h8⟩

/-- C72 is false for signed points with the default options: `linkpoint` takes the free space for 60 bytes more
than it is, so an input that does not fit in the first point is a panic and nothing is written. -/
theorem signed_too_large (ev : Bytes → PRes Bytes) {C : Crypto} (L : C.Laws) (nh : Bytes) {c : PointCmd C} {cs : List Bytes} (hs : CmdSized c cs)
    (hroom : Room c c.links.length) {k : C.Key} (hk : c.key = some k) {s : Src} (hlong : freeFor c c.links.length < s.rest.length) (n : Nat) :
    pointCmd ev nh c n { input := some s } = ([], .stop .panic) := by
  obtain ⟨-, -, b3⟩ := buildRead_eq ev L nh hs hs.links hroom 0 { input := some s }
  have ha : askedFor c c.links.length = freeFor c c.links.length + 60 := by unfold askedFor; rw [hk]; rfl
  have hl : ((s.rest.take (askedFor c c.links.length))).length = min (askedFor c c.links.length) s.rest.length := List.length_take
  have hne : s.rest.take (askedFor c c.links.length) ≠ [] := by
    intro e
    rw [e] at hl
    simp only [List.length_nil] at hl
    omega
  have e : readNext ev { input := some s } (askedFor c c.links.length) [] =
      .ok (true, { input := some ⟨s.all, s.rest.drop (askedFor c c.links.length)⟩, calls := 2 ^ 64 - 2 }, s.rest.take (askedFor c c.links.length)) := by
    rw [readNext_fresh (by simp) rfl]
    unfold readFresh
    simp only [read_plain, Option.getD_none]
    rw [if_neg (by rw [List.isEmpty_iff]; exact hne)]
    unfold haveRead
    simp only [Option.isSome_none, Bool.false_eq_true, false_and, if_false, List.nil_append]
    rw [checkSize_small (by rw [hl]; omega) rfl]
  have := (b3 _ _ e).2 (by rw [hl]; omega)
  unfold pointCmd
  rw [this]

/-! ### What the options do not keep -/

/-- With the mode `carry` a block that is read while something is left over comes before what is left over of it:
bytes change their order. -/
theorem carry_disorders : (blocks .ok { input := some ⟨ascii "abcdef", ascii "abcdef"⟩, takeMax := some 3, onOverflow := .carry } [2, 2, 2, 2]).1 =
    [ascii "ab", ascii "fc", ascii "de"] := by decide +kernel

/-- With a delimiter and the mode `trim`, a record that is too long is cut and what was not read of it is the next
record. -/
theorem trim_makes_records : blocks .ok { input := some ⟨ascii "abcdef\nx\n", ascii "abcdef\nx\n"⟩, delim := some 10, onOverflow := .trim } [2, 2, 2, 2, 2] =
    ([ascii "ab", ascii "de", ascii "", ascii "x"], .ended) := by decide +kernel

/-- With `--data-reads` and the mode `split` what is left over at the last call is lost. -/
theorem reads_lose_rest : blocks .ok { input := some ⟨ascii "abcd", ascii "abcd"⟩, takeMax := some 4, calls := 1, onOverflow := .split } [2, 2, 2] =
    ([ascii "ab"], .ended) := by decide +kernel

/-- With `--no-data` there is no end of empty blocks. -/
theorem no_data_never_ends (ev : Bytes → PRes Bytes) (fs : List Nat) (k : Nat) (h : fs.length ≤ k) :
    blocks ev { input := none, calls := k } fs = (fs.map fun _ => [], .running) := by
  induction fs generalizing k with
  | nil => rfl
  | cons f fs ih =>
    simp only [List.length_cons] at h
    rw [blocks_cons, readNext_fresh (by simp only; omega) rfl]
    have := ih (k - 1) (by omega)
    unfold readFresh
    simp only
    rw [this]
    rfl

/-- No free space is taken for the end of the input. -/
theorem full_point_ends : blocks .ok { input := some ⟨ascii "abc", ascii "abc"⟩ } [0] = ([], .ended) := by decide +kernel

/-- Without a `--data-bufsize` the text of a record is cut at the free space before it is evaluated: one record
becomes two. -/
theorem long_text_splits : blocks (evalData true Eval.Scope.unit 100) { input := some ⟨ascii "\\x41\\x42\n", ascii "\\x41\\x42\n"⟩, delim := some 10, eval := true } [3, 3, 3, 3] =
    ([ascii "A", ascii "B", ascii ""], .ended) := by decide +kernel

/-! ### Cases that meet the hypotheses -/

example : Asked { input := some ⟨ascii "abcde", ascii "abcde"⟩, takeMax := some 4, onOverflow := .split } [2, 3, 2, 2] ∧
    Asked { input := some ⟨ascii "abcde", ascii "abcde"⟩ } [2, 3, 2, 2] := by
  constructor <;> intro f hf <;> simp at hf <;> rcases hf with rfl | rfl | rfl <;> decide

/-- "abcde" in blocks of four split into pieces of two and three. -/
example : blocks .ok { input := some ⟨ascii "abcde", ascii "abcde"⟩, takeMax := some 4, onOverflow := .split } [2, 3, 2, 2] =
    ([ascii "ab", ascii "cd", ascii "e"], .ended) := by decide +kernel

example : Records 10 (ascii "ab\n\nc") [ascii "ab", [], ascii "c"] :=
  .cons (w := ascii "ab") (s := ascii "\nc") (by decide) (.cons (w := []) (s := ascii "c") (by decide) (.last (by decide) (by decide)))

example : Values (recordValue .ok { input := none }) none [ascii "ab", [], ascii "c"] [2, 1, 5] [ascii "ab", [], ascii "c"] :=
  .cons (by decide) rfl (by decide) (.cons (by decide) rfl (by decide) (.cons (by decide) rfl (by decide) .nil))

example : Mapped (recordValue .ok { input := none }) 4 [ascii "abcd", ascii "c"] [ascii "abcd", ascii "c"] :=
  .cons (by decide) rfl (.cons (by decide) rfl .nil)

/-- A signed command without links, and one with `--multi-link`. -/
def exPointCmd (key : Option UInt8) : PointCmd toyCrypto where
  group := List.replicate 32 1
  domain := List.replicate 16 2
  rspace := []
  links := [⟨List.replicate 16 3, List.replicate 32 4⟩]
  key := key
  stamp i := 1000 + i % 1000
  multi := true
  tag := some fun _ => List.replicate 16 5

example (key : Option UInt8) : CmdSized (exPointCmd key) [] ∧ Room (exPointCmd key) (laterLinks (exPointCmd key)) ∧
    Room (exPointCmd key) (exPointCmd key).links.length ∧ 64000 < freeFor (exPointCmd key) (laterLinks (exPointCmd key)) := by
  refine ⟨⟨rfl, rfl, fun i => ?_, ?_, ?_, Space.isSpace_nil, by decide, rfl⟩, ?_, ?_, ?_⟩
  · show 1000 + i % 1000 < 2 ^ 64
    omega
  · intro l hl
    rcases List.mem_singleton.1 hl with rfl
    decide
  · intro t ht i
    rw [← Option.some.inj ht]
    rfl
  · cases key
    · exact (by decide : 160 + 0 ≤ 65024)
    · exact (by decide : 160 + 96 ≤ 65024)
  · cases key
    · exact (by decide : 112 + 0 ≤ 65024)
    · exact (by decide : 112 + 96 ≤ 65024)
  · cases key
    · exact (by decide : 64000 < 65024 - (160 + 0))
    · exact (by decide : 64000 < 65024 - (160 + 96))

/-- Three points with the data "ab", "cd" and "e", the later ones linked to the one before. -/
example : (pointCmd .ok (List.replicate 32 0) (exPointCmd (some 9)) 5 { input := some ⟨ascii "abcde", ascii "abcde"⟩, takeMax := some 2 }).2 = .ended ∧
    (pointCmd .ok (List.replicate 32 0) (exPointCmd (some 9)) 5 { input := some ⟨ascii "abcde", ascii "abcde"⟩, takeMax := some 2 }).1.length = 3 := by
  constructor <;> decide +kernel

end Verif.Props
