import Verif.Spec.CliData
import Verif.Lemmas.Packet2
import Verif.Props.Packet
import Verif.Props.Space
/-!
# Lemmas about reading data for points
-/
namespace Verif.Rd
open Verif Verif.Pkt Verif.Pred Verif.Spec

theorem blocks_cons (ev : Bytes → PRes Bytes) (r : Reader) (f : Nat) (fs : List Nat) :
    blocks ev r (f :: fs) =
      match readNext ev r f [] with
      | .error e => ([], .stop e)
      | .ok (false, _, _) => ([], .ended)
      | .ok (true, r', d) => (d :: (blocks ev r' fs).1, (blocks ev r' fs).2) := by
  show (match readNext ev r f [] with | .error e => _ | .ok (false, _, _) => _ | .ok (true, r', d) => _) = _
  rcases readNext ev r f [] with e | ⟨b, r', d⟩
  · rfl
  · cases b <;> rfl

theorem checkSize_fits {r : Reader} {buf : Bytes} {free : Nat} {r' : Reader} {b : Bytes} (h : checkSize r buf free = .ok (r', b)) :
    b.length ≤ free := by
  unfold checkSize at h
  simp only at h
  revert h
  generalize joined r buf = x
  intro h
  by_cases hlt : free < x.2.length
  · rw [if_pos hlt] at h
    cases hm : r.onOverflow <;> rw [hm] at h <;> simp only at h
    · cases h
    all_goals (injection h with h; injection h with h1 h2; rw [← h2, List.length_take]; omega)
  · rw [if_neg hlt] at h
    injection h with h
    rw [h] at hlt
    exact Nat.le_of_not_lt hlt

/-- Every block fits. -/
theorem readNext_fits {ev : Bytes → PRes Bytes} {r : Reader} {f : Nat} {r' : Reader} {d : Bytes} (h : readNext ev r f [] = .ok (true, r', d)) :
    d.length ≤ f := by
  have hv : ∀ {q : Reader} {buf : Bytes}, haveRead ev q f buf = .ok (true, r', d) → d.length ≤ f := by
    intro q buf h
    unfold haveRead at h
    simp only at h
    split at h
    · cases h
    · split at h
      · cases h
      · rename_i hc; cases h; exact checkSize_fits hc
  have hf : ∀ {q : Reader}, readFresh ev q f [] = .ok (true, r', d) → d.length ≤ f := by
    intro q h
    unfold readFresh at h
    simp only at h
    split at h
    · cases h; simp
    · split at h
      · split at h
        · split at h
          · cases h
          · exact hv h
        · cases h
      · exact hv h
  unfold readNext at h
  split at h
  · cases h
  · split at h
    · exact hf h
    · simp only at h
      split at h
      · cases h
      · split at h
        · cases h
        · rename_i hc; cases h; exact checkSize_fits hc

/-- A reader of whole input: no delimiter, no evaluation. -/
structure Plain (r : Reader) (s : Src) : Prop where
  input : r.input = some s
  delim : r.delim = none
  eval : r.eval = false
  next : r.next ≠ some []

/-- What is still to come. -/
def Reader.left (r : Reader) (s : Src) : Bytes := r.next.getD [] ++ s.rest

theorem checkSize_small {r : Reader} {buf : Bytes} {free : Nat} (h : buf.length ≤ free) (hn : r.next = none) :
    checkSize r buf free = .ok (r, buf) := by
  have hj : joined r buf = (r, buf) := by
    unfold joined
    rw [hn]
    cases r.onOverflow <;> rfl
  unfold checkSize
  simp only [hj]
  rw [if_neg (by omega)]

theorem checkSize_split {r : Reader} {buf : Bytes} {free : Nat} (hm : r.onOverflow = .split) :
    checkSize r buf free = if free < buf.length then .ok ({ r with next := some (buf.drop free) }, buf.take free) else .ok (r, buf) := by
  have hj : joined r buf = (r, buf) := by
    unfold joined
    rw [hm]
  unfold checkSize
  simp only [hj, hm]

/-- What a reader may change: the input read, what is left over, the calls. -/
structure Kept (r r' : Reader) : Prop where
  takeMax : r'.takeMax = r.takeMax
  cycle : r'.cycle = r.cycle
  eval : r'.eval = r.eval
  delim : r'.delim = r.delim
  mode : r'.onOverflow = r.onOverflow

/-- The part of a read that follows the source. -/
theorem plain_have {ev : Bytes → PRes Bytes} {r : Reader} {s : Src} (h : Plain r s) (hn : r.next = none) {f : Nat} {buf : Bytes}
    (hb : buf ≠ []) (hf : 0 < f) (hm : r.onOverflow = .split ∨ buf.length ≤ f) :
    ∃ r' d, haveRead ev r f buf = .ok (true, r', d) ∧ Plain r' s ∧ Kept r r' ∧ r'.calls = r.calls ∧ d ≠ [] ∧
      (r.onOverflow = .split ∨ r'.next = none) ∧ buf = d ++ r'.next.getD [] ∧ (buf.length ≤ f → r'.next = none) := by
  have e : haveRead ev r f buf = match checkSize r buf f with | .error e => .error e | .ok (r, buf) => .ok (true, r, buf) := by
    unfold haveRead
    simp only [h.delim, h.eval, Option.isSome_none, Bool.false_eq_true, false_and, if_false]
    cases checkSize r buf f <;> rfl
  rw [e]
  by_cases hl : buf.length ≤ f
  · rw [checkSize_small hl hn]
    exact ⟨r, buf, rfl, h, ⟨rfl, rfl, rfl, rfl, rfl⟩, rfl, hb, .inr hn, by simp [hn], fun _ => hn⟩
  · have hm : r.onOverflow = .split := hm.resolve_right hl
    rw [checkSize_split hm, if_pos (by omega)]
    refine ⟨_, _, rfl, ⟨h.input, h.delim, h.eval, ?_⟩, ⟨rfl, rfl, rfl, rfl, rfl⟩, rfl, ?_, .inl hm, ?_, fun h => absurd h hl⟩
    · intro hc
      have hc : buf.drop f = [] := Option.some.inj hc
      have := List.drop_eq_nil_iff.1 hc
      omega
    · intro hc
      have := congrArg List.length hc
      rw [List.length_take] at this
      simp only [List.length_nil] at this
      omega
    · simp

theorem read_plain {s : Src} {t : Nat} : s.read t none = (s.rest.take t, { s with rest := s.rest.drop t }) := by
  unfold Src.read
  simp only
  congr 1
  congr 1
  rw [List.length_take]
  by_cases h : t ≤ s.rest.length
  · rw [Nat.min_eq_left h]
  · rw [Nat.min_eq_right (by omega), List.drop_eq_nil_of_le (by omega), List.drop_eq_nil_of_le (by omega)]

/-- One read of a whole input. -/
theorem plain_step {ev : Bytes → PRes Bytes} {r : Reader} {s : Src} (h : Plain r s) {f : Nat}
    (hf : 0 < f) (ht : 0 < r.takeMax.getD f) (hm : r.onOverflow = .split ∨ (r.next = none ∧ r.takeMax.getD f ≤ f)) (hcalls : 0 < r.calls) :
    (r.left s ≠ [] → ∃ r' s' d, readNext ev r f [] = .ok (true, r', d) ∧ Plain r' s' ∧ Kept r r' ∧ r.calls ≤ r'.calls + 1 ∧ d ≠ [] ∧
      (r.onOverflow = .split ∨ r'.next = none) ∧ r.left s = d ++ r'.left s' ∧ s'.all = s.all ∧
      (r.next = none → d.length ≤ r.takeMax.getD f ∧ (r.takeMax.getD f ≤ f → r'.next = none))) ∧
    (r.left s = [] → r.cycle = false → ∃ r' b, readNext ev r f [] = .ok (false, r', b)) ∧
    (r.left s = [] → r.cycle = true → s.all ≠ [] → ∃ r' s' d, readNext ev r f [] = .ok (true, r', d) ∧ Plain r' s' ∧ Kept r r' ∧
      r.calls ≤ r'.calls + 1 ∧ d ≠ [] ∧ (r.onOverflow = .split ∨ r'.next = none) ∧ s.all = d ++ r'.left s' ∧ s'.all = s.all ∧
      (r.next = none → d.length ≤ r.takeMax.getD f ∧ (r.takeMax.getD f ≤ f → r'.next = none))) := by
  have hc0 : r.calls ≠ 0 := by omega
  cases hn : r.next with
  | some b =>
    have hb : b ≠ [] := fun e => h.next (by rw [hn, e])
    have hl : r.left s ≠ [] := by
      intro e
      unfold Reader.left at e
      rw [hn] at e
      exact hb (List.append_eq_nil_iff.1 e).1
    refine ⟨fun _ => ?_, fun e => absurd e hl, fun e => absurd e hl⟩
    have hm : r.onOverflow = .split := by
      rcases hm with h | ⟨h, _⟩
      · exact h
      · rw [hn] at h; cases h
    have e : readNext ev r f [] = match checkSize { r with next := none } b f with
        | .error e => .error e | .ok (r, buf) => .ok (true, r, buf) := by
      unfold readNext
      rw [if_neg hc0, hn]
      simp only
      rw [if_neg (show ¬ r.onOverflow = .carry by rw [hm]; nofun)]
      simp only
      rcases checkSize { r with next := none } b f with e | ⟨q, b⟩ <;> rfl
    rw [e, checkSize_split (r := { r with next := none }) hm]
    by_cases hlt : f < b.length
    · rw [if_pos hlt]
      refine ⟨_, s, _, rfl, ⟨h.input, h.delim, h.eval, ?_⟩, ⟨rfl, rfl, rfl, rfl, rfl⟩, Nat.le_succ _, ?_, .inl hm, ?_, rfl, nofun⟩
      · intro hc
        have hc : b.drop f = [] := Option.some.inj hc
        have := List.drop_eq_nil_iff.1 hc
        omega
      · intro hc
        have := congrArg List.length hc
        rw [List.length_take] at this
        simp only [List.length_nil] at this
        omega
      · unfold Reader.left
        rw [hn]
        show b ++ s.rest = b.take f ++ (b.drop f ++ s.rest)
        rw [← List.append_assoc, List.take_append_drop]
    · rw [if_neg hlt]
      exact ⟨_, s, _, rfl, ⟨h.input, h.delim, h.eval, nofun⟩, ⟨rfl, rfl, rfl, rfl, rfl⟩, Nat.le_succ _, hb, .inl hm, by
        unfold Reader.left
        rw [hn]; simp, rfl, nofun⟩
  | none =>
    have hleft : r.left s = s.rest := by unfold Reader.left; rw [hn]; simp
    have hm' : r.onOverflow = .split ∨ r.takeMax.getD f ≤ f := by
      rcases hm with h | h
      · exact .inl h
      · exact .inr h.2
    have e : readNext ev r f [] = readFresh ev r f [] := by
      unfold readNext; rw [if_neg hc0, hn]
    have htk : ∀ l : Bytes, l ≠ [] → l.take (r.takeMax.getD f) ≠ [] := by
      intro l hl hc
      have := congrArg List.length hc
      rw [List.length_take] at this
      simp only [List.length_nil] at this
      have := List.length_pos_iff.2 hl
      omega
    have gen : ∀ l : Bytes, l ≠ [] → ∃ r' d, haveRead ev { r with calls := r.calls - 1, input := some ⟨s.all, l.drop (r.takeMax.getD f)⟩ } f (l.take (r.takeMax.getD f)) = .ok (true, r', d) ∧
        Plain r' ⟨s.all, l.drop (r.takeMax.getD f)⟩ ∧ Kept r r' ∧ r.calls ≤ r'.calls + 1 ∧ d ≠ [] ∧
        (r.onOverflow = .split ∨ r'.next = none) ∧ l = d ++ r'.left ⟨s.all, l.drop (r.takeMax.getD f)⟩ ∧
        d.length ≤ r.takeMax.getD f ∧ (r.takeMax.getD f ≤ f → r'.next = none) := by
      intro l hl
      obtain ⟨r', d, h1, h2, h3, h4, h5, h6, h7, h8⟩ := plain_have (ev := ev) (r := { r with calls := r.calls - 1, input := some ⟨s.all, l.drop (r.takeMax.getD f)⟩ })
        (s := ⟨s.all, l.drop (r.takeMax.getD f)⟩) ⟨rfl, h.delim, h.eval, by rw [show Reader.next _ = r.next from rfl]; exact h.next⟩ hn (f := f)
        (htk l hl) hf (by
          rcases hm' with h | h
          · exact .inl h
          · right; rw [List.length_take]; omega)
      refine ⟨r', d, h1, h2, ⟨h3.1, h3.2, h3.3, h3.4, h3.5⟩, ?_, h5, h6, ?_, ?_, fun hle => h8 (by rw [List.length_take]; omega)⟩
      · rw [h4]; show r.calls ≤ r.calls - 1 + 1; omega
      · unfold Reader.left
        rw [← List.append_assoc, ← h7]
        exact (List.take_append_drop _ _).symm
      · have := congrArg List.length h7
        rw [List.length_take, List.length_append] at this
        omega
    have ef : readFresh ev r f [] = if (s.rest.take (r.takeMax.getD f)).isEmpty then
        (if r.cycle then
          (if (s.all.take (r.takeMax.getD f)).isEmpty then .ok (false, { r with input := none, calls := 0 }, [])
           else haveRead ev { r with calls := r.calls - 1, input := some ⟨s.all, s.all.drop (r.takeMax.getD f)⟩ } f (s.all.take (r.takeMax.getD f)))
         else .ok (false, { r with calls := r.calls - 1, input := some ⟨s.all, s.rest.drop (r.takeMax.getD f)⟩ }, []))
        else haveRead ev { r with calls := r.calls - 1, input := some ⟨s.all, s.rest.drop (r.takeMax.getD f)⟩ } f (s.rest.take (r.takeMax.getD f)) := by
      unfold readFresh
      simp only [h.input, h.delim, read_plain, List.nil_append]
    rw [e, ef, hleft]
    refine ⟨fun hl => ?_, fun hl hc => ?_, fun hl hc ha => ?_⟩
    · rw [if_neg (by rw [List.isEmpty_iff]; exact htk _ hl)]
      obtain ⟨r', d, h1, h2, h3, h4, h5, h6, h7, h8⟩ := gen s.rest hl
      exact ⟨r', _, d, h1, h2, h3, h4, h5, h6, h7, rfl, fun _ => h8⟩
    · rw [hl, List.take_nil, if_pos (show ([] : Bytes).isEmpty = true from rfl), hc, if_neg Bool.false_ne_true]
      exact ⟨_, _, rfl⟩
    · rw [hl, List.take_nil, if_pos (show ([] : Bytes).isEmpty = true from rfl), if_pos hc, if_neg (by rw [List.isEmpty_iff]; exact htk _ ha)]
      obtain ⟨r', d, h1, h2, h3, h4, h5, h6, h7, h8⟩ := gen s.all ha
      exact ⟨r', _, d, h1, h2, h3, h4, h5, h6, h7, rfl, fun _ => h8⟩

theorem upTo_at {d : UInt8} {w s : Bytes} (h : d ∉ w) : ∀ n, w.length ≤ n → upTo d ((w ++ d :: s).take (n + 1)) = w ++ [d] := by
  induction w with
  | nil => intro n _; simp [upTo]
  | cons x w ih =>
    intro n hn
    simp only [List.length_cons] at hn
    obtain ⟨n, rfl⟩ : ∃ m, n = m + 1 := ⟨n - 1, by omega⟩
    simp only [List.cons_append, List.take_succ_cons, upTo]
    rw [if_neg (fun e : x = d => h (e ▸ List.mem_cons_self)), ih (fun hm => h (List.mem_cons_of_mem _ hm)) n (by omega)]

theorem upTo_none {d : UInt8} {w : Bytes} (h : d ∉ w) : upTo d w = w := by
  induction w with
  | nil => rfl
  | cons x w ih =>
    simp only [upTo]
    rw [if_neg (fun e : x = d => h (e ▸ List.mem_cons_self)), ih (fun hm => h (List.mem_cons_of_mem _ hm))]

/-- The first record of a text: what is read of it and what remains. -/
theorem read_record {d : UInt8} {all t : Bytes} {w : Bytes} {ws : List Bytes} (h : Records d t (w :: ws)) {n : Nat} (hn : w.length ≤ n) :
    ∃ o rest, Src.read ⟨all, t⟩ n (some d) = (o, ⟨all, rest⟩) ∧ Records d rest ws ∧ o ≠ [] ∧ d ∉ w ∧
      (if some d = o.getLast? then o.dropLast else o) = w := by
  cases h with
  | last hne hd =>
    have : t.take (n + 1) = t := List.take_of_length_le (by omega)
    refine ⟨t, [], ?_, .nil, hne, hd, ?_⟩
    · unfold Src.read
      simp only [this, upTo_none hd, List.drop_length]
    · rw [if_neg]
      intro e
      exact hd (List.mem_of_getLast? e.symm)
  | cons hd hr =>
    rename_i s
    refine ⟨w ++ [d], s, ?_, hr, by simp, hd, by simp⟩
    unfold Src.read
    simp only [upTo_at hd n hn]
    congr 2
    rw [show w ++ d :: s = (w ++ [d]) ++ s by simp, List.drop_left]

theorem read_record_long {d : UInt8} {all t : Bytes} {w : Bytes} {ws : List Bytes} (h : Records d t (w :: ws)) {n : Nat} (hn : n < w.length) :
    (Src.read ⟨all, t⟩ n (some d)).1 = w.take (n + 1) ∧ d ∉ w := by
  have key : ∀ s, d ∉ w → upTo d ((w ++ s).take (n + 1)) = w.take (n + 1) := by
    intro s hd
    rw [List.take_append_of_le_length (by omega)]
    exact upTo_none (fun hm => hd (List.mem_of_mem_take hm))
  cases h with
  | last hne hd => exact ⟨by have := key [] hd; rw [List.append_nil] at this; exact this, hd⟩
  | cons hd hr => exact ⟨key _ hd, hd⟩

theorem read_none {d : UInt8} {all : Bytes} {n : Nat} : Src.read ⟨all, []⟩ n (some d) = ([], ⟨all, []⟩) := rfl

end Verif.Rd
